import Verif.Lemmas.BalanceReplace
import Verif.Spec.BalanceReplace

/-! # The replace callback in balance: the sequence of calls -/

namespace P4est
open Spec

variable {d : ℕ} {α σ : Type}

theorem famOf_watch (init : Quad d → σ → α × σ) (p : Quad d) (A : ℕ → List (Leaf d α)) (T : List (ReplaceCall d α)) :
    ∀ (js : List ℕ) (s : σ), famOf (watchInit init) p A js (s, T) =
      ((famOf init p A js s).1, (famOf init p A js s).2, T) := by
  intro js
  induction js with
  | nil => intro s; rfl
  | cons j js ih =>
    intro s
    unfold famOf
    by_cases h : (A j).length = 1
    · rw [if_pos h, if_pos h, ih]
    · rw [if_neg h, if_neg h]
      have : (watchInit init (kid p j) (s, T)).2 = ((init (kid p j) s).2, T) := rfl
      rw [this, ih]
      rfl

theorem famOf_quads (init : Quad d → σ → α × σ) (p : Quad d) (A : ℕ → List (Leaf d α)) :
    ∀ (js : List ℕ) (s : σ), (∀ j ∈ js, (A j).length = 1 → (A j).map Leaf.q = [kid p j]) →
      (famOf init p A js s).1.map Leaf.q = js.map (kid p) := by
  intro js
  induction js with
  | nil => intro s _; rfl
  | cons j js ih =>
    intro s h
    have ih' := fun s => ih s fun k hk => h k (by simp [hk])
    unfold famOf
    by_cases h1 : (A j).length = 1
    · rw [if_pos h1, List.map_append, h j (by simp) h1, ih']
      rfl
    · rw [if_neg h1, List.map_cons, ih']
      rfl

theorem famOf_fresh (init : Quad d → σ → α × σ) (p : Quad d) (A : ℕ → List (Leaf d α)) :
    ∀ (js : List ℕ) (s : σ), (∀ j ∈ js, ∀ x ∈ A j, ∃ s, x.data = (init x.q s).1) →
      ∀ x ∈ (famOf init p A js s).1, ∃ s, x.data = (init x.q s).1 := by
  intro js
  induction js with
  | nil => intro s _ x hx; simp [famOf] at hx
  | cons j js ih =>
    intro s h x hx
    have ih' := fun s => ih s fun k hk => h k (by simp [hk])
    unfold famOf at hx
    by_cases h1 : (A j).length = 1
    · rw [if_pos h1] at hx
      rcases List.mem_append.mp hx with c | c
      · exact h j (by simp) x c
      · exact ih' s x c
    · rw [if_neg h1] at hx
      rcases List.mem_cons.mp hx with c | c
      · exact ⟨s, by rw [c]⟩
      · exact ih' _ x c

theorem partsOf_watch {rec : Leaf d α → List (Leaf d α) → σ × List (ReplaceCall d α) →
      Option (List (Leaf d α) × σ × List (ReplaceCall d α))} {A : ℕ → List (Leaf d α)} {fam : List (Leaf d α)}
    {X : ℕ → Leaf d α} {Q : ℕ → List (Leaf d α) → List (ReplaceCall d α) → Prop} : ∀ (js : List ℕ), js.Nodup →
    (∀ j ∈ js, fam[j]? = some (X j)) →
    (∀ j ∈ js, (A j).length ≠ 1 → ∀ s T0, ∃ out s' T, rec (X j) (A j) (s, T0) = some (out, s', T0 ++ T) ∧ Q j out T) →
    ∀ s T0, ∃ (O : ℕ → List (Leaf d α)) (S : ℕ → List (ReplaceCall d α)) (s' : σ),
      partsOf rec A fam js (s, T0) = some (js.flatMap O, s', T0 ++ js.flatMap S) ∧
      ∀ j ∈ js, ((A j).length = 1 → O j = [X j] ∧ S j = []) ∧ ((A j).length ≠ 1 → Q j (O j) (S j)) := by
  intro js
  induction js with
  | nil =>
    intro _ _ _ s T0
    exact ⟨fun _ => [], fun _ => [], s, by simp [partsOf], fun j hj => by simp at hj⟩
  | cons j js ih =>
    intro hn hX hr s T0
    have hn' := List.nodup_cons.mp hn
    have ih' := ih hn'.2 (fun k hk => hX k (by simp [hk])) (fun k hk => hr k (by simp [hk]))
    by_cases h1 : (A j).length = 1
    · obtain ⟨O, S, s', e, h⟩ := ih' s T0
      refine ⟨Function.update O j [X j], Function.update S j [], s', ?_, ?_⟩
      · unfold partsOf
        rw [obind (hX j (by simp)), if_pos h1, obind e]
        have e1 : js.flatMap (Function.update O j [X j]) = js.flatMap O :=
          List.flatMap_congr fun k hk => Function.update_of_ne (by rintro rfl; exact hn'.1 hk) _ _
        have e2 : js.flatMap (Function.update S j []) = js.flatMap S :=
          List.flatMap_congr fun k hk => Function.update_of_ne (by rintro rfl; exact hn'.1 hk) _ _
        rw [List.flatMap_cons, List.flatMap_cons, e1, e2, Function.update_self, Function.update_self]
        rfl
      · intro k hk
        rcases List.mem_cons.mp hk with c | c
        · subst c
          rw [Function.update_self, Function.update_self]
          exact ⟨fun _ => ⟨rfl, rfl⟩, fun h => absurd h1 h⟩
        · have hne : k ≠ j := by rintro rfl; exact hn'.1 c
          rw [Function.update_of_ne hne, Function.update_of_ne hne]
          exact h k c
    · obtain ⟨out, s1, T, e0, hQ⟩ := hr j (by simp) h1 s T0
      obtain ⟨O, S, s', e, h⟩ := ih' s1 (T0 ++ T)
      refine ⟨Function.update O j out, Function.update S j T, s', ?_, ?_⟩
      · unfold partsOf
        rw [obind (hX j (by simp)), if_neg h1, obind e0]
        dsimp only
        rw [obind e]
        have e1 : js.flatMap (Function.update O j out) = js.flatMap O :=
          List.flatMap_congr fun k hk => Function.update_of_ne (by rintro rfl; exact hn'.1 hk) _ _
        have e2 : js.flatMap (Function.update S j T) = js.flatMap S :=
          List.flatMap_congr fun k hk => Function.update_of_ne (by rintro rfl; exact hn'.1 hk) _ _
        rw [List.flatMap_cons, List.flatMap_cons, e1, e2, Function.update_self, Function.update_self,
          List.append_assoc]
      · intro k hk
        rcases List.mem_cons.mp hk with c | c
        · subst c
          rw [Function.update_self, Function.update_self]
          exact ⟨fun h => absurd h h1, fun _ => hQ⟩
        · have hne : k ≠ j := by rintro rfl; exact hn'.1 c
          rw [Function.update_of_ne hne, Function.update_of_ne hne]
          exact h k c

theorem chain_given {p : Leaf d α} {c0 : ReplaceCall d α} {js : List ℕ} {S : ℕ → List (ReplaceCall d α)}
    {X : ℕ → Leaf d α} (h0 : c0.outgoing = [p])
    (h : ∀ j ∈ js, X j ∈ c0.after ∧ ∀ T1 c T2, S j = T1 ++ c :: T2 → c.outgoing = [X j] ∨ ∃ b ∈ T1, ∃ x ∈ b.after, c.outgoing = [x]) :
    ∀ T1 c T2, c0 :: js.flatMap S = T1 ++ c :: T2 → c.outgoing = [p] ∨ ∃ b ∈ T1, ∃ x ∈ b.after, c.outgoing = [x] := by
  have hg : ∀ (js : List ℕ) (P : List (ReplaceCall d α)), (∀ j ∈ js, (∃ b ∈ P, X j ∈ b.after) ∧
      ∀ T1 c T2, S j = T1 ++ c :: T2 → c.outgoing = [X j] ∨ ∃ b ∈ T1, ∃ x ∈ b.after, c.outgoing = [x]) →
      ∀ T1 c T2, js.flatMap S = T1 ++ c :: T2 → ∃ b ∈ P ++ T1, ∃ x ∈ b.after, c.outgoing = [x] := by
    intro js
    induction js with
    | nil => intro P _ T1 c T2 e; simp at e
    | cons j js ih =>
      intro P hP T1 c T2 e
      rw [List.flatMap_cons] at e
      rcases List.append_eq_append_iff.mp e with ⟨a, e1, e2⟩ | ⟨a, e1, e2⟩
      · obtain ⟨b, hb, x, hx, h2⟩ := ih (P ++ S j) (fun k hk => by
            obtain ⟨⟨b, hb, h3⟩, h4⟩ := hP k (by simp [hk])
            exact ⟨⟨b, List.mem_append_left _ hb, h3⟩, h4⟩) a c T2 e2
        exact ⟨b, by rw [e1, ← List.append_assoc]; exact hb, x, hx, h2⟩
      · cases a with
        | nil =>
          simp only [List.append_nil, List.nil_append] at e1 e2
          obtain ⟨b, hb, x, hx, h2⟩ := ih (P ++ S j) (fun k hk => by
            obtain ⟨⟨b, hb, h3⟩, h4⟩ := hP k (by simp [hk])
            exact ⟨⟨b, List.mem_append_left _ hb, h3⟩, h4⟩) [] c T2 e2.symm
          exact ⟨b, by rw [← e1]; simpa using hb, x, hx, h2⟩
        | cons c' a =>
          have hc : c' = c := by simp only [List.cons_append, List.cons.injEq] at e2; exact e2.1.symm
          subst hc
          obtain ⟨⟨b, hb, h3⟩, h4⟩ := hP j (by simp)
          rcases h4 T1 c' a e1 with h5 | ⟨b', hb', x, hx, h5⟩
          · exact ⟨b, List.mem_append_left _ hb, X j, h3, h5⟩
          · exact ⟨b', List.mem_append_right _ hb', x, hx, h5⟩
  intro T1 c T2 e
  cases T1 with
  | nil =>
    simp only [List.nil_append, List.cons.injEq] at e
    left
    rw [← e.1, h0]
  | cons b T1 =>
    simp only [List.cons_append, List.cons.injEq] at e
    right
    have := hg js [c0] (fun j hj => ⟨⟨c0, by simp, (h j hj).1⟩, (h j hj).2⟩) T1 c T2 e.2
    rw [e.1] at this
    exact this

/-- The recursive function calls the callback as described. -/
theorem replaceRec_narrates (hd : 0 < d) (init : Quad d → σ → α × σ)
    (replace : List (Leaf d α) → List (Leaf d α) → σ → (ℕ → α) × σ) : ∀ (n : ℕ) (p : Leaf d α) (arr : List (Leaf d α)),
    29 ≤ n + p.q.level → DividedBy p.q (arr.map Leaf.q) → (∀ x ∈ arr, ∃ s, x.data = (init x.q s).1) →
    ∀ s T0, ∃ out s' T, replaceRec (watchInit init) (watchReplace replace) n p arr (s, T0) = some (out, s', T0 ++ T) ∧
      out.map Leaf.q = arr.map Leaf.q ∧ Narrates init p out T ∧
      ∀ (M : Type) [AddCommMonoid M] (w : Leaf d α → M), Conserves replace w → (out.map w).sum = w p := by
  intro n
  induction n with
  | zero =>
    intro p arr hn h
    have := h.level hd
    omega
  | succ n ih =>
    intro p arr hn h hfr s T0
    have hl := h.level hd
    obtain ⟨A, hA, hP, hstep⟩ := replaceRec_step hd (watchInit init) (watchReplace replace) p h
    have hsub : ∀ j, j < 2 ^ d → ∀ x ∈ A j, x ∈ arr := fun j hj x hx => by
      rw [hA]
      exact List.mem_flatMap.mpr ⟨j, List.mem_range.mpr hj, hx⟩
    have hAv : ∀ j, j < 2 ^ d → ∀ q ∈ (A j).map Leaf.q, Valid q := fun j hj q hq => by
      obtain ⟨x, hx, rfl⟩ := List.mem_map.mp hq
      exact h.valids _ (List.mem_map_of_mem (hsub j hj x hx))
    have hkv : ∀ j, Valid (kid p.q j) := fun j => kid_valid h.valid hl j
    have hone : ∀ j, j < 2 ^ d → (A j).length = 1 → (A j).map Leaf.q = [kid p.q j] := fun j hj h1 =>
      (path_single hd (hkv j) (hAv j hj) (hP j hj)).2 (by rw [List.length_map]; exact h1)
    have hdiv : ∀ j, j < 2 ^ d → (A j).length ≠ 1 → DividedBy (kid p.q j) ((A j).map Leaf.q) := by
      intro j hj h1
      refine ⟨hkv j, hAv j hj, hP j hj, fun hm => h1 ?_⟩
      have h2 : [kid p.q j] = (A j).map Leaf.q :=
        path_eq_of_subset (show Path (start (kid p.q j)) [kid p.q j] (stop (kid p.q j)) from ⟨rfl, rfl⟩) (hP j hj)
          (by simpa using hm)
      have := congrArg List.length h2
      simpa using this.symm
    set fam := (famOf init p.q A (List.range (2 ^ d)) s).1 with hfam
    set s1 := (famOf init p.q A (List.range (2 ^ d)) s).2 with hs1
    have hfq : fam.map Leaf.q = kids p.q := famOf_quads init p.q A _ s fun j hj => hone j (List.mem_range.mp hj)
    have hflen : fam.length = 2 ^ d := by
      have := congrArg List.length hfq
      simpa [kids] using this
    set fam' : List (Leaf d α) := fam.mapIdx fun k x => ⟨x.q, (replace [p] fam s1).1 k⟩ with hfam'
    have hf'len : fam'.length = 2 ^ d := by rw [hfam', List.length_mapIdx, hflen]
    have hf'q : fam'.map Leaf.q = kids p.q := by
      rw [← hfq]
      apply List.ext_getElem
      · simp [hfam']
      · intro i h1 h2
        simp [hfam']
    set c0 : ReplaceCall d α := ⟨[p], fam, fam'⟩ with hc0
    have hX : ∃ X : ℕ → Leaf d α, ∀ j ∈ List.range (2 ^ d), fam'[j]? = some (X j) := by
      refine ⟨fun j => (fam'[j]?).getD p, fun j hj => ?_⟩
      have hj' := List.mem_range.mp hj
      show fam'[j]? = some ((fam'[j]?).getD p)
      rw [List.getElem?_eq_getElem (by omega)]
      rfl
    obtain ⟨X, hX⟩ := hX
    have hXq : ∀ j, j < 2 ^ d → (X j).q = kid p.q j := by
      intro j hj
      have h1 := congrArg (fun l => l[j]?) hf'q
      rw [List.getElem?_map, hX j (List.mem_range.mpr hj)] at h1
      unfold kids at h1
      rw [List.getElem?_map, List.getElem?_range hj] at h1
      exact Option.some.inj h1
    have hXm : ∀ j, j < 2 ^ d → X j ∈ fam' := fun j hj => List.mem_of_getElem? (hX j (List.mem_range.mpr hj))
    obtain ⟨O, S, s', e, hOS⟩ := partsOf_watch (rec := replaceRec (watchInit init) (watchReplace replace) n) (A := A)
      (Q := fun j out T => out.map Leaf.q = (A j).map Leaf.q ∧ Narrates init (X j) out T ∧
        ∀ (M : Type) [AddCommMonoid M] (w : Leaf d α → M), Conserves replace w → (out.map w).sum = w (X j)) (List.range (2 ^ d)) List.nodup_range hX
      (fun j hj h1 => by
        have hj' := List.mem_range.mp hj
        exact ih (X j) (A j) (by rw [hXq j hj']; show 29 ≤ n + (p.q.level + 1); omega) (by rw [hXq j hj']; exact hdiv j hj' h1)
          (fun x hx => hfr x (hsub j hj' x hx)))
      (replace [p] fam s1).2 (T0 ++ [c0])
    have hout : ∀ j, j < 2 ^ d → (O j).map Leaf.q = (A j).map Leaf.q := by
      intro j hj
      by_cases h1 : (A j).length = 1
      · rw [((hOS j (List.mem_range.mpr hj)).1 h1).1, hone j hj h1]
        simp [hXq j hj]
      · exact ((hOS j (List.mem_range.mpr hj)).2 h1).1
    have hoq : ((List.range (2 ^ d)).flatMap O).map Leaf.q = arr.map Leaf.q := by
      rw [hA, List.map_flatMap, List.map_flatMap]
      exact List.flatMap_congr fun j hj => hout j (List.mem_range.mp hj)
    have hOin : ∀ j, j < 2 ^ d → ∀ u ∈ O j, Valid u.q ∧ Cells u.q ⊆ Cells (kid p.q j) := by
      intro j hj u hu
      have h1 : u.q ∈ (A j).map Leaf.q := by rw [← hout j hj]; exact List.mem_map_of_mem hu
      exact ⟨hAv j hj _ h1, (valid_subset_iff hd (hkv j) (hAv j hj _ h1)).mpr ((hP j hj).mem h1)⟩
    have hS : ∀ j, j < 2 ^ d → ∀ c ∈ S j, (A j).length ≠ 1 := by
      intro j hj c hc h1
      rw [((hOS j (List.mem_range.mpr hj)).1 h1).2] at hc
      simp at hc
    have hN : ∀ j, j < 2 ^ d → ∀ c ∈ S j, Narrates init (X j) (O j) (S j) := fun j hj c hc =>
      ((hOS j (List.mem_range.mpr hj)).2 (hS j hj c hc)).2.1
    have hSin : ∀ j, j < 2 ^ d → ∀ c ∈ S j, ∃ r, c.outgoing.map Leaf.q = [r] ∧ Valid r ∧ Cells r ⊆ Cells (kid p.q j) := by
      intro j hj c hc
      obtain ⟨x, hx, -⟩ := (hN j hj c hc).family c hc
      have hx2 : c.outgoing.map Leaf.q = [x.q] := by rw [hx]; rfl
      have h2 := ((hN j hj c hc).which x.q).mp ⟨c, hc, hx2⟩
      rw [hXq j hj] at h2
      exact ⟨x.q, hx2, h2.1, h2.2.1⟩
    refine ⟨(List.range (2 ^ d)).flatMap O, s', c0 :: (List.range (2 ^ d)).flatMap S, ?_, hoq, ?_, ?_⟩
    · rw [hstep n (s, T0), famOf_watch]
      have hcall : callReplace (some (watchReplace replace)) [p] fam (s1, T0) = (fam', (replace [p] fam s1).2, T0 ++ [c0]) := rfl
      dsimp only
      rw [← hfam, ← hs1, hcall]
      dsimp only
      rw [e, List.append_assoc]
      rfl
    · refine ⟨?_, ?_, ?_, ?_, ?_, ?_⟩
      · intro c hc
        rcases List.mem_cons.mp hc with rfl | hc
        · exact ⟨p, rfl, hfq, hf'q⟩
        · obtain ⟨j, hj, hc⟩ := List.mem_flatMap.mp hc
          exact (hN j (List.mem_range.mp hj) c hc).family c hc
      · rw [List.map_cons, List.nodup_cons]
        constructor
        · intro hm
          obtain ⟨c, hc, he⟩ := List.mem_map.mp hm
          obtain ⟨j, hj, hc⟩ := List.mem_flatMap.mp hc
          obtain ⟨r, h1, -, h2⟩ := hSin j (List.mem_range.mp hj) c hc
          rw [h1] at he
          have he2 : r = p.q := by simpa [hc0] using he
          rw [he2] at h2
          exact absurd (lt_of_le_of_lt h2 (kid_subset hd h.valid hl (List.mem_range.mp hj))) (lt_irrefl _)
        · rw [List.map_flatMap, List.nodup_flatMap]
          refine ⟨fun j hj => ?_, ?_⟩
          · cases hc : S j with
            | nil => simp
            | cons c cs =>
              rw [← hc]
              exact (hN j (List.mem_range.mp hj) c (by rw [hc]; simp)).once
          · apply List.Pairwise.imp_of_mem (R := (· ≠ ·)) _ List.nodup_range
            intro i j hi hj hij
            rw [Function.onFun, List.disjoint_left]
            intro l h1 h2
            obtain ⟨c, hc, rfl⟩ := List.mem_map.mp h1
            obtain ⟨c', hc', he⟩ := List.mem_map.mp h2
            obtain ⟨r, e1, v1, i1⟩ := hSin i (List.mem_range.mp hi) c hc
            obtain ⟨r', e2, -, i2⟩ := hSin j (List.mem_range.mp hj) c' hc'
            rw [e1, e2] at he
            have : r' = r := by simpa using he
            subst this
            exact hij (kid_unique hd h.valid hl v1 (List.mem_range.mp hi) (List.mem_range.mp hj) i1 i2)
      · intro r
        constructor
        · rintro ⟨c, hc, he⟩
          rcases List.mem_cons.mp hc with rfl | hc
          · have : p.q = r := by simpa [hc0] using he
            subst this
            refine ⟨h.valid, subset_rfl, ?_⟩
            obtain ⟨x, hx⟩ := List.exists_mem_of_ne_nil _ (path_ne_nil h.path (start_lt_stop p.q))
            rw [← hoq] at hx
            obtain ⟨u, hu, rfl⟩ := List.mem_map.mp hx
            exact ⟨u, hu, h.inside hd (by rw [← hoq]; exact List.mem_map_of_mem hu)⟩
          · obtain ⟨j, hj, hc⟩ := List.mem_flatMap.mp hc
            have h1 := ((hN j (List.mem_range.mp hj) c hc).which r).mp ⟨c, hc, he⟩
            rw [hXq j (List.mem_range.mp hj)] at h1
            obtain ⟨v, i, u, hu, hs⟩ := h1
            exact ⟨v, i.trans (kid_subset hd h.valid hl (List.mem_range.mp hj)).1, u, List.mem_flatMap.mpr ⟨j, hj, hu⟩, hs⟩
        · rintro ⟨v, i, u, hu, hs⟩
          by_cases hr : r = p.q
          · exact ⟨c0, by simp, by rw [hr]; rfl⟩
          · have h1 := valid_ssubset_of_ne hd h.valid v i hr
            obtain ⟨-, hk, h2⟩ := kid_of_ssubset hd h.valid v h1
            set j := ancestorId r (p.q.level + 1) with hj
            have hrk : Cells r ⊆ Cells (kid p.q j) := (h2 j hk).mpr rfl
            obtain ⟨j', hj', hu'⟩ := List.mem_flatMap.mp hu
            have hu2 := hOin j' (List.mem_range.mp hj') u hu'
            have : j' = j := kid_unique hd h.valid hl hu2.1 (List.mem_range.mp hj') hk hu2.2 (hs.1.trans hrk)
            rw [this] at hj' hu'
            have hn1 : (A j).length ≠ 1 := by
              intro h3
              have h4 : u.q ∈ (A j).map Leaf.q := by rw [← hout _ hk]; exact List.mem_map_of_mem hu'
              rw [hone _ hk h3] at h4
              have : u.q = kid p.q j := by simpa using h4
              rw [this] at hs
              exact absurd (lt_of_lt_of_le hs hrk) (lt_irrefl _)
            have hNj := ((hOS j hj').2 hn1).2.1
            obtain ⟨c, hc, he⟩ := (hNj.which r).mpr ⟨v, by rw [hXq _ hk]; exact hrk, u, hu', hs⟩
            exact ⟨c, List.mem_cons_of_mem _ (List.mem_flatMap.mpr ⟨j, hj', hc⟩), he⟩
      · apply chain_given (X := X) rfl
        intro j hj
        refine ⟨hXm j (List.mem_range.mp hj), ?_⟩
        intro T1 c T2 he
        exact (hN j (List.mem_range.mp hj) c (by rw [he]; simp)).given T1 c T2 he
      · intro c hc
        rcases List.mem_cons.mp hc with rfl | hc
        · exact famOf_fresh init p.q A _ s fun j hj x hx => hfr x (hsub j (List.mem_range.mp hj) x hx)
        · obtain ⟨j, hj, hc⟩ := List.mem_flatMap.mp hc
          exact (hN j (List.mem_range.mp hj) c hc).fresh c hc
      · intro x hx
        obtain ⟨j, hj, hx⟩ := List.mem_flatMap.mp hx
        by_cases h1 : (A j).length = 1
        · rw [((hOS j hj).1 h1).1] at hx
          have : x = X j := by simpa using hx
          subst this
          exact ⟨c0, by simp, hXm j (List.mem_range.mp hj)⟩
        · obtain ⟨c, hc, hm⟩ := ((hOS j hj).2 h1).2.1.result x hx
          exact ⟨c, List.mem_cons_of_mem _ (List.mem_flatMap.mpr ⟨j, hj, hc⟩), hm⟩
    · intro M _ w hw
      have h1 : fam'.map w = (List.range (2 ^ d)).map fun j => w (X j) := by
        apply List.ext_getElem
        · simp [hf'len]
        · intro i hi hi2
          have hi3 : i < 2 ^ d := by simpa using hi2
          have h2 := hX i (List.mem_range.mpr hi3)
          rw [List.getElem?_eq_getElem (by omega)] at h2
          rw [List.getElem_map, List.getElem_map, List.getElem_range, Option.some.inj h2]
      have h2 : ∀ js : List ℕ, (∀ j ∈ js, j < 2 ^ d) → ((js.flatMap O).map w).sum = (js.map fun j => w (X j)).sum := by
        intro js
        induction js with
        | nil => intro _; rfl
        | cons j js ihj =>
          intro hjs
          have hj := List.mem_range.mpr (hjs j (by simp))
          rw [List.flatMap_cons, List.map_append, List.sum_append, ihj fun k hk => hjs k (by simp [hk]), List.map_cons,
            List.sum_cons]
          congr 1
          by_cases h3 : (A j).length = 1
          · rw [((hOS j hj).1 h3).1]
            simp
          · exact ((hOS j hj).2 h3).2.2 M w hw
      rw [h2 _ fun j hj => List.mem_range.mp hj, ← h1]
      exact hw p fam s1 hfq

end P4est
