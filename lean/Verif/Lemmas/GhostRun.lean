import Verif.Lemmas.GhostOwner
import Verif.Lemmas.RepartitionFill
import Verif.Lemmas.ProfileTurns

/-! # The mirrors and the send buffers of one rank -/

namespace P4est
open Spec

variable {d : ℕ}

/-! ### Offsets -/

/-- Offsets that count the elements before each piece cut the list. -/
theorem cutInto_flatMap {β : Type} (piece : ℕ → List β) (n : ℕ) {offs : List ℕ}
    (h : offs = (List.range (n + 1)).map fun i => ((List.range i).flatMap piece).length) :
    CutInto ((List.range n).flatMap piece) offs n piece := by
  have hget : ∀ i ≤ n, offs[i]? = some ((List.range i).flatMap piece).length := by
    intro i hi
    rw [h, List.getElem?_map, List.getElem?_range (by omega)]; rfl
  refine ⟨by rw [h]; simp, by rw [hget 0 (by omega)]; rfl, hget n le_rfl, fun i hi => ?_⟩
  refine ⟨_, _, hget i hi.le, hget (i + 1) hi, ?_, ?_⟩
  · rw [List.range_succ, List.flatMap_append, List.length_append]; omega
  · have h1 : List.range n = List.range (i + 1) ++ List.range' (i + 1) (n - (i + 1)) := by
      have := List.range'_append_1 (s := 0) (m := i + 1) (n := n - (i + 1))
      rw [Nat.zero_add, Nat.add_sub_cancel' hi] at this
      rw [List.range_eq_range', List.range_eq_range', this]
    have h2 : (List.range n).flatMap piece =
        (List.range i).flatMap piece ++ (piece i ++ (List.range' (i + 1) (n - (i + 1))).flatMap piece) := by
      rw [h1, List.flatMap_append, List.range_succ, List.flatMap_append, List.flatMap_singleton, List.append_assoc]
    rw [h2, List.range_succ, List.flatMap_append, List.drop_left, List.length_append,
      Nat.add_sub_cancel_left, List.flatMap_singleton, List.take_left]

/-- The elements below a key, in a list sorted by the key. -/
theorem filter_key_lt {β : Type} (k : β → ℕ) : ∀ (l : List β), l.Pairwise (fun x y => k x ≤ k y) → ∀ t,
    l.filter (fun x => decide (k x < t + 1)) = l.filter (fun x => decide (k x < t)) ++ l.filter (fun x => decide (k x = t)) := by
  intro l
  induction l with
  | nil => intro _ t; rfl
  | cons x l ih =>
    intro h t
    rw [List.pairwise_cons] at h
    have := ih h.2 t
    rcases Nat.lt_trichotomy (k x) t with c | c | c
    · rw [List.filter_cons_of_pos (by simp; omega), List.filter_cons_of_pos (by simpa using c), List.filter_cons_of_neg (by simp; omega), this]
      rfl
    · have h0 : l.filter (fun x => decide (k x < t)) = [] := by
        rw [List.filter_eq_nil_iff]; intro y hy; have := h.1 y hy; simp; omega
      rw [h0] at this
      rw [List.filter_cons_of_pos (by simp; omega), List.filter_cons_of_neg (by simp; omega), List.filter_cons_of_pos (by simpa using c), this, h0]
      rfl
    · rw [List.filter_cons_of_neg (by simp; omega), List.filter_cons_of_neg (by simp; omega), List.filter_cons_of_neg (by simp; omega), this]

theorem filter_key_flatMap {β : Type} (k : β → ℕ) (l : List β) (h : l.Pairwise (fun x y => k x ≤ k y)) (t : ℕ) :
    l.filter (fun x => decide (k x < t)) = (List.range t).flatMap fun i => l.filter fun x => decide (k x = i) := by
  induction t with
  | zero => simp
  | succ t ih => rw [filter_key_lt k l h, ih, List.range_succ, List.flatMap_append, List.flatMap_singleton]

/-- Counts of smaller keys cut a list sorted by the key. -/
theorem cutInto_key {β : Type} (k : β → ℕ) (l : List β) (h : l.Pairwise (fun x y => k x ≤ k y)) (n : ℕ) (hn : ∀ x ∈ l, k x < n)
    {offs : List ℕ} (ho : offs = (List.range (n + 1)).map fun i => (l.filter fun x => decide (k x < i)).length) :
    CutInto l offs n fun i => l.filter fun x => decide (k x = i) := by
  have h1 : l = (List.range n).flatMap fun i => l.filter fun x => decide (k x = i) := by
    rw [← filter_key_flatMap k l h, List.filter_eq_self.mpr]
    intro x hx; simpa using hn x hx
  have := cutInto_flatMap (fun i => l.filter fun x => decide (k x = i)) n (offs := offs) (by
    rw [ho]
    apply List.map_congr_left
    intro i _
    rw [filter_key_flatMap k l h])
  rwa [← h1] at this

/-! ### One leaf -/

/-- The state after calls for the ranks `V`. -/
def afterAdds (m : MirrorState d) (x : GhostQuad d) (V : List ℕ) : MirrorState d :=
  ⟨decide (V ≠ []), if V = [] then m.mirrors else m.mirrors ++ [x],
    fun p => if p ∈ V then m.bufs p ++ [x] else m.bufs p,
    fun p => if p ∈ V then m.offsets p ++ [m.mirrors.length] else m.offsets p⟩

theorem addGhostToBuf_fresh {buf : List (GhostQuad d)} {x : GhostQuad d} (h : ∀ y ∈ buf, y.1 ≠ x.1) :
    addGhostToBuf buf x = some (buf ++ [x]) := by
  unfold addGhostToBuf
  cases hl : buf.getLast? with
  | none => rfl
  | some old =>
    dsimp only
    rw [if_neg]
    rintro ⟨h1, h2⟩
    exact h old (List.mem_of_getLast? hl) (Prod.ext h1.symm ((isEqual_iff).mp h2).symm)

theorem addGhostToBuf_last (buf : List (GhostQuad d)) (x : GhostQuad d) : addGhostToBuf (buf ++ [x]) x = none := by
  unfold addGhostToBuf
  rw [List.getLast?_concat]
  exact if_pos ⟨rfl, (isEqual_iff).mpr rfl⟩

theorem mirrorAdd_step (m : MirrorState d) (x : GhostQuad d) (hx : ∀ p, ∀ y ∈ m.bufs p, y.1 ≠ x.1) (V : List ℕ) (p : ℕ) :
    mirrorAdd x (afterAdds m x V) p = afterAdds m x (V ++ [p]) := by
  by_cases hp : p ∈ V
  · have hV : V ≠ [] := List.ne_nil_of_mem hp
    unfold mirrorAdd
    have h1 : (afterAdds m x V).known = true := by simp [afterAdds, hV]
    rw [if_pos h1]
    have h2 : (afterAdds m x V).bufs p = m.bufs p ++ [x] := if_pos hp
    dsimp only
    rw [h2, addGhostToBuf_last]
    have hmem : ∀ q, q ∈ V ++ [p] ↔ q ∈ V := by
      intro q; simp only [List.mem_append, List.mem_singleton]
      constructor
      · rintro (h | rfl); exacts [h, hp]
      · exact Or.inl
    unfold afterAdds
    simp only [hmem, hV, List.append_ne_nil_of_right_ne_nil V (List.cons_ne_nil p []), if_false, ne_eq, not_false_iff, decide_true]
  · have h2 : (afterAdds m x V).bufs p = m.bufs p := if_neg hp
    have h3 : (afterAdds m x V).offsets p = m.offsets p := if_neg hp
    have key : ∀ m' : MirrorState d, m'.bufs = (afterAdds m x V).bufs → m'.offsets = (afterAdds m x V).offsets →
        m'.mirrors = m.mirrors ++ [x] → m'.known = true →
        (match addGhostToBuf (m'.bufs p) x with
          | none => m'
          | some buf => { m' with
              bufs := Function.update m'.bufs p buf
              offsets := Function.update m'.offsets p (m'.offsets p ++ [m'.mirrors.length - 1]) }) =
          afterAdds m x (V ++ [p]) := by
      intro m' e1 e2 e3 e4
      rw [e1, e2, e3, h2, h3, addGhostToBuf_fresh (hx p)]
      simp only [afterAdds, e3, e4, List.length_append, List.length_singleton, Nat.add_sub_cancel]
      simp
      constructor <;> funext q <;> by_cases c' : q = p <;> by_cases c : q ∈ V <;> simp [c, c', Function.update]
    unfold mirrorAdd
    by_cases hV : V = []
    · rw [if_neg (by simp [afterAdds, hV])]
      exact key _ rfl rfl (by simp [afterAdds, hV]) rfl
    · rw [if_pos (by simp [afterAdds, hV])]
      exact key _ rfl rfl (by simp [afterAdds, hV]) (by simp [afterAdds, hV])

theorem mirrorAdds (m : MirrorState d) (x : GhostQuad d) (hk : m.known = false) (hx : ∀ p, ∀ y ∈ m.bufs p, y.1 ≠ x.1)
    (ps : List ℕ) : ps.foldl (mirrorAdd x) m = afterAdds m x ps := by
  have h0 : m = afterAdds m x [] := by
    cases m; simp only at hk; subst hk; simp [afterAdds]
  have h1 : ∀ (ps V : List ℕ), ps.foldl (mirrorAdd x) (afterAdds m x V) = afterAdds m x (V ++ ps) := by
    intro ps
    induction ps with
    | nil => intro V; simp
    | cons p ps ih => intro V; rw [List.foldl_cons, mirrorAdd_step m x hx, ih]; simp
  conv_lhs => rw [h0]
  rw [h1]; rfl

/-! ### Many leaves -/

open Classical in
/-- The mirrors and buffers for the leaves `L`, where `S x p` says that `x` is sent to `p`. -/
def Gathered (S : ℕ × Quad d → ℕ → Prop) (L : List (GhostQuad d)) (m : MirrorState d) : Prop :=
  m.mirrors = L.filter (fun x => decide (∃ p, S x.1 p)) ∧
  (∀ p, m.bufs p = L.filter fun x => decide (S x.1 p)) ∧
  ∀ p, m.offsets p = (m.mirrors.zipIdx.filter fun x => decide (S x.1.1 p)).map Prod.snd

theorem gathered_leaf {S : ℕ × Quad d → ℕ → Prop} {L : List (GhostQuad d)} {m : MirrorState d} (h : Gathered S L m)
    {x : GhostQuad d} (hx : ∀ y ∈ L, y.1 ≠ x.1) {owned : ℕ × Quad d → Option Bool} {targets : ℕ × Quad d → Option (List ℕ)}
    (hown : ∃ v, owned x.1 = some v ∧ (v = true → ∀ p, ¬ S x.1 p) ∧
      (v = false → ∃ ps, targets x.1 = some ps ∧ ∀ p, p ∈ ps ↔ S x.1 p)) :
    ∃ m', ghostLeaf owned targets m x = some m' ∧ Gathered S (L ++ [x]) m' := by
  classical
  obtain ⟨v, o1, o2, o3⟩ := hown
  obtain ⟨h1, h2, h3⟩ := h
  unfold ghostLeaf
  rw [o1]
  simp only [Option.bind_eq_bind, Option.bind_some]
  cases v with
  | true =>
    have hno := o2 rfl
    rw [if_pos rfl]
    have hno' : ¬ ∃ p, S x.1 p := fun ⟨p, hp⟩ => hno p hp
    refine ⟨_, rfl, ?_, fun p => ?_, fun p => ?_⟩
    · rw [List.filter_append, List.filter_cons_of_neg (by simpa using hno)]
      simpa using h1
    · rw [List.filter_append, List.filter_cons_of_neg (by simpa using hno p)]
      simpa using h2 p
    · exact h3 p
  | false =>
    obtain ⟨ps, t1, t2⟩ := o3 rfl
    rw [if_neg (by simp), t1]
    simp only [Option.bind_some]
    rw [mirrorAdds _ x rfl (fun p y hy => hx y (List.mem_filter.mp (by rw [← h2 p]; exact hy)).1)]
    refine ⟨_, rfl, ?_, fun p => ?_, fun p => ?_⟩
    · by_cases c : ps = []
      · have : ¬ ∃ p, S x.1 p := by rintro ⟨p, hp⟩; have := (t2 p).mpr hp; rw [c] at this; simp at this
        rw [List.filter_append, List.filter_cons_of_neg (by simpa using this)]
        simpa [afterAdds, c] using h1
      · obtain ⟨p, hp⟩ := List.exists_mem_of_ne_nil _ c
        rw [List.filter_append, List.filter_cons_of_pos (by simpa using ⟨p, (t2 p).mp hp⟩)]
        simpa [afterAdds, c] using h1
    · by_cases c : p ∈ ps
      · rw [List.filter_append, List.filter_cons_of_pos (by simpa using (t2 p).mp c)]
        simpa [afterAdds, c] using h2 p
      · rw [List.filter_append, List.filter_cons_of_neg (by simpa using fun h => c ((t2 p).mpr h))]
        simpa [afterAdds, c] using h2 p
    · by_cases c0 : ps = []
      · simpa [afterAdds, c0] using h3 p
      · have e : (afterAdds ⟨false, m.mirrors, m.bufs, m.offsets⟩ x ps).mirrors = m.mirrors ++ [x] := by simp [afterAdds, c0]
        rw [e, List.zipIdx_append, List.filter_append, List.map_append, ← h3 p]
        by_cases c : p ∈ ps
        · have := (t2 p).mp c
          simp [afterAdds, c, this]
        · have : ¬ S x.1 p := fun h => c ((t2 p).mpr h)
          simp [afterAdds, c, this]

theorem gathered_leaves {S : ℕ × Quad d → ℕ → Prop} {owned : ℕ × Quad d → Option Bool} {targets : ℕ × Quad d → Option (List ℕ)} :
    ∀ (L2 L : List (GhostQuad d)) (m : MirrorState d), Gathered S L m → ((L ++ L2).map Prod.fst).Nodup →
    (∀ x ∈ L2, ∃ v, owned x.1 = some v ∧ (v = true → ∀ p, ¬ S x.1 p) ∧
      (v = false → ∃ ps, targets x.1 = some ps ∧ ∀ p, p ∈ ps ↔ S x.1 p)) →
    ∃ m', L2.foldlM (ghostLeaf owned targets) m = some m' ∧ Gathered S (L ++ L2) m' := by
  intro L2
  induction L2 with
  | nil => intro L m h _ _; exact ⟨m, rfl, by simpa using h⟩
  | cons x L2 ih =>
    intro L m h hn hx
    have hfresh : ∀ y ∈ L, y.1 ≠ x.1 := by
      intro y hy
      rw [List.map_append, List.nodup_append] at hn
      exact hn.2.2 y.1 (List.mem_map_of_mem hy) x.1 (by simp)
    obtain ⟨m1, e1, g1⟩ := gathered_leaf h hfresh (hx x (by simp))
    obtain ⟨m2, e2, g2⟩ := ih (L ++ [x]) m1 g1 (by simpa using hn) fun y hy => hx y (by simp [hy])
    refine ⟨m2, ?_, by simpa using g2⟩
    rw [List.foldlM_cons, e1]
    exact e2

/-! ### The trees -/

theorem ghostLocal_owned {conn : FaceConn} {gfp : List (GPos d)} {P r : ℕ} {mine : List (ℕ × Quad d)}
    {targets : ℕ × Quad d → Option (List ℕ)} (hsort : TreeSorted mine) (hnd : mine.Nodup) {S : ℕ × Quad d → ℕ → Prop}
    (hfull : ∀ a b t : ℤ, ∃ full, fullTree gfp r a b t = some full)
    (hown : ∀ x ∈ mine, ∀ x0 xl, mine.head? = some x0 → mine.getLast? = some xl → ∀ full,
      fullTree gfp r x0.1 xl.1 x.1 = some full →
      ∃ v, neighborhoodOwned gfp P r x.1 full (treeContact (fun t f => conn.treeToTree.getD (2 * d * t + f) 0)
        (fun t f => conn.treeToFace.getD (2 * d * t + f) 0) x.1) x.2 = some v ∧ (v = true → ∀ p, ¬ S x p) ∧
        (v = false → ∃ ps, targets x = some ps ∧ ∀ p, p ∈ ps ↔ S x p)) :
    ∃ s, ghostLocal conn gfp P r mine targets = some s ∧ Gathered S mine.zipIdx s.1 ∧
      ∀ nt, s.2 nt = (s.1.mirrors.filter fun x => decide (x.1.1 < nt)).length := by
  classical
  cases hmine : mine with
  | nil => exact ⟨_, rfl, ⟨rfl, fun _ => rfl, fun _ => rfl⟩, fun _ => rfl⟩
  | cons y ys =>
    rw [← hmine]
    obtain ⟨x0, hx0⟩ : ∃ x0, mine.head? = some x0 := ⟨y, by rw [hmine]; rfl⟩
    obtain ⟨xl, hxl⟩ : ∃ xl, mine.getLast? = some xl := by
      rw [hmine, List.getLast?_cons]; exact ⟨_, rfl⟩
    have hzs : mine.zipIdx.Pairwise (fun x y : GhostQuad d => x.1.1 ≤ y.1.1) := by
      have h1 : (mine.zipIdx.map Prod.fst).Pairwise (fun x y : ℕ × Quad d => x.1 ≤ y.1) := by
        rw [List.zipIdx_map_fst]; exact hsort
      rwa [List.pairwise_map] at h1
    have hzn : (mine.zipIdx.map Prod.fst).Nodup := by rw [List.zipIdx_map_fst]; exact hnd
    have hzm : ∀ x ∈ mine.zipIdx, x.1 ∈ mine := fun x hx => by
      have := List.mem_map_of_mem (f := Prod.fst) hx
      rwa [List.zipIdx_map_fst] at this
    have hfirst : ∀ x ∈ mine, x0.1 ≤ x.1 := by
      intro x hx
      rw [hmine] at hx0 hx hsort
      rw [List.head?_cons, Option.some.injEq] at hx0
      subst hx0
      rcases List.mem_cons.mp hx with rfl | hx
      · exact le_rfl
      · exact (List.pairwise_cons.mp hsort).1 x hx
    have hlast : ∀ x ∈ mine, x.1 ≤ xl.1 := by
      intro x hx
      obtain ⟨l, hl⟩ := List.getLast?_eq_some_iff.mp hxl
      rw [hl] at hx hsort
      rcases List.mem_append.mp hx with hx | hx
      · exact (List.pairwise_append.mp hsort).2.2 x hx xl (by simp)
      · rw [List.mem_singleton.mp hx]
    set M := mine.zipIdx.filter fun x => decide (∃ p, S x.1 p) with hM
    obtain ⟨s, e1, g1, g2⟩ := foldlM_steps
      (f := fun s k => ghostTree conn gfp P r x0.1 xl.1 mine targets s (x0.1 + k))
      (P := fun k (s : MirrorState d × (ℕ → ℕ)) =>
        Gathered S (mine.zipIdx.filter fun x => decide (x.1.1 < x0.1 + k)) s.1 ∧
        ∀ nt < x0.1 + k, s.2 nt = (M.filter fun x => decide (x.1.1 < nt)).length)
      (n := xl.1 + 1 - x0.1) (by
        rintro s k hk ⟨g1, g2⟩
        obtain ⟨full, hf⟩ := hfull x0.1 xl.1 (x0.1 + k : ℕ)
        have hstep := filter_key_lt (fun x : GhostQuad d => x.1.1) mine.zipIdx hzs (x0.1 + k)
        obtain ⟨m, e2, g3⟩ := gathered_leaves (S := S)
          (owned := fun x => neighborhoodOwned gfp P r ((x0.1 + k : ℕ) : ℤ) full
            (treeContact (fun t f => conn.treeToTree.getD (2 * d * t + f) 0)
              (fun t f => conn.treeToFace.getD (2 * d * t + f) 0) (x0.1 + k)) x.2) (targets := targets)
          (mine.zipIdx.filter fun x => decide (x.1.1 = x0.1 + k)) _ s.1 g1 (by
            rw [← hstep]
            exact (hzn.of_map _ |>.filter _).map_on (fun x hx y hy h =>
              List.inj_on_of_nodup_map hzn (List.mem_filter.mp hx).1 (List.mem_filter.mp hy).1 h))
          (by
            intro x hx
            obtain ⟨hx1, hx2⟩ := List.mem_filter.mp hx
            simp only [decide_eq_true_eq] at hx2
            have := hown _ (hzm x hx1) x0 xl hx0 hxl full (by rw [hx2]; exact hf)
            rw [hx2] at this
            exact this)
        refine ⟨(m, Function.update s.2 (x0.1 + k) s.1.mirrors.length), ?_, ?_, ?_⟩
        · unfold ghostTree
          rw [hf]
          simp only [Option.bind_eq_bind, Option.bind_some]
          rw [e2]; rfl
        · rw [← hstep] at g3; exact g3
        · intro nt hnt
          dsimp only
          by_cases c : nt = x0.1 + k
          · subst c
            rw [Function.update_self, g1.1, hM, List.filter_comm]
          · rw [Function.update_of_ne c]
            exact g2 nt (by omega))
      (s := (⟨false, [], fun _ => [], fun _ => []⟩, fun _ => 0)) (by
        have h0 : mine.zipIdx.filter (fun x => decide (x.1.1 < x0.1 + 0)) = [] := by
          rw [List.filter_eq_nil_iff]
          intro x hx
          have := hfirst _ (hzm x hx)
          simpa using this
        refine ⟨?_, ?_⟩
        · rw [h0]; exact ⟨rfl, fun _ => rfl, fun _ => rfl⟩
        · intro nt hnt
          have : M.filter (fun x => decide (x.1.1 < nt)) = [] := by
            rw [List.filter_eq_nil_iff]
            intro x hx
            have := hfirst _ (hzm x (List.mem_filter.mp hx).1)
            simp; omega
          rw [this]; rfl)
    have hle := hlast _ (List.mem_of_mem_head? hx0)
    rw [show x0.1 + (xl.1 + 1 - x0.1) = xl.1 + 1 by omega] at g1 g2
    rw [List.filter_eq_self.mpr (fun x hx => by have := hlast _ (hzm x hx); simp; omega)] at g1
    refine ⟨(s.1, fun nt => if nt ≤ xl.1 then s.2 nt else s.1.mirrors.length), ?_, g1, ?_⟩
    · unfold ghostLocal
      rw [hx0, hxl]
      dsimp only
      rw [List.range'_eq_map_range, List.foldlM_map]
      rw [e1]; rfl
    · intro nt
      dsimp only
      rw [g1.1]
      split
      · exact g2 nt (by omega)
      · rw [(List.filter_eq_self (p := fun x : GhostQuad d => decide (x.1.1 < nt))).mpr]
        intro x hx
        have := hlast _ (hzm x (List.mem_filter.mp hx).1)
        simp; omega

theorem ghostLocal_spec {conn : FaceConn} {gfp : List (GPos d)} {P r : ℕ} {mine : List (ℕ × Quad d)}
    {targets : ℕ × Quad d → Option (List ℕ)} (hsort : TreeSorted mine) (hnd : mine.Nodup) {S : ℕ × Quad d → ℕ → Prop}
    (hfull : ∀ a b t : ℤ, ∃ full, fullTree gfp r a b t = some full)
    (hown : ∀ x ∈ mine, ∀ x0 xl, mine.head? = some x0 → mine.getLast? = some xl → ∀ full,
      fullTree gfp r x0.1 xl.1 x.1 = some full →
      ∃ v, neighborhoodOwned gfp P r x.1 full (treeContact (fun t f => conn.treeToTree.getD (2 * d * t + f) 0)
        (fun t f => conn.treeToFace.getD (2 * d * t + f) 0) x.1) x.2 = some v ∧ (v = true → ∀ p, ¬ S x p))
    (htar : ∀ x ∈ mine, ∃ ps, targets x = some ps ∧ ∀ p, p ∈ ps ↔ S x p) :
    ∃ s, ghostLocal conn gfp P r mine targets = some s ∧ Gathered S mine.zipIdx s.1 ∧
      ∀ nt, s.2 nt = (s.1.mirrors.filter fun x => decide (x.1.1 < nt)).length :=
  ghostLocal_owned hsort hnd hfull fun x hx x0 xl h0 hl full hf => by
    obtain ⟨v, h1, h2⟩ := hown x hx x0 xl h0 hl full hf
    exact ⟨v, h1, h2, fun _ => htar x hx⟩

/-! ### The exchange -/

theorem ghostExchange_spec {bufs : ℕ → ℕ → List (GhostQuad d)} {P r : ℕ} (h : ∀ i < P, bufs r i ≠ [] ↔ bufs i r ≠ []) :
    ghostExchange bufs P r = some ((List.range P).flatMap (fun i => bufs i r),
      (List.range (P + 1)).map fun i => ((List.range i).flatMap fun i => bufs i r).length) := by
  obtain ⟨s, e1, e2⟩ := foldlM_steps
    (f := fun (s : List (GhostQuad d) × List ℕ) i =>
      if (bufs r i).length > 0 then
        if (bufs i r).length > 0 then some (s.1 ++ bufs i r, s.2 ++ [s.1.length + (bufs i r).length])
        else none
      else some (s.1, s.2 ++ [s.1.length]))
    (P := fun k s => s = ((List.range k).flatMap (fun i => bufs i r),
      (List.range (k + 1)).map fun i => ((List.range i).flatMap fun i => bufs i r).length)) (n := P)
    (by
      rintro s k hk rfl
      have hlen : (List.range (k + 1)).flatMap (fun i => bufs i r) = (List.range k).flatMap (fun i => bufs i r) ++ bufs k r := by
        rw [List.range_succ, List.flatMap_append, List.flatMap_singleton]
      have hoffs : (List.range (k + 1 + 1)).map (fun i => ((List.range i).flatMap fun i => bufs i r).length) =
          (List.range (k + 1)).map (fun i => ((List.range i).flatMap fun i => bufs i r).length) ++
            [((List.range k).flatMap fun i => bufs i r).length + (bufs k r).length] := by
        rw [List.range_succ (n := k + 1), List.map_append, List.map_singleton, hlen, List.length_append]
      refine ⟨_, ?_, rfl⟩
      rw [hoffs, hlen]
      have := h k hk
      by_cases c : bufs k r = []
      · have c' : bufs r k = [] := by by_contra h'; exact this.mp h' c
        rw [if_neg (by simp [c']), c]; simp
      · rw [if_pos (List.length_pos_iff.mpr (this.mpr c)), if_pos (List.length_pos_iff.mpr c)])
    (s := ([], [0])) rfl
  rw [e2] at e1
  exact e1

/-- A rank that gets through has a message from every rank it sends to. -/
theorem ghostExchange_some {bufs : ℕ → ℕ → List (GhostQuad d)} {P r : ℕ} (h : ghostExchange bufs P r ≠ none) :
    ∀ i < P, bufs r i ≠ [] → bufs i r ≠ [] := by
  have key : ∀ (l : List ℕ) (s : List (GhostQuad d) × List ℕ), l.foldlM (fun s i =>
      if (bufs r i).length > 0 then
        if (bufs i r).length > 0 then some (s.1 ++ bufs i r, s.2 ++ [s.1.length + (bufs i r).length])
        else none
      else some (s.1, s.2 ++ [s.1.length])) s ≠ none → ∀ i ∈ l, bufs r i ≠ [] → bufs i r ≠ [] := by
    intro l
    induction l with
    | nil => intro s _ i hi; simp at hi
    | cons j l ih =>
      intro s hs i hi h1
      rw [List.foldlM_cons] at hs
      split at hs
      · split at hs
        · rename_i c
          simp only [Option.bind_eq_bind, Option.bind_some] at hs
          rcases List.mem_cons.mp hi with rfl | hi
          · exact List.ne_nil_of_length_pos c
          · exact ih _ hs i hi h1
        · exact absurd rfl hs
      · rename_i c
        simp only [Option.bind_eq_bind, Option.bind_some] at hs
        rcases List.mem_cons.mp hi with rfl | hi
        · exact absurd (List.length_pos_iff.mpr h1) c
        · exact ih _ hs i hi h1
  intro i hi
  exact key _ _ h i (List.mem_range.mpr hi)

theorem mirrorReset_spec (P : ℕ) (offsets : ℕ → List ℕ) :
    mirrorReset P offsets = ((List.range P).flatMap offsets,
      (List.range (P + 1)).map fun i => ((List.range i).flatMap offsets).length) := by
  have h : ∀ k, (List.range k).foldl (fun (s : List ℕ × List ℕ) p => (s.1 ++ offsets p, s.2 ++ [s.1.length])) ([], []) =
      ((List.range k).flatMap offsets, (List.range k).map fun i => ((List.range i).flatMap offsets).length) := by
    intro k
    induction k with
    | zero => rfl
    | succ k ih =>
      rw [List.range_succ, List.foldl_append, ih]
      simp
  unfold mirrorReset
  dsimp only
  rw [h, List.range_succ (n := P), List.map_append]
  rfl

end P4est
