import Verif.Lemmas.ReplaceLog
import Verif.Lemmas.BalanceMerge

/-! # The replace callback in balance: all leaves of a tree -/

namespace P4est
open Spec

variable {d : ℕ} {α σ τ : Type}

/-- The same counters and freed leaves. -/
def SameCounters (a : MergeSt d α σ) (b : MergeSt d α τ) : Prop :=
  a.perLevel = b.perLevel ∧ a.maxlevel = b.maxlevel ∧ a.freed = b.freed

theorem same_new (i1 : Quad d → σ → α × σ) (i2 : Quad d → τ → α × τ) : ∀ (ps : List (Quad d)) {a : MergeSt d α σ}
    {b : MergeSt d α τ}, SameCounters a b → SameCounters (ps.foldl (mergeNew i1) a) (ps.foldl (mergeNew i2) b) := by
  intro ps
  induction ps with
  | nil => intro a b h; exact h
  | cons p ps ih =>
    rintro a b ⟨h1, h2, h3⟩
    rw [List.foldl_cons, List.foldl_cons]
    apply ih
    exact ⟨by simp [mergeNew, h1], by simp [mergeNew, h2], by simp [mergeNew, h3]⟩

theorem carried_watch (init : Quad d → σ → α × σ) (T : List (ReplaceCall d α)) : ∀ (ps : List (Quad d)) (s : σ),
    carried (watchInit init) [] ps (s, T) = ((carried init [] ps s).1, (carried init [] ps s).2, T) := by
  intro ps
  induction ps with
  | nil => intro s; rfl
  | cons p ps ih =>
    intro s
    rw [carried_cons, carried_cons]
    simp only [List.find?_nil]
    have : (watchInit init p (s, T)).2 = ((init p s).2, T) := rfl
    rw [this, ih]
    rfl

theorem carried_fresh (init : Quad d → σ → α × σ) : ∀ (ps : List (Quad d)) (s : σ),
    ∀ x ∈ (carried init [] ps s).1, ∃ s, x.data = (init x.q s).1 := by
  intro ps
  induction ps with
  | nil => intro s x hx; simp [carried] at hx
  | cons p ps ih =>
    intro s x hx
    rw [carried_cons] at hx
    simp only [List.find?_nil] at hx
    rcases List.mem_cons.mp hx with h | h
    · exact ⟨s, by rw [h]⟩
    · exact ih _ x h

theorem mergeReplace_spec (hd : 0 < d) (init : Quad d → σ → α × σ)
    (replace : List (Leaf d α) → List (Leaf d α) → σ → (ℕ → α) × σ) : ∀ (qs : List (Leaf d α)) (ps : List (Quad d)) (a b : ℕ),
    Path a (qs.map Leaf.q) b → Path a ps b → (∀ x ∈ qs, Valid x.q) → (∀ p ∈ ps, Valid p) →
    (∀ p ∈ ps, ∀ x ∈ qs, isAncestor p x.q = false) →
    ∀ (st : MergeSt d α (σ × List (ReplaceCall d α))) (st0 : MergeSt d α σ), SameCounters st st0 →
    ∃ st' m s', ∃ (O : Quad d → List (Leaf d α)) (S : Quad d → List (ReplaceCall d α)),
      mergeReplace (watchInit init) (watchReplace replace) qs ps st = some st' ∧
      mergeLoop init qs ps st0 = some m ∧ SameCounters st' m ∧
      st'.leaves = st.leaves ++ qs.flatMap (fun x => O x.q) ∧ st'.s = (s', st.s.2 ++ qs.flatMap fun x => S x.q) ∧
      (qs.flatMap fun x => O x.q).map Leaf.q = ps ∧ ∀ x ∈ qs, Becomes init replace ps x (O x.q) (S x.q) := by
  intro qs
  induction qs with
  | nil =>
    intro ps a b hq hp _ _ _ st st0 hs
    have hab : a = b := hq
    have hps : ps = [] := by
      by_contra hne
      obtain ⟨p, hp'⟩ := List.exists_mem_of_ne_nil _ hne
      have := hp.mem hp'
      have := start_lt_stop p
      omega
    subst hps
    refine ⟨st, st0, st.s.1, fun _ => [], fun _ => [], ?_, ?_, hs, by simp, by simp, by simp, fun x hx => by simp at hx⟩
    · unfold mergeReplace
      rfl
    · unfold mergeLoop
      rfl
  | cons x qs ih =>
    intro ps a b hq hp hqv hv hf st st0 hs
    obtain ⟨hax, hq2⟩ := hq
    have hxv := hqv x (by simp)
    have hxlt := start_lt_stop x.q
    have hqle := hq2.le
    have hlater : ∀ y ∈ qs, stop x.q ≤ start y.q := fun y hy => (hq2.mem (List.mem_map_of_mem hy)).1
    have hne0 : ∀ y ∈ qs, y.q ≠ x.q := by
      intro y hy e
      have := hlater y hy
      rw [e] at this
      omega
    cases ps with
    | nil =>
      have : a = b := hp
      omega
    | cons p ps =>
      obtain ⟨e1, e2⟩ := hp
      have hpv := hv p (by simp)
      have hlt := start_lt_stop p
      have hpsafter : ∀ r ∈ ps, stop p ≤ start r := fun r hr => (e2.mem hr).1
      have hc : ¬ compare p x.q < 0 := by
        rw [compare_neg_iff hd hpv.int32 hxv.int32, before_interval]
        intro hc
        have hpx := hf p (by simp) x (by simp)
        rcases valid_cases hd hpv hxv with h | h | h | h | h
        · omega
        · omega
        · rw [h] at hc; omega
        · rw [(anc_interval hd hpv hxv).mpr ⟨h.1, h.2.1, h.2.2.1⟩] at hpx
          simp at hpx
        · omega
      unfold mergeReplace mergeLoop
      rw [if_neg hc, if_neg hc]
      by_cases hl : x.q.level < p.level
      · rw [if_pos hl, if_pos hl]
        have hne : x.q ∉ p :: ps := by
          intro hm
          rcases List.mem_cons.mp hm with h | h
          · rw [h] at hl; omega
          · have := hpsafter _ h; omega
        obtain ⟨s1, s2⟩ := split_path hd hxv (ps := p :: ps) ⟨e1, e2⟩ hv (by omega) (by omega) hqle
          (fun r hr => hf r hr x (by simp)) hne
        have hcat := List.takeWhile_append_dropWhile (p := fun r => isAncestor x.q r) (l := p :: ps)
        generalize (p :: ps).takeWhile (fun r => isAncestor x.q r) = tw at *
        generalize hdw : (p :: ps).dropWhile (fun r => isAncestor x.q r) = dw at *
        have htw : ∀ r ∈ tw, r ∈ p :: ps := fun r hr => by rw [← hcat]; simp [hr]
        have hdwm : ∀ r ∈ dw, r ∈ p :: ps := fun r hr => by rw [← hcat]; simp [hr]
        set st1 : MergeSt d α (σ × List (ReplaceCall d α)) :=
          { st with leaves := [], perLevel := bump st.perLevel x.q.level (-1), freed := st.freed ++ [x] } with hst1
        set st2 : MergeSt d α σ :=
          { st0 with perLevel := bump st0.perLevel x.q.level (-1), freed := st0.freed ++ [x] } with hst2
        have hm1 := merged_new (watchInit init) tw st1
        have hsc := same_new (watchInit init) init tw (a := st1) (b := st2)
          ⟨by simp [hst1, hst2, hs.1], by simp [hst1, hst2, hs.2.1], by simp [hst1, hst2, hs.2.2]⟩
        have hcw : carried (watchInit init) [] tw st1.s = _ := carried_watch init st.s.2 tw st.s.1
        have hlv : (tw.foldl (mergeNew (watchInit init)) st1).leaves = (carried init [] tw st.s.1).1 := by
          rw [hm1.leaves, hcw]
          simp [hst1]
        have hss : (tw.foldl (mergeNew (watchInit init)) st1).s = ((carried init [] tw st.s.1).2, st.s.2) := by
          rw [hm1.state, hcw]
        have ha : a = start x.q := hax
        obtain ⟨out, s3, T, r1, r2, r3, r4⟩ := replaceRec_narrates hd init replace (QMAXLEVEL - x.q.level) x
          (carried init [] tw st.s.1).1 (by unfold QMAXLEVEL; have := hxv.1; omega)
          (by
            rw [carried_quads]
            exact ⟨hxv, fun q hq => hv q (htw q hq), by rw [← ha]; exact s1, fun h => hne (htw _ h)⟩)
          (carried_fresh init tw st.s.1) (carried init [] tw st.s.1).2 st.s.2
        rw [carried_quads] at r2
        obtain ⟨st', m, s', O, S, i1, i2, i3, i4, i5, i6, i7⟩ := ih dw (stop x.q) b hq2 s2
          (fun y hy => hqv y (by simp [hy])) (fun r hr => hv r (hdwm r hr))
          (fun r hr y hy => hf r (hdwm r hr) y (by simp [hy]))
          { tw.foldl (mergeNew (watchInit init)) st1 with leaves := st.leaves ++ out, s := (s3, st.s.2 ++ T) }
          (tw.foldl (mergeNew init) st2) hsc
        have u1 : ∀ (β : Type) (F : Quad d → List β) (v : List β),
            ((x :: qs).flatMap fun y => Function.update F x.q v y.q) = v ++ qs.flatMap fun y => F y.q := by
          intro β F v
          rw [List.flatMap_cons, Function.update_self]
          congr 1
          exact List.flatMap_congr fun y hy => Function.update_of_ne (hne0 y hy) _ _
        refine ⟨st', m, s', Function.update O x.q out, Function.update S x.q T, ?_, i2, i3, ?_, ?_, ?_, ?_⟩
        · dsimp only
          rw [hlv, hss, obind r1]
          exact i1
        · rw [i4, u1]
          simp
        · rw [i5, u1]
          simp
        · rw [u1, List.map_append, i6, r2, hcat]
        · intro y hy
          rcases List.mem_cons.mp hy with rfl | hy
          · rw [Function.update_self, Function.update_self]
            refine ⟨fun h => absurd h hne, fun _ => r3, fun u hu => ?_, r4⟩
            have h1 : u.q ∈ tw := by rw [← r2]; exact List.mem_map_of_mem hu
            have h2 := s1.mem h1
            exact (valid_subset_iff hd hxv (hv _ (htw _ h1))).mpr (by omega)
          · rw [Function.update_of_ne (hne0 y hy), Function.update_of_ne (hne0 y hy)]
            have hb := i7 y hy
            have hin : y.q ∈ p :: ps ↔ y.q ∈ dw := by
              refine ⟨fun h => ?_, hdwm _⟩
              rw [← hcat] at h
              rcases List.mem_append.mp h with h | h
              · have h2 := s1.mem h
                have h3 := hlater y hy
                have h4 := start_lt_stop y.q
                omega
              · exact h
            exact ⟨fun h => hb.kept (hin.mp h), fun h => hb.divided fun c => h (hin.mpr c), hb.inside, hb.conserve⟩
      · rw [if_neg hl, if_neg hl]
        have hpx : x.q = p := by
          rcases valid_cases hd hpv hxv with h | h | h | h | h
          · omega
          · omega
          · exact h.symm
          · have := hf p (by simp) x (by simp)
            rw [(anc_interval hd hpv hxv).mpr ⟨h.1, h.2.1, h.2.2.1⟩] at this
            simp at this
          · omega
        have hleaf : (⟨p, x.data⟩ : Leaf d α) = x := by rw [← hpx]
        rw [hpx] at hq2
        obtain ⟨st', m, s', O, S, i1, i2, i3, i4, i5, i6, i7⟩ := ih ps (stop p) b hq2 e2
          (fun y hy => hqv y (by simp [hy])) (fun r hr => hv r (by simp [hr]))
          (fun r hr y hy => hf r (by simp [hr]) y (by simp [hy]))
          { st with leaves := st.leaves ++ [⟨p, x.data⟩] } { st0 with leaves := st0.leaves ++ [⟨p, x.data⟩] } hs
        have u1 : ∀ (β : Type) (F : Quad d → List β) (v : List β),
            ((x :: qs).flatMap fun y => Function.update F x.q v y.q) = v ++ qs.flatMap fun y => F y.q := by
          intro β F v
          rw [List.flatMap_cons, Function.update_self]
          congr 1
          exact List.flatMap_congr fun y hy => Function.update_of_ne (hne0 y hy) _ _
        refine ⟨st', m, s', Function.update O x.q [x], Function.update S x.q [], i1, i2, i3, ?_, ?_, ?_, ?_⟩
        · rw [i4, u1, hleaf]
          simp
        · rw [i5, u1]
          simp
        · rw [u1, List.map_append, i6]
          simp [hpx]
        · intro y hy
          rcases List.mem_cons.mp hy with rfl | hy
          · rw [Function.update_self, Function.update_self]
            refine ⟨fun _ => ⟨rfl, rfl⟩, fun h => absurd (by rw [hpx]; simp) h, fun u hu => ?_, fun M _ w _ => by simp⟩
            rw [List.mem_singleton.mp hu]
          · rw [Function.update_of_ne (hne0 y hy), Function.update_of_ne (hne0 y hy)]
            have hb := i7 y hy
            have hin : y.q ∈ p :: ps ↔ y.q ∈ ps := by
              rw [List.mem_cons, ← hpx]
              exact ⟨fun h => h.resolve_left (hne0 y hy), Or.inr⟩
            exact ⟨fun h => hb.kept (hin.mp h), fun h => hb.divided fun c => h (hin.mpr c), hb.inside, hb.conserve⟩

end P4est
