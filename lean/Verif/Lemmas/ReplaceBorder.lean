import Verif.Lemmas.ReplaceMerge

/-! # The replace callback in balance: the leaves along the border -/

namespace P4est
open Spec

variable {d : ℕ} {α σ : Type}

/-- A leaf, the leaves in its place and the calls. -/
abbrev Fate (d : ℕ) (α : Type) := Leaf d α × List (Leaf d α) × List (ReplaceCall d α)

/-- What becomes of one leaf, without reference to the others. -/
structure FateOk (init : Quad d → σ → α × σ) (replace : List (Leaf d α) → List (Leaf d α) → σ → (ℕ → α) × σ)
    (z : Fate d α) : Prop where
  cases : (z.2.1 = [z.1] ∧ z.2.2 = []) ∨ (z.1.q ∉ z.2.1.map Leaf.q ∧ Narrates init z.1 z.2.1 z.2.2)
  inside : ∀ u ∈ z.2.1, Cells u.q ⊆ Cells z.1.q
  conserve : ∀ (M : Type) [AddCommMonoid M] (w : Leaf d α → M), Conserves replace w → (z.2.1.map w).sum = w z.1

theorem path_apart {a b : ℕ} {l : List (Quad d)} (h : Path a l b) {q r : Quad d} (hq : q ∈ l) (hr : r ∈ l) (hne : q ≠ r) :
    stop q ≤ start r ∨ stop r ≤ start q := by
  induction l generalizing a with
  | nil => simp at hq
  | cons x l ih =>
    obtain ⟨-, h⟩ := h
    rcases List.mem_cons.mp hq with e1 | h1 <;> rcases List.mem_cons.mp hr with e2 | h2
    · exact absurd (e1.trans e2.symm) hne
    · rw [e1]; exact Or.inl (h.mem h2).1
    · rw [e2]; exact Or.inr (h.mem h1).1
    · exact ih h h1 h2

theorem fate_becomes (hd : 0 < d) {init : Quad d → σ → α × σ}
    {replace : List (Leaf d α) → List (Leaf d α) → σ → (ℕ → α) × σ} {Z : List (Fate d α)} {a b : ℕ}
    (hp : Path a (Z.map fun z => z.1.q) b) (hv : ∀ z ∈ Z, Valid z.1.q) (h : ∀ z ∈ Z, FateOk init replace z) :
    ∀ z ∈ Z, Becomes init replace ((Z.flatMap fun z => z.2.1).map Leaf.q) z.1 z.2.1 z.2.2 := by
  have hnd : ((Z.map fun z => z.1.q)).Nodup := path_nodup hp
  intro z hz
  have key : z.1.q ∈ (Z.flatMap fun z => z.2.1).map Leaf.q ↔ z.1.q ∈ z.2.1.map Leaf.q := by
    constructor
    · intro hm
      obtain ⟨u, hu, he⟩ := List.mem_map.mp hm
      obtain ⟨y, hy, huy⟩ := List.mem_flatMap.mp hu
      have hsub := (h y hy).inside u huy
      rw [he, valid_subset_iff hd (hv y hy) (hv z hz)] at hsub
      by_cases hyz : y.1.q = z.1.q
      · have : y = z := List.inj_on_of_nodup_map hnd hy hz hyz
        subst this
        exact List.mem_map.mpr ⟨u, huy, he⟩
      · exfalso
        have hdis := path_apart hp (List.mem_map.mpr ⟨y, hy, rfl⟩) (List.mem_map.mpr ⟨z, hz, rfl⟩) hyz
        have := start_lt_stop z.1.q
        omega
    · intro hm
      obtain ⟨u, hu, he⟩ := List.mem_map.mp hm
      exact List.mem_map.mpr ⟨u, List.mem_flatMap.mpr ⟨z, hz, hu⟩, he⟩
  have hf := h z hz
  refine ⟨fun hm => ?_, fun hm => ?_, hf.inside, hf.conserve⟩
  · rw [key] at hm
    exact hf.cases.resolve_right fun hc => hc.1 hm
  · rw [key] at hm
    rcases hf.cases with hc | hc
    · exact absurd (by rw [hc.1]; simp) hm
    · exact hc.2

theorem fate_functions : ∀ (Z : List (Fate d α)), (Z.map fun z => z.1.q).Nodup →
    ∃ (O : Quad d → List (Leaf d α)) (S : Quad d → List (ReplaceCall d α)),
      ∀ z ∈ Z, O z.1.q = z.2.1 ∧ S z.1.q = z.2.2 := by
  intro Z
  induction Z with
  | nil => intro _; exact ⟨fun _ => [], fun _ => [], by simp⟩
  | cons z Z ih =>
    intro hn
    rw [List.map_cons, List.nodup_cons] at hn
    obtain ⟨O, S, h⟩ := ih hn.2
    refine ⟨Function.update O z.1.q z.2.1, Function.update S z.1.q z.2.2, ?_⟩
    intro y hy
    rcases List.mem_cons.mp hy with rfl | hy
    · simp
    · have hne : y.1.q ≠ z.1.q := fun e => hn.1 (List.mem_map.mpr ⟨y, hy, e⟩)
      rw [Function.update_of_ne hne, Function.update_of_ne hne]
      exact h y hy

theorem fate_keep (init : Quad d → σ → α × σ) (replace : List (Leaf d α) → List (Leaf d α) → σ → (ℕ → α) × σ)
    (V : List (Leaf d α)) : ∃ Z : List (Fate d α), Z.map Prod.fst = V ∧ (Z.flatMap fun z => z.2.1) = V ∧
      (Z.flatMap fun z => z.2.2) = [] ∧ ∀ z ∈ Z, FateOk init replace z := by
  refine ⟨V.map fun x => (x, [x], []), ?_, ?_, ?_, ?_⟩
  · rw [List.map_map]
    exact List.map_id _
  · rw [List.flatMap_map]
    simp
  · rw [List.flatMap_map]
    simp
  · intro z hz
    obtain ⟨x, -, rfl⟩ := List.mem_map.mp hz
    exact ⟨Or.inl ⟨rfl, rfl⟩, fun u hu => by rw [List.mem_singleton.mp hu], fun M _ w _ => by simp⟩

theorem borderRun_replace (hd : 0 < d) {bs : (Quad d → ℤ) → List (Quad d) → Option ℕ} {bound : ℕ} {fdesc ldesc : Quad d}
    (init : Quad d → σ → α × σ) (replace : List (Leaf d α) → List (Leaf d α) → σ → (ℕ → α) × σ)
    {W : List (Quad d)} {V V' : List (Leaf d α)} {N} (hrun : BorderRun bs bound fdesc ldesc W V N V') :
    ∀ (st : MergeSt d α (σ × List (ReplaceCall d α))) (st0 : MergeSt d α σ), SameCounters st st0 →
      st.leaves.map Leaf.q = st0.leaves.map Leaf.q →
    ∃ st' m s', ∃ Z : List (Fate d α),
      borderLoopReplace bs (watchInit init) (watchReplace replace) bound fdesc ldesc W (st, V) = some (st', V') ∧
      borderLoop bs init bound fdesc ldesc W (st0, V) = some (m, V') ∧ SameCounters st' m ∧
      st'.leaves.map Leaf.q = m.leaves.map Leaf.q ∧ Z.map Prod.fst = V ∧
      st'.leaves ++ V' = st.leaves ++ Z.flatMap (fun z => z.2.1) ∧ st'.s = (s', st.s.2 ++ Z.flatMap fun z => z.2.2) ∧
      ∀ z ∈ Z, FateOk init replace z := by
  induction hrun with
  | done V =>
    intro st st0 hs hq
    obtain ⟨Z, z1, z2, z3, z4⟩ := fate_keep init replace V
    refine ⟨st, st0, st.s.1, Z, ?_, ?_, hs, hq, z1, by rw [z2], by rw [z3]; simp, z4⟩
    · unfold borderLoopReplace; rfl
    · unfold borderLoop; rfl
  | skip h hr ih =>
    intro st st0 hs hq
    obtain ⟨st', m, s', Z, i1, i2, i3⟩ := ih st st0 hs hq
    refine ⟨st', m, s', Z, ?_, ?_, i3⟩
    · rw [borderLoopReplace, if_pos h]; exact i1
    · rw [borderLoop, if_pos h]; exact i2
  | bare h ht hr ih =>
    intro st st0 hs hq
    obtain ⟨st', m, s', Z, i1, i2, i3⟩ := ih st st0 hs hq
    refine ⟨st', m, s', Z, ?_, ?_, i3⟩
    · rw [borderLoopReplace, if_neg (by rw [h]; simp), ht]; exact i1
    · rw [borderLoop, if_neg (by rw [h]; simp), ht]; exact i2
  | @step p r rest rs out V V1 V2 N V' x i h ht hb hx h1 h2 hV hk hxv hp hv hn hr ih =>
    intro st st0 hs hq
    set st1 : MergeSt d α (σ × List (ReplaceCall d α)) :=
      { st with leaves := [], perLevel := bump st.perLevel x.q.level (-1), freed := st.freed ++ [x] } with hst1
    set st2 : MergeSt d α σ :=
      { st0 with leaves := st0.leaves ++ V1, perLevel := bump st0.perLevel x.q.level (-1), freed := st0.freed ++ [x] } with hst2
    have hm1 := merged_new (watchInit init) out st1
    have hm2 := merged_new init out st2
    have hsc := same_new (watchInit init) init out (a := st1) (b := st2)
      ⟨by simp [hst1, hst2, hs.1], by simp [hst1, hst2, hs.2.1], by simp [hst1, hst2, hs.2.2]⟩
    have hcw : carried (watchInit init) [] out st1.s = _ := carried_watch init st.s.2 out st.s.1
    have hlv : (out.foldl (mergeNew (watchInit init)) st1).leaves = (carried init [] out st.s.1).1 := by
      rw [hm1.leaves, hcw]
      simp [hst1]
    have hss : (out.foldl (mergeNew (watchInit init)) st1).s = ((carried init [] out st.s.1).2, st.s.2) := by
      rw [hm1.state, hcw]
    obtain ⟨o, s3, T, r1, r2, r3, r4⟩ := replaceRec_narrates hd init replace (QMAXLEVEL - x.q.level) x
      (carried init [] out st.s.1).1 (by unfold QMAXLEVEL; have := hxv.1; omega)
      (by rw [carried_quads]; exact ⟨hxv, hv, hp, hn⟩)
      (carried_fresh init out st.s.1) (carried init [] out st.s.1).2 st.s.2
    rw [carried_quads] at r2
    obtain ⟨st', m, s', Z, i1, i2, i3, i4, i5, i6, i7, i8⟩ := ih
      { out.foldl (mergeNew (watchInit init)) st1 with leaves := st.leaves ++ V1 ++ o, s := (s3, st.s.2 ++ T) }
      (out.foldl (mergeNew init) st2) hsc (by
        rw [hm2.leaves]
        simp only [hst2, List.map_append, carried_quads, hq, r2])
    obtain ⟨Z1, z1, z2, z3, z4⟩ := fate_keep init replace V1
    refine ⟨st', m, s', Z1 ++ (x, o, T) :: Z, ?_, ?_, i3, i4, ?_, ?_, ?_, ?_⟩
    · rw [borderLoopReplace, if_neg (by rw [h]; simp), ht]
      dsimp only
      unfold borderOneReplace
      dsimp only
      rw [obind hb, obind hx, obind hk, h1, h2]
      rw [← hst1, hlv, hss, obind r1]
      exact i1
    · rw [borderLoop, if_neg (by rw [h]; simp), ht]
      dsimp only
      unfold borderOne
      dsimp only
      rw [obind hb, obind hx, obind hk, h1, h2, ← hst2]
      exact i2
    · rw [List.map_append, z1, List.map_cons, i5, hV]
    · rw [i6, List.flatMap_append, z2, List.flatMap_cons]
      simp
    · rw [i7, List.flatMap_append, z3, List.flatMap_cons]
      simp
    · intro z hz
      rcases List.mem_append.mp hz with hz | hz
      · exact z4 z hz
      rcases List.mem_cons.mp hz with rfl | hz
      · refine ⟨Or.inr ⟨by rw [r2]; exact hn, r3⟩, fun u hu => ?_, r4⟩
        have h1 : u.q ∈ out := by rw [← r2]; exact List.mem_map_of_mem hu
        have h2 := hp.mem h1
        exact (valid_subset_iff hd hxv (hv _ h1)).mpr (by omega)
      · exact i8 z hz

end P4est
