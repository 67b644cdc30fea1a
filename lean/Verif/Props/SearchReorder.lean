import Verif.Lemmas.SearchReorder

/-! # C60: the search of the local forest in a user-defined order -/

namespace P4est
open Spec

variable {d : ℕ} {σ : Type}

theorem Spec.TreeReordered.congr {fns : ReorderFns d σ} {t : ℕ} {node : Quad d → Prop} {arg : Quad d → ℤ → Prop}
    {fork : Quad d → List ℕ → Prop} {xs : List (Option ℕ)} {E F : List (REvent d)} (h : TreeReordered fns t node arg fork xs E)
    (hc : ∀ e : REvent d, e.tree = t → (e ∈ E ↔ e ∈ F)) : TreeReordered fns t node arg fork xs F := by
  have hcalled : ∀ q c, RCalled F t q c ↔ RCalled E t q c := by
    intro q c
    constructor
    · rintro ⟨e, he, h1, h2⟩; exact ⟨e, (hc e h1).mpr he, h1, h2⟩
    · rintro ⟨e, he, h1, h2⟩; exact ⟨e, (hc e h1).mp he, h1, h2⟩
  have hans : ∀ q c b, RAnswered F t q c b ↔ RAnswered E t q c b := by
    intro q c b
    constructor
    · rintro ⟨e, he, h1, h2⟩; exact ⟨e, (hc e h1).mpr he, h1, h2⟩
    · rintro ⟨e, he, h1, h2⟩; exact ⟨e, (hc e h1).mp he, h1, h2⟩
  have hpass : ∀ q x, RPassed F t q x ↔ RPassed E t q x := by
    intro q x
    unfold RPassed
    simp only [hans]
  have hreach : ∀ q x, RReached F t node q x ↔ RReached E t node q x := by
    intro q x
    unfold RReached Chosen
    simp only [hpass, hans, hcalled]
  constructor
  · intro e he ht; exact h.only e ((hc e ht).mpr he) ht
  · intro q hq; simp only [hcalled, hreach]; exact h.pre q hq
  · intro q hq i; simp only [hcalled, hreach, hans]; exact h.point q hq i
  · intro q hq g; simp only [hcalled, hreach, hpass]; exact h.order q hq g
  · intro q hq; simp only [hcalled, hreach, hans]; exact h.post q hq

theorem wnode_root (hd : 0 < d) (skip : Bool) (W : List (Quad d)) : WNode skip (root d) W = ReorderNode skip W := by
  funext q
  unfold WNode ReorderNode
  cases skip
  · simp only [Bool.false_eq_true, if_false]
    refine propext (and_congr_right fun hq => ?_)
    exact ⟨fun h => h.2, fun h => ⟨valid_in_root hd hq, h⟩⟩
  · rfl

theorem reorderTrees_spec (hd : 0 < d) {f : SearchForest d} (hf : Searchable f) (skip : Bool) (fns : ReorderFns d σ)
    (points : Option ℕ) (hpt : points.isSome = true → fns.pointFn.isSome = true) (hre : Reorders fns) (L : List ℕ)
    (hnd : L.Nodup) (hlt : ∀ i ∈ L, f.first.toNat + i < f.trees.length) :
    ∀ (n k : ℕ) (s : σ), k + n = L.length →
    ∃ s' E, reorderTrees f skip fns points L n k s = some (s', E) ∧
      ReorderSearched f skip fns points ((L.drop k).map (f.first.toNat + ·)) E ∧ RReplays fns E s s' := by
  intro n
  induction n with
  | zero =>
    intro k s hk
    refine ⟨s, [], rfl, ⟨List.Pairwise.nil, by simp, ?_⟩, rfl⟩
    rw [List.drop_of_length_le (by omega)]
    simp
  | succ n ih =>
    intro k s hk
    have hkl : k < L.length := by omega
    have hLk : L[k]? = some L[k] := List.getElem?_eq_getElem hkl
    set t := L[k] + f.first.toNat with ht
    have htl : t < f.trees.length := by
      have := hlt L[k] (List.getElem_mem _); omega
    have htt : f.trees[t]? = some f.trees[t] := List.getElem?_eq_getElem htl
    obtain ⟨hv, hlin⟩ := hf.trees f.trees[t] (List.getElem_mem _)
    obtain ⟨s1, E1, e1, o1, t1, p1, r1⟩ := reorderRecursion_spec hd ⟨t, skip, fns, points⟩ hpt hre f.trees[t].1 31 (root d)
      f.trees[t].2 0 none s (by simp [root]) root_valid hv (linear_stops hv hlin) (fun a ha => valid_in_root hd (hv a ha))
      (activeSorted_none _)
    obtain ⟨s2, E2, e2, h2, r2⟩ := ih (k + 1) s1 (by omega)
    dsimp only at t1 p1 r1 o1
    have hdrop : (L.drop k).map (f.first.toNat + ·) = t :: (L.drop (k + 1)).map (f.first.toNat + ·) := by
      rw [List.drop_eq_getElem_cons hkl, List.map_cons, ht, Nat.add_comm]
    have hfresh : t ∉ (L.drop (k + 1)).map (f.first.toNat + ·) := by
      rw [List.mem_map]
      rintro ⟨i, hi, he⟩
      obtain rfl : i = L[k] := by omega
      have := hnd.sublist (List.drop_sublist k L)
      rw [List.drop_eq_getElem_cons hkl, List.nodup_cons] at this
      exact this.1 hi
    refine ⟨s2, E1 ++ E2, ?_, ⟨?_, ?_, ?_⟩, rreplays_append r1 r2⟩
    · unfold reorderTrees
      rw [obind hLk]
      dsimp only
      rw [← ht, obind htt, obind e1, obind e2]
    · rw [List.pairwise_append]
      refine ⟨?_, ?_, ?_⟩
      · exact o1.imp_of_mem fun {e} {g} he hg h => Or.inr ⟨by rw [t1 e he, t1 g hg], sooner_mono (by simp) h⟩
      · refine h2.order.imp fun {e} {g} h => ?_
        rcases h with ⟨h3, h4⟩ | ⟨h3, h4⟩
        · left
          refine ⟨h3, ?_⟩
          rw [hdrop]
          exact h4.trans (List.sublist_cons_self _ _)
        · exact Or.inr ⟨h3, sooner_mono (by simp) h4⟩
      · intro e he g hg
        left
        have hgm := h2.inside g hg
        rw [t1 e he]
        refine ⟨fun h => hfresh (by rw [h]; exact hgm), ?_⟩
        rw [hdrop]
        exact List.Sublist.cons_cons _ (List.singleton_sublist.mpr hgm)
    · intro e he
      rw [hdrop]
      rcases List.mem_append.mp he with he | he
      · rw [t1 e he]; exact List.mem_cons_self
      · exact List.mem_cons_of_mem _ (h2.inside e he)
    · intro u hu tree htree
      rw [hdrop] at hu
      rcases List.mem_cons.mp hu with rfl | hu
      · rw [htt] at htree
        obtain rfl := Option.some_inj.mp htree
        rw [targets_eq]
        rw [wnode_root hd] at p1
        have p1' : TreeReordered fns t (ReorderNode skip f.trees[t].2) (ReorderNumber f.trees[t].1 f.trees[t].2) (Fork f.trees[t].2)
            (cands points none) E1 := by simpa using p1
        refine p1'.congr fun e he => ?_
        rw [List.mem_append]
        constructor
        · exact Or.inl
        · rintro (h | h)
          · exact h
          · exact absurd (h2.inside e h) (by rw [he]; exact hfresh)
      · refine (h2.trees u hu tree htree).congr fun e he => ?_
        rw [List.mem_append]
        constructor
        · exact Or.inr
        · rintro (h | h)
          · exact absurd hu (by rw [← he, t1 e h]; exact hfresh)
          · exact h

theorem perm_range {l : List ℕ} {n : ℕ} (h1 : l.Nodup) (h2 : l ⊆ List.range n) (h3 : l.length = n) : l.Perm (List.range n) :=
  (h1.subperm h2).perm_of_length_le (by simp [h3])

/-- C60, partial.  For every local forest, all callbacks, with or without points, with or without skipping of levels: the search
returns, the user's state runs through the callbacks in the order of the recorded calls, and the calls are exactly these.
First the roots are put in order.  In each tree, the quadrant callback is called for a search quadrant if some target got
past all search quadrants above it and the reorder callback left the children on the way in its lists; unless the quadrant is
rejected then, the points that arrived are shown in order; if some target is left and the quadrant contains several
leaves, the reorder callback is given the children that contain leaves; the children it leaves are searched in its order if
it returns true; then the second quadrant callback is called.

Missing: a reorder callback that drops roots; see `C60_trees_dropped`. -/
theorem C60_search_reorder_partial (hd : 0 < d) (f : SearchForest d) (hf : Searchable f) (skip : Bool) (fns : ReorderFns d σ)
    (hre : Reorders fns) (points : Option ℕ) (hpt : points.isSome = true → fns.pointFn.isSome = true) (s : σ)
    (hroots : ∀ g, fns.reorderFn = some g →
      (g ((treeNumbers f).map fun t => (t, root d)) (List.range (treeNumbers f).length) s).1.2.length = (treeNumbers f).length) :
    ∃ s0 trees s' E, RootsOrdered f fns s s0 trees ∧ searchReorder f skip fns points s = some (s', E) ∧
      ReorderSearched f skip fns points trees E ∧ RReplays fns E s0 s' := by
  unfold searchReorder RootsOrdered
  have hfirst := hf.first
  have hlast := hf.last
  have hlen : (treeNumbers f).length = (f.last + 1 - f.first).toNat := by simp [treeNumbers]
  have hnil : ReorderSearched f skip fns points [] ([] : List (REvent d)) := ⟨List.Pairwise.nil, by simp, by simp⟩
  by_cases h : (fns.preFn.isNone && fns.postFn.isNone && fns.pointFn.isNone) = true
  · have hc : (fns.preFn = none ∧ fns.postFn = none ∧ fns.pointFn = none) ∨ treeNumbers f = [] :=
      Or.inl (by simpa [and_assoc] using h)
    simp only [if_pos h, if_pos hc]
    exact ⟨s, [], s, [], ⟨rfl, rfl⟩, rfl, hnil, rfl⟩
  · rw [if_neg h]
    by_cases he : f.first > f.last
    · have hc : (fns.preFn = none ∧ fns.postFn = none ∧ fns.pointFn = none) ∨ treeNumbers f = [] :=
        Or.inr (List.length_eq_zero_iff.mp (by rw [hlen]; omega))
      simp only [if_pos he, if_pos hc]
      exact ⟨s, [], s, [], ⟨rfl, rfl⟩, rfl, hnil, rfl⟩
    · have hc : ¬ ((fns.preFn = none ∧ fns.postFn = none ∧ fns.pointFn = none) ∨ treeNumbers f = []) := by
        rintro (h1 | h1)
        · exact h (by simp [h1.1, h1.2.1, h1.2.2])
        · rw [h1] at hlen; simp at hlen; omega
      simp only [if_neg he, if_neg hc]
      have hn : (f.last - f.first + 1).toNat = (treeNumbers f).length := by rw [hlen]; omega
      try dsimp only
      rw [hn]
      have hbound : ∀ i < (treeNumbers f).length, f.first.toNat + i < f.trees.length := by
        intro i hi
        omega
      cases hr : fns.reorderFn with
      | none =>
        dsimp only
        obtain ⟨s', E, e, h1, h2⟩ := reorderTrees_spec hd hf skip fns points hpt hre (List.range (treeNumbers f).length)
          List.nodup_range (fun i hi => hbound i (List.mem_range.mp hi)) (treeNumbers f).length 0 s (by simp)
        refine ⟨s, treeNumbers f, s', E, ⟨rfl, rfl⟩, e, ?_, h2⟩
        rw [List.drop_zero, hlen] at h1
        exact h1
      | some g =>
        dsimp only
        have hroots' : (List.range (treeNumbers f).length).map (fun i => (i + f.first.toNat, root d)) =
            (treeNumbers f).map fun t => (t, root d) := by
          rw [hlen]
          unfold treeNumbers
          rw [List.map_map]
          refine List.map_congr_left fun i _ => ?_
          simp [Nat.add_comm]
        rw [hroots']
        obtain ⟨⟨b, kept⟩, s0, hg⟩ : ∃ r s0, g ((treeNumbers f).map fun t => (t, root d)) (List.range (treeNumbers f).length) s = (r, s0) :=
          ⟨_, _, rfl⟩
        have hk := hre g hr ((treeNumbers f).map fun t => (t, root d)) (List.range (treeNumbers f).length) s List.nodup_range
        have hl := hroots g hr
        rw [hg] at hk hl ⊢
        dsimp only at hk hl ⊢
        cases b with
        | false => exact ⟨s0, [], s0, [], ⟨false, kept, rfl, rfl⟩, rfl, hnil, rfl⟩
        | true =>
          obtain ⟨s', E, e, h1, h2⟩ := reorderTrees_spec hd hf skip fns points hpt hre kept hk.1
            (fun i hi => hbound i (List.mem_range.mp (hk.2 hi))) (treeNumbers f).length 0 s0 (by omega)
          refine ⟨s0, kept.map (f.first.toNat + ·), s', E, ⟨true, kept, rfl, rfl⟩, e, ?_, h2⟩
          rw [List.drop_zero] at h1
          exact h1

/-! ## Consequences -/

theorem sooner_irrefl (hd : 0 < d) {b : Bool} {E : List (REvent d)} {e f : REvent d} (hv : Valid e.quad)
    (h : e.quad = f.quad ∧ e.call = f.call) : ¬ Sooner b E e f := by
  rintro (⟨-, h1⟩ | ⟨h1, -⟩ | ⟨h1, -⟩ | ⟨q, j, k, hq, hj, hk, hjk, h1, h2, -⟩)
  · rw [h.2] at h1
    cases hc : f.call with
    | point x => rw [hc] at h1; exact lt_irrefl x h1
    | pre => rw [hc] at h1; exact h1
    | order g l => rw [hc] at h1; exact h1
    | post => rw [hc] at h1; exact h1
  · rw [h.1] at h1; exact absurd rfl h1.ne
  · rw [h.1] at h1; exact absurd rfl h1.ne
  · rw [← h.1] at h2
    have hl : q.level < 29 := by
      have := hv.1
      have h3 := ((cells_subset_iff hd (by rw [kid_eq_child hq]; exact child_aligned hq.aligned (by have := hq.1; omega) j)
        hv.aligned).mp h1).1
      have : (kid q j).level = q.level + 1 := rfl
      omega
    exact hjk (kid_unique hd hq hl hv hj hk h1 h2)

theorem reorderNode_valid {skip : Bool} {W : List (Quad d)} (hv : ∀ a ∈ W, Valid a) {q : Quad d} (h : ReorderNode skip W q) : Valid q := by
  unfold ReorderNode at h
  cases skip
  · simp only [Bool.false_eq_true, if_false] at h; exact h.1
  · exact node_valid hv h

/-- No call is made twice. -/
theorem reorder_once (hd : 0 < d) {f : SearchForest d} (hf : Searchable f) {skip : Bool} {fns : ReorderFns d σ} {points : Option ℕ}
    {trees : List ℕ} (htr : ∀ t ∈ trees, t < f.trees.length) {E : List (REvent d)} (h : ReorderSearched f skip fns points trees E)
    {e : REvent d} (he : e ∈ E) : RCalledOnce E e.tree e.quad e.num e.call := by
  obtain ⟨E1, E2, rfl⟩ := List.append_of_mem he
  refine ⟨E1, E2, e.answer, rfl, ?_⟩
  have ht := h.inside e he
  have hl := htr _ ht
  have hev : Valid e.quad :=
    reorderNode_valid (hf.trees _ (List.getElem_mem hl)).1 ((h.trees _ ht _ (List.getElem?_eq_getElem hl)).only e he rfl).1
  have ho := h.order
  rw [List.pairwise_append, List.pairwise_cons] at ho
  rintro g hg ⟨h1, h2, h3⟩
  rcases List.mem_append.mp hg with hg | hg
  · rcases ho.2.2 g hg e List.mem_cons_self with h4 | h4
    · exact h4.1 h1
    · exact sooner_irrefl hd (by rw [h2]; exact hev) ⟨h2, h3⟩ h4.2
  · rcases ho.2.1.1 g hg with h4 | h4
    · exact h4.1 h1.symm
    · exact sooner_irrefl hd hev ⟨h2.symm, h3.symm⟩ h4.2

theorem rreplays_mem {fns : ReorderFns d σ} {E : List (REvent d)} {s s' : σ} (h : RReplays fns E s s') {e : REvent d} (he : e ∈ E) :
    ∃ s1 s2, RReplays fns [e] s1 s2 := by
  induction E generalizing s with
  | nil => simp at he
  | cons a es ih =>
    obtain ⟨s1, h1, h2⟩ := h
    rcases List.mem_cons.mp he with rfl | he
    · exact ⟨s, s1, s1, rfl, h2⟩
    · exact ih h1 he

/-- C60, consequence.  A search without points whose quadrant callbacks object to nothing and whose reorder callback only
permutes calls the first quadrant callback exactly once for each local leaf, with its local number, in whatever order. -/
theorem C60_every_leaf_once (hd : 0 < d) (f : SearchForest d) (hf : Searchable f) (skip : Bool) (fns : ReorderFns d σ)
    (hpre : ∃ g, fns.preFn = some g ∧ ∀ t q num s, (g t q num s).1 = true)
    (hre : ∀ g, fns.reorderFn = some g → ∀ qs (given : List ℕ) s, (g qs given s).1.1 = true ∧ (g qs given s).1.2.Perm given) (s : σ) :
    ∃ s' E, searchReorder f skip fns none s = some (s', E) ∧
      ∀ (t : ℕ) tree, f.first ≤ t → (t : ℤ) ≤ f.last → f.trees[t]? = some tree → ∀ (i : ℕ) q, tree.2[i]? = some q →
        RCalledOnce E t q (tree.1 + i) .pre := by
  obtain ⟨g0, hg0, hg1⟩ := hpre
  have hre' : Reorders fns := by
    intro g hg qs given s hnd
    have := (hre g hg qs given s).2
    exact ⟨this.nodup_iff.mpr hnd, this.subset⟩
  have hlen : (treeNumbers f).length = (f.last + 1 - f.first).toNat := by simp [treeNumbers]
  have hfirst := hf.first
  have hlast := hf.last
  obtain ⟨s0, trees, s', E, hr, e, h, hrep⟩ := C60_search_reorder_partial hd f hf skip fns hre' none (by simp) s
    (fun g hg => by rw [(hre g hg _ _ s).2.length_eq]; simp)
  refine ⟨s', E, e, ?_⟩
  -- the trees searched are the local ones
  have hmem : ∀ t : ℕ, t ∈ treeNumbers f ↔ f.first ≤ t ∧ (t : ℤ) ≤ f.last := by
    intro t
    unfold treeNumbers
    rw [List.mem_map]
    constructor
    · rintro ⟨i, hi, rfl⟩
      rw [List.mem_range] at hi
      omega
    · intro h
      exact ⟨t - f.first.toNat, by rw [List.mem_range]; omega, by omega⟩
  have htrees : ∀ t, t ∈ trees ↔ t ∈ treeNumbers f := by
    unfold RootsOrdered at hr
    by_cases hc : (fns.preFn = none ∧ fns.postFn = none ∧ fns.pointFn = none) ∨ treeNumbers f = []
    · rw [if_pos hc] at hr
      rcases hc with hc | hc
      · rw [hc.1] at hg0; simp at hg0
      · rw [hr.2, hc]; simp
    · rw [if_neg hc] at hr
      cases hg : fns.reorderFn with
      | none => rw [hg] at hr; rw [hr.2]; simp
      | some g =>
        rw [hg] at hr
        obtain ⟨b, kept, h1, h2⟩ := hr
        have hb := hre g hg ((treeNumbers f).map fun t => (t, root d)) (List.range (treeNumbers f).length) s
        rw [h1] at hb
        dsimp only at hb
        rw [h2, hb.1, if_pos rfl]
        intro t
        rw [(hb.2.map _).mem_iff, hlen]
        rfl
  intro t tree ht1 ht2 htree i q hq
  have ht := (htrees t).mpr ((hmem t).mpr ⟨ht1, ht2⟩)
  have H := h.trees t ht tree htree
  have hv := (hf.trees tree (List.mem_of_getElem? htree)).1
  have hlinear := (hf.trees tree (List.mem_of_getElem? htree)).2
  have hqm := List.mem_of_getElem? hq
  have hnode : ReorderNode skip tree.2 q := by
    unfold ReorderNode
    cases skip
    · exact ⟨hv q hqm, q, hqm, le_rfl⟩
    · exact Or.inl hqm
  have hnopre : ∀ b, ¬ RAnswered E t b .pre false := by
    rintro b ⟨e, he, -, -, hc, ha⟩
    obtain ⟨s1, s2, s3, -, h2⟩ := rreplays_mem hrep he
    rw [hc] at h2
    obtain ⟨g, hg, h3⟩ := h2
    rw [hg0] at hg
    obtain rfl := Option.some_inj.mp hg
    have := hg1 e.tree e.quad e.num s1
    rw [h3, ha] at this
    simp at this
  have hreach : RReached E t (ReorderNode skip tree.2) q none := by
    intro b hb hqb
    refine ⟨⟨hnopre b, by simp⟩, ?_⟩
    intro k hk hqk given kept hc
    have hfork := ((H.order b hb given).mp ⟨kept, hc⟩).2.1
    obtain ⟨e, he, h1, h2, h3⟩ := hc
    obtain ⟨s1, s2, s3, -, h4⟩ := rreplays_mem hrep he
    rw [h3] at h4
    obtain ⟨g, hg, h5⟩ := h4
    have h6 := hre g hg ((kids e.quad).map fun c => (e.tree, c)) given s1
    rw [h5] at h6
    exact ⟨⟨e, he, h1, h2, h3, h6.1⟩, h6.2.mem_iff.mpr ((hfork.2.2 k).mpr ⟨hk, q, hqm, hqk⟩)⟩
  obtain ⟨e, he, h1, h2, h3⟩ := (H.pre q hnode).mpr ⟨by rw [hg0]; rfl, none, by simp [targets], hreach⟩
  have hnum : e.num = tree.1 + i := by
    have h4 := (H.only e he h1).2
    rw [h2] at h4
    rcases h4 with ⟨j, hj, h5⟩ | ⟨h5, -⟩
    · rw [h5]
      obtain ⟨hj1, hj2⟩ := List.getElem?_eq_some_iff.mp hj
      obtain ⟨hi1, hi2⟩ := List.getElem?_eq_some_iff.mp hq
      have hnd : tree.2.Nodup := (linear_stops hv hlinear).imp fun {a} {b} h hab => by
        rw [hab] at h
        have := start_lt_stop b
        omega
      rw [(hnd.getElem_inj_iff).mp (hj2.trans hi2.symm)]
    · exact absurd hqm h5
  have := reorder_once hd hf (fun t ht => by
    have := (hmem t).mp ((htrees t).mp ht)
    omega) h he
  rwa [h1, h2, h3, hnum] at this

/-! ## Roots dropped -/

theorem reorderTrees_short (f : SearchForest d) (skip : Bool) (fns : ReorderFns d σ) (points : Option ℕ) (L : List ℕ) :
    ∀ (n k : ℕ) (s : σ), k ≤ L.length → L.length < k + n → reorderTrees f skip fns points L n k s = none := by
  intro n
  induction n with
  | zero => intro k s h1 h2; omega
  | succ n ih =>
    intro k s h1 h2
    unfold reorderTrees
    by_cases hk : k < L.length
    · rw [obind (List.getElem?_eq_getElem hk)]
      dsimp only
      cases h3 : f.trees[L[k] + f.first.toNat]? with
      | none => rfl
      | some tree =>
        rw [obind rfl]
        cases h4 : reorderRecursion ⟨L[k] + f.first.toNat, skip, fns, points⟩ tree.1 31 (root d) tree.2 0 none s with
        | none => rfl
        | some r =>
          rw [obind rfl, ih (k + 1) r.1 (by omega) (by omega)]
          rfl
    · rw [List.getElem?_eq_none (by omega)]
      rfl

/-- C60, the missing case: whenever the reorder callback drops a root and returns true, which its documentation allows, the
search reads beyond the end of the array of indices. -/
theorem C60_trees_dropped (f : SearchForest d) (skip : Bool) (fns : ReorderFns d σ) (points : Option ℕ) (s : σ)
    (hsome : fns.preFn.isSome = true ∨ fns.postFn.isSome = true ∨ fns.pointFn.isSome = true)
    (g : List (ℕ × Quad d) → List ℕ → σ → (Bool × List ℕ) × σ) (hg : fns.reorderFn = some g)
    (hdrop : (g ((treeNumbers f).map fun t => (t, root d)) (List.range (treeNumbers f).length) s).1.2.length < (treeNumbers f).length)
    (htrue : (g ((treeNumbers f).map fun t => (t, root d)) (List.range (treeNumbers f).length) s).1.1 = true) :
    searchReorder f skip fns points s = none := by
  have hlen : (treeNumbers f).length = (f.last + 1 - f.first).toNat := by simp [treeNumbers]
  unfold searchReorder
  rw [if_neg, if_neg (by omega)]
  · dsimp only
    rw [hg]
    have hn : (f.last - f.first + 1).toNat = (treeNumbers f).length := by rw [hlen]; omega
    dsimp only
    rw [hn]
    have hroots' : (List.range (treeNumbers f).length).map (fun i => (i + f.first.toNat, root d)) =
        (treeNumbers f).map fun t => (t, root d) := by
      rw [hlen]
      unfold treeNumbers
      rw [List.map_map]
      refine List.map_congr_left fun i _ => ?_
      simp [Nat.add_comm]
    rw [hroots', htrue]
    exact reorderTrees_short f skip fns points _ _ 0 _ (by omega) (by omega)
  · rcases hsome with h | h | h <;> simp [Option.isNone_iff_eq_none, Option.isSome_iff_ne_none.mp h]

/-! ## Examples -/

/-- Reverse the order. -/
def reverseFns : ReorderFns 2 ℕ :=
  ⟨some fun _ given s => ((true, given.reverse), s + 1), some fun _ _ _ s => (true, s + 1), some fun _ _ _ s => (false, s), none⟩

theorem reverseFns_ok : Reorders reverseFns := by
  intro g hg qs given s hnd
  obtain rfl := Option.some_inj.mp hg
  exact ⟨List.nodup_reverse.mpr hnd, by simp⟩

/-- The hypotheses of `C60_search_reorder_partial` are met by a search in reverse order. -/
example : ∃ s0 trees s' E, RootsOrdered searchExample reverseFns 0 s0 trees ∧
    searchReorder searchExample false reverseFns none 0 = some (s', E) ∧
    ReorderSearched searchExample false reverseFns none trees E ∧ RReplays reverseFns E s0 s' :=
  C60_search_reorder_partial (by norm_num) searchExample searchExample_ok false reverseFns reverseFns_ok none (by simp) 0
    (by intro g hg; obtain rfl := Option.some_inj.mp hg; simp)

/-- The search goes through all levels, the leaves are numbered 2, 1, 0. -/
example : (searchReorder searchExample false reverseFns none 0).map (fun r => (r.1, r.2.map fun e => (e.quad.level, e.num, e.call))) =
    some (7, [(0, -1, .pre), (0, -1, .order [0, 2, 3] [3, 2, 0]), (1, 2, .pre), (1, 2, .post), (1, -1, .pre), (2, 1, .pre), (2, 1, .post),
      (1, -1, .post), (1, 0, .pre), (1, 0, .post), (0, -1, .post)]) := by decide +kernel

/-- With skipped levels the quadrant above the second leaf is not visited. -/
example : (searchReorder searchExample true reverseFns none 0).map (fun r => (r.1, r.2.map fun e => (e.quad.level, e.num, e.call))) =
    some (6, [(0, -1, .pre), (0, -1, .order [0, 2, 3] [3, 2, 0]), (1, 2, .pre), (1, 2, .post), (2, 1, .pre), (2, 1, .post),
      (1, 0, .pre), (1, 0, .post), (0, -1, .post)]) := by decide +kernel

/-- The hypotheses of `C60_every_leaf_once` are met. -/
example := C60_every_leaf_once (by norm_num) searchExample searchExample_ok true reverseFns ⟨_, rfl, fun _ _ _ _ => rfl⟩
  (by intro g hg qs given s; obtain rfl := Option.some_inj.mp hg; exact ⟨rfl, List.reverse_perm _⟩) 0

/-- Drop the first index. -/
def dropFns : ReorderFns 2 ℕ :=
  ⟨some fun _ given s => ((true, given.drop 1), s + 1), some fun _ _ _ s => (true, s + 1), none, none⟩

/-- This callback follows the rules, and the search of a single tree reads beyond the end of the array. -/
example : Reorders dropFns ∧ searchReorder searchExample false dropFns none 0 = none := by
  constructor
  · intro g hg qs given s hnd
    obtain rfl := Option.some_inj.mp hg
    exact ⟨hnd.sublist (List.drop_sublist _ _), List.drop_subset _ _⟩
  · exact C60_trees_dropped searchExample false dropFns none 0 (Or.inl rfl) _ rfl (by decide) rfl

end P4est
