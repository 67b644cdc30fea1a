import Verif.Lemmas.ForestOps

/-! # C35: the revision counter

Refining, coarsening and repartitioning a forest of any number of ranks: each function has a result, leaves
a consistent forest of complete trees, and increases the revision by one if the leaves of some rank are
not the same as before and leaves it alone otherwise.  This holds along every sequence of operations. -/

namespace P4est
open Spec

variable {d : ℕ} {α σ : Type}

/-- The members of the forest on all ranks are those of a forest of complete trees whose leaves are
distributed among the ranks in order. -/
def Spec.Consistent (numProcs : ℕ) (f : Forest d α) : Prop :=
  ∃ trees leaves, ForestHolds f trees numProcs leaves

/-- The leaves (tree and quadrant) of some rank differ. -/
def Spec.Changed (numProcs : ℕ) (f f' : Forest d α) : Prop :=
  ∃ p, p < numProcs ∧ (f'.ranks p).tagged ≠ (f.ranks p).tagged

/-- The counter is right: one more if something has changed, otherwise the same. -/
def Spec.RevisionOk (numProcs : ℕ) (f f' : Forest d α) : Prop :=
  (Changed numProcs f f' → f'.revision = f.revision + 1) ∧ (¬ Changed numProcs f f' → f'.revision = f.revision)

theorem bare_of_quads {ls ls' : List (List (Quad d × α))}
    (h : List.Forall₂ (fun o n => n.map Prod.fst = o.map Prod.fst) ls ls') :
    bare (forestLeaves ls') = bare (forestLeaves ls) := by
  have h1 : ls'.map (·.map Prod.fst) = ls.map (·.map Prod.fst) := by
    induction h with
    | nil => rfl
    | cons h _ ih => simp [h, ih]
  have h2 : ∀ l : List (List (Quad d × α)), bare (forestLeaves l) = forestLeaves (l.map (·.map Prod.fst)) := by
    intro l; rw [forestLeaves, forestLeaves, tagFrom_map]; rfl
  rw [h2, h2, h1]

theorem forall2_same {R : List (Quad d × α) → List (Quad d × α) → Prop}
    (hR : ∀ o n, R o n → o.length ≤ n.length ∧ (o.length = n.length → n.map Prod.fst = o.map Prod.fst))
    {ls ls' : List (List (Quad d × α))} (h : List.Forall₂ R ls ls') :
    (ls.map List.length).sum ≤ (ls'.map List.length).sum ∧
      ((ls.map List.length).sum = (ls'.map List.length).sum →
        List.Forall₂ (fun o n => n.map Prod.fst = o.map Prod.fst) ls ls') := by
  induction h with
  | nil => exact ⟨le_rfl, fun _ => List.Forall₂.nil⟩
  | cons h _ ih =>
    have h1 := hR _ _ h
    simp only [List.map_cons, List.sum_cons]
    exact ⟨by omega, fun he => List.Forall₂.cons (h1.2 (by omega)) (ih.2 (by omega))⟩

theorem forall2_same' {R : List (Quad d × α) → List (Quad d × α) → Prop}
    (hR : ∀ o n, R o n → n.length ≤ o.length ∧ (o.length = n.length → n.map Prod.fst = o.map Prod.fst))
    {ls ls' : List (List (Quad d × α))} (h : List.Forall₂ R ls ls') :
    (ls'.map List.length).sum ≤ (ls.map List.length).sum ∧
      ((ls.map List.length).sum = (ls'.map List.length).sum →
        List.Forall₂ (fun o n => n.map Prod.fst = o.map Prod.fst) ls ls') := by
  induction h with
  | nil => exact ⟨le_rfl, fun _ => List.Forall₂.nil⟩
  | cons h _ ih =>
    have h1 := hR _ _ h
    simp only [List.map_cons, List.sum_cons]
    exact ⟨by omega, fun he => List.Forall₂.cons (h1.2 (by omega)) (ih.2 (by omega))⟩

theorem holds_num {f : Forest d α} {trees : List (List (Quad d × α))} {P : ℕ} {leaves : ℕ → List (ℕ × (Quad d × α))}
    (hf : ForestHolds f trees P leaves) :
    f.globalNum = ∑ p ∈ Finset.range P, ((f.ranks p).trees.map List.length).sum := by
  rw [hf.globalNum, ← hf.forest.split, List.length_flatMap, ← List.sum_toFinset _ List.nodup_range, List.toFinset_range]
  apply Finset.sum_congr rfl
  intro p hp
  rw [← (hf.ranks p (Finset.mem_range.mp hp)).split, forestLeaves_length]

/-- If the number of leaves of each rank cannot shrink (or cannot grow), the global number tells whether
something has changed. -/
theorem revisionOk_of {P : ℕ} {f f' : Forest d α} {lo hi : ℕ → ℕ}
    (hrev : f'.revision = if f.globalNum ≠ f'.globalNum then f.revision + 1 else f.revision)
    (h1 : f.globalNum = ∑ p ∈ Finset.range P, lo p) (h2 : f'.globalNum = ∑ p ∈ Finset.range P, hi p)
    (hlen : ∀ p, p < P → (f.ranks p).tagged.length = lo p ∧ (f'.ranks p).tagged.length = hi p)
    (hle : (∀ p, p < P → lo p ≤ hi p) ∨ (∀ p, p < P → hi p ≤ lo p))
    (hsame : ∀ p, p < P → lo p = hi p → (f'.ranks p).tagged = (f.ranks p).tagged) : RevisionOk P f f' := by
  have key : f.globalNum = f'.globalNum ↔ ∀ p, p < P → lo p = hi p := by
    rw [h1, h2]
    rcases hle with hle | hle
    · rw [Finset.sum_eq_sum_iff_of_le fun p hp => hle p (Finset.mem_range.mp hp)]
      simp only [Finset.mem_range]
    · rw [eq_comm, Finset.sum_eq_sum_iff_of_le fun p hp => hle p (Finset.mem_range.mp hp)]
      simp only [Finset.mem_range]
      exact ⟨fun h p hp => (h p hp).symm, fun h p hp => (h p hp).symm⟩
  constructor
  · rintro ⟨p, hp, hc⟩
    rw [hrev, if_pos]
    intro h
    exact hc (hsame p hp (key.mp h p hp))
  · intro h
    rw [hrev, if_neg]
    rw [not_not, key]
    intro p hp
    by_contra hc
    apply h
    refine ⟨p, hp, fun he => hc ?_⟩
    rw [← (hlen p hp).1, ← (hlen p hp).2, he]

theorem tagged_length (rt : RankTrees (Quad d × α)) : rt.tagged.length = (rt.trees.map List.length).sum := by
  rw [tagged_eq, bare, List.length_map, forestLeaves_length]

theorem mem_tagged {rt : RankTrees (Quad d × α)} {x : ℕ × Quad d} :
    x ∈ rt.tagged ↔ ∃ y ∈ rt.trees.getD x.1 [], y.1 = x.2 := by
  rw [tagged_eq, bare, List.mem_map]
  constructor
  · rintro ⟨y, hy, rfl⟩
    exact ⟨y.2, mem_forest_iff.mp hy, rfl⟩
  · rintro ⟨y, hy, h⟩
    exact ⟨(x.1, y), mem_forest_iff.mpr hy, Prod.ext rfl h⟩

/-- C35. Refinement, recursive or not, with any callbacks (which get the number of the tree and keep a
state on each rank) and any allowed level: there is a result, it is a consistent forest, every leaf of
a rank lies in an old leaf of the same rank and tree, and the revision grows by one exactly if the
leaves of some rank changed. -/
theorem C35_refine (hd : 0 < d) (P : ℕ) (f : Forest d α) (hf : Consistent P f) (cb : ℕ → RefineCb d α σ)
    (recursive : Bool) (allowedLevel : ℤ) (hal : allowedLevel ≤ 29) (s : ℕ → σ) :
    ∃ f' s', refineExt P cb recursive allowedLevel f s = some (f', s') ∧ Consistent P f' ∧
      (∀ p, p < P → ∀ x ∈ (f'.ranks p).tagged, ∃ y ∈ (f.ranks p).tagged, y.1 = x.1 ∧ Cells x.2 ⊆ Cells y.2) ∧
      RevisionOk P f f' := by
  obtain ⟨trees, leaves, hf⟩ := hf
  set allowed : ℤ := if allowedLevel < 0 then 29 else allowedLevel with hallowed
  have ha : allowed.toNat ≤ 29 := by rw [hallowed]; split <;> omega
  obtain ⟨f', s', trees', h1, h2, h3, h4⟩ := overRanks_spec hd hf Refined Refined.nil (fun _ _ h => h.toRegrain)
    (fun nt l s hv _ => refineLeaves_spec hd cb recursive allowed.toNat ha nt l s hv) s
  refine ⟨f', s', h1, ⟨trees', _, h2⟩, ?_, ?_⟩
  · intro p hp x hx
    obtain ⟨y, hy, hyx⟩ := mem_tagged.mp hx
    obtain ⟨z, hz, hyz⟩ := (forall2_getD Refined.nil (h3 p hp) x.1).inside y hy
    exact ⟨(x.1, z.1), mem_tagged.mpr ⟨z, hz, rfl⟩, rfl, by rw [← hyx]; exact hyz⟩
  · have key := fun p hp => forall2_same (R := Refined) (fun _ _ h => ⟨h.le, h.same⟩) (h3 p hp)
    apply revisionOk_of h4 (holds_num hf) (holds_num h2) (fun p _ => ⟨tagged_length _, tagged_length _⟩)
    · exact Or.inl fun p hp => (key p hp).1
    · intro p hp he
      rw [tagged_eq, tagged_eq]
      exact bare_of_quads ((key p hp).2 he)

/-- C35. Coarsening, recursive or not, with or without calls for orphans and with any callbacks: there is a
result, it is a consistent forest, every old leaf of a rank lies in a leaf of the same rank and tree, and
the revision grows by one exactly if the leaves of some rank changed. -/
theorem C35_coarsen (hd : 0 < d) (P : ℕ) (f : Forest d α) (hf : Consistent P f) (cb : ℕ → CoarsenCb d α σ)
    (recursive orphans : Bool) (s : ℕ → σ) :
    ∃ f' s', coarsenExt P cb recursive orphans f s = some (f', s') ∧ Consistent P f' ∧
      (∀ p, p < P → ∀ y ∈ (f.ranks p).tagged, ∃ x ∈ (f'.ranks p).tagged, x.1 = y.1 ∧ Cells y.2 ⊆ Cells x.2) ∧
      RevisionOk P f f' := by
  obtain ⟨trees, leaves, hf⟩ := hf
  obtain ⟨f', s', trees', h1, h2, h3, h4⟩ := overRanks_spec hd hf Coarsened Coarsened.nil (fun _ _ h => h.toRegrain)
    (fun nt l s hv hg => coarsenLeaves_spec hd cb recursive orphans nt l s hv hg) s
  refine ⟨f', s', h1, ⟨trees', _, h2⟩, ?_, ?_⟩
  · intro p hp x hx
    obtain ⟨y, hy, hyx⟩ := mem_tagged.mp hx
    obtain ⟨z, hz, hyz⟩ := (forall2_getD Coarsened.nil (h3 p hp) x.1).inside y hy
    exact ⟨(x.1, z.1), mem_tagged.mpr ⟨z, hz, rfl⟩, rfl, by rw [← hyx]; exact hyz⟩
  · have key := fun p hp => forall2_same' (R := Coarsened) (fun _ _ h => ⟨h.le, h.same⟩) (h3 p hp)
    apply revisionOk_of h4 (holds_num hf) (holds_num h2) (fun p _ => ⟨tagged_length _, tagged_length _⟩)
    · exact Or.inr fun p hp => (key p hp).1
    · intro p hp he
      rw [tagged_eq, tagged_eq]
      exact bare_of_quads ((key p hp).2 he)

/-! ### Partition -/

theorem part_prefix {γ : Type} {P : ℕ} (L : ℕ → List γ) (p : ℕ) (hp : p < P) :
    part ((List.range P).flatMap L) (fun p => ∑ r ∈ Finset.range p, (L r).length) p = L p := by
  unfold part
  have h1 := flatMap_take L P p hp 0 (Nat.zero_le _)
  have h2 := flatMap_take L P p hp (L p).length le_rfl
  simp only [Nat.add_zero, List.take_zero, List.append_nil, List.take_length] at h1 h2
  simp only
  rw [Finset.sum_range_succ, Nat.add_sub_cancel_left]
  have h3 : (((List.range P).flatMap L).drop (∑ r ∈ Finset.range p, (L r).length)).take (L p).length =
      (((List.range P).flatMap L).take (∑ r ∈ Finset.range p, (L r).length + (L p).length)).drop
        (∑ r ∈ Finset.range p, (L r).length) := by
    rw [List.drop_take, Nat.add_sub_cancel_left]
  rw [h3, h2]
  · rw [List.drop_append, List.drop_of_length_le, List.nil_append]
    · rw [List.length_flatMap, ← List.sum_toFinset _ List.nodup_range, List.toFinset_range, Nat.sub_self, List.drop_zero]
    · rw [List.length_flatMap, ← List.sum_toFinset _ List.nodup_range, List.toFinset_range]

theorem changed_congr {N P : ℕ} {old new new' : ℕ → ℕ} (h : ∀ p, p ≤ P → new p = new' p) :
    changed N P old new = changed N P old new' := by
  unfold changed OnRank
  congr 1
  apply Finset.filter_congr
  intro k _
  rw [not_iff_not]
  apply exists_congr
  intro p
  rw [and_congr_right_iff]
  intro hp
  rw [Finset.mem_range] at hp
  rw [h p (by omega), h (p + 1) (by omega)]

theorem list_sum_zero {l : List ℤ} (h : ∀ w ∈ l, 0 ≤ w) (hs : l.sum = 0) : ∀ w ∈ l, w = 0 := by
  induction l with
  | nil => simp
  | cons x l ih =>
    have h1 := h x (by simp)
    have h2 : 0 ≤ l.sum := List.sum_nonneg fun w hw => h w (by simp [hw])
    rw [List.sum_cons] at hs
    intro w hw
    rcases List.mem_cons.mp hw with rfl | hw
    · omega
    · exact ih (fun w hw => h w (by simp [hw])) (by omega) w hw

/-- What a partition with given first leaves does to the revision. -/
theorem revisionOk_partition {P : ℕ} {f f' : Forest d α} {trees : List (List (Quad d × α))}
    {leaves : ℕ → List (ℕ × (Quad d × α))} (hf : ForestHolds f trees P leaves) {first : ℕ → ℕ} (h0 : first 0 = 0)
    (hm : ∀ p, p < P → first p ≤ first (p + 1)) (hN : first P = (forestLeaves trees).length) {shipped : ℤ}
    (hf' : ForestHolds f' trees P (part (forestLeaves trees) first))
    (hs : shipped = changed (forestLeaves trees).length P (fun p => ∑ r ∈ Finset.range p, (leaves r).length) first)
    (hrev : f'.revision = if shipped = 0 then f.revision else f.revision + 1) : RevisionOk P f f' := by
  have hsum : ∀ p, p ≤ P → ∑ r ∈ Finset.range p, (first (r + 1) - first r) = first p := fun p hp => sum_diff h0 hm p hp
  have hlsum : ∑ p ∈ Finset.range P, (leaves p).length = (forestLeaves trees).length := by
    rw [← hf.forest.split, List.length_flatMap, ← List.sum_toFinset _ List.nodup_range, List.toFinset_range]
  have hz := C30_shipped_zero P (forestLeaves trees).length (fun p => (leaves p).length)
    (fun p => first (p + 1) - first p) hlsum (by rw [hsum P le_rfl, hN])
  have hch : changed (forestLeaves trees).length P (fun p => ∑ r ∈ Finset.range p, (leaves r).length)
      (fun p => ∑ r ∈ Finset.range p, (first (r + 1) - first r)) =
      changed (forestLeaves trees).length P (fun p => ∑ r ∈ Finset.range p, (leaves r).length) first :=
    changed_congr hsum
  rw [hch] at hz
  have htag : ∀ p, p < P → (f.ranks p).tagged = bare (leaves p) ∧
      (f'.ranks p).tagged = bare (part (forestLeaves trees) first p) := by
    intro p hp
    rw [tagged_eq, tagged_eq, (hf.ranks p hp).split, (hf'.ranks p hp).split]
    exact ⟨rfl, rfl⟩
  have hfl : ∀ p, p ≤ P → first p ≤ (forestLeaves trees).length := by
    intro p hp
    rw [← hN, ← hsum p hp, ← hsum P le_rfl]
    exact Finset.sum_le_sum_of_subset (Finset.range_subset_range.mpr hp)
  have key : shipped = 0 ↔ ¬ Changed P f f' := by
    rw [hs]
    constructor
    · intro h
      have h1 := hz.mp (by exact_mod_cast h)
      rintro ⟨p, hp, hc⟩
      apply hc
      rw [(htag p hp).1, (htag p hp).2]
      congr 1
      have h2 : ∀ q, q ≤ P → first q = ∑ r ∈ Finset.range q, (leaves r).length := by
        intro q hq
        rw [← hsum q hq]
        apply Finset.sum_congr rfl
        intro r hr
        rw [Finset.mem_range] at hr
        exact (h1 r (by omega)).symm
      rw [← part_prefix leaves p hp, hf.forest.split]
      unfold part
      rw [h2 p (by omega), h2 (p + 1) (by omega)]
    · intro h
      rw [Nat.cast_eq_zero, hz]
      intro p hp
      by_contra hc
      apply h
      refine ⟨p, hp, fun he => hc ?_⟩
      have h1 := congrArg List.length he
      rw [(htag p hp).1, (htag p hp).2, bare, bare, List.length_map, List.length_map] at h1
      rw [← h1]
      unfold part
      have h3 := hfl (p + 1) (by omega)
      have h4 := hm p hp
      rw [List.length_take, List.length_drop]
      omega
  constructor
  · intro h
    rw [hrev, if_neg]
    rw [key, not_not]; exact h
  · intro h
    rw [hrev, if_pos (key.mpr h)]

theorem revisionOk_refl (P : ℕ) (f : Forest d α) : RevisionOk P f f :=
  ⟨fun ⟨_, _, h⟩ => absurd rfl h, fun _ => rfl⟩

/-- What `p4est_partition_ext` may be called with: the numbers that are distributed must be exact in
floating point with `m` bits, weights are not negative, and if the partition is corrected for
coarsening the memory before `global_first_quadrant` must not be negative (see DESIGN.md; `d` is then
two or three). -/
structure Spec.PartitionCall (m P : ℕ) (under : Option ℤ) (f : Forest d α) (forCoarsening : Bool)
    (weight : Option ((ℕ → Quad d × α → σ → ℤ × σ) × (ℕ → σ))) : Prop where
  count : weight = none → (f.globalNum + 1) * P ≤ 2 ^ m
  weights : ∀ wfn s, weight = some (wfn, s) → (∀ t q s, 0 ≤ (wfn t q s).1) ∧
    ((((List.range P).flatMap fun p => (callAll wfn (forestLeaves (f.ranks p).trees) (s p)).1).sum + 1) * P ≤ 2 ^ m)
  memory : forCoarsening = true → 2 ≤ d ∧ ∃ u, under = some u ∧ 0 ≤ u

theorem callAll_leaves {f : Forest d α} {trees : List (List (Quad d × α))} {P : ℕ}
    {leaves : ℕ → List (ℕ × (Quad d × α))} (hf : ForestHolds f trees P leaves) (wfn : ℕ → Quad d × α → σ → ℤ × σ) (s : ℕ → σ) :
    ((List.range P).flatMap fun p => (callAll wfn (forestLeaves (f.ranks p).trees) (s p)).1) =
      (List.range P).flatMap fun p => (callAll wfn (leaves p) (s p)).1 := by
  apply List.flatMap_congr
  intro p hp
  rw [(hf.ranks p (List.mem_range.mp hp)).split]

/-- C35. Partition, uniform or weighted, with or without correction for coarsening: there is a result, it
is a consistent forest with the same trees, and the revision grows by one exactly if the leaves of some
rank changed. -/
theorem C35_partition (hd : 0 < d) (P : ℕ) (f : Forest d α) (trees : List (List (Quad d × α)))
    (leaves : ℕ → List (ℕ × (Quad d × α))) (hf : ForestHolds f trees P leaves) (rnd : ℚ → ℚ)
    (m : ℕ) (hr : Rounding (m + 1) rnd) (under : Option ℤ) (forCoarsening : Bool)
    (weight : Option ((ℕ → Quad d × α → σ → ℤ × σ) × (ℕ → σ))) (hc : PartitionCall m P under f forCoarsening weight) :
    ∃ f' shipped leaves', partitionExt rnd P under f forCoarsening weight = some (f', shipped) ∧
      ForestHolds f' trees P leaves' ∧ RevisionOk P f f' := by
  by_cases hP1 : P = 1
  · subst hP1
    exact ⟨f, 0, leaves, C31_single_process rnd f under forCoarsening weight, hf, revisionOk_refl _ _⟩
  have hP : 1 < P := by
    rcases Nat.lt_or_ge 1 P with h | h
    · exact h
    · exfalso
      have hP0 : P = 0 := by omega
      have h1 := hf.forest.split
      rw [hP0] at h1
      have h2 : forestLeaves trees = [] := h1.symm
      obtain ⟨l, hl⟩ := List.exists_mem_of_ne_nil _ hf.forest.someTree
      obtain ⟨t, ht, rfl⟩ := List.getElem_of_mem hl
      have h3 := (hf.forest.complete _ hl).path hd
      have h4 := leavesIn_forest t trees
      rw [h2, List.getD_eq_getElem?_getD, List.getElem?_eq_getElem ht] at h4
      have h5 : trees[t] = [] := h4.symm
      rw [h5] at h3
      exact path_ne_nil h3 (by positivity) rfl
  -- the wanted numbers
  have hwant : (partitionExt rnd P under f forCoarsening weight = some (f, 0)) ∨
      ∃ first : ℕ → ℕ, first 0 = 0 ∧ (∀ p, p < P → first p ≤ first (p + 1)) ∧ first P = (forestLeaves trees).length ∧
        wantedCounts rnd P f weight = some (some ((List.range P).map fun p => (first (p + 1) : ℤ) - first p)) := by
    cases hw : weight with
    | none =>
      right
      have hs := hc.count hw
      refine ⟨fun p => f.globalNum * p / P, by simp, fun p _ => Nat.div_le_div_right (Nat.mul_le_mul_left _ (by omega)),
        by rw [← hf.globalNum]; exact Nat.mul_div_cancel _ (by omega), uniform_wanted rnd m hr f P (by omega) hs⟩
    | some ws =>
      obtain ⟨wfn, s⟩ := ws
      obtain ⟨h1, h2⟩ := hc.weights wfn s hw
      rw [callAll_leaves hf] at h2
      by_cases hW : ((List.range P).flatMap fun p => (callAll wfn (leaves p) (s p)).1).sum = 0
      · left
        apply C31_zero_weights rnd f trees P leaves hf
        intro p hp w hww
        have hnn : ∀ w ∈ (List.range P).flatMap fun p => (callAll wfn (leaves p) (s p)).1, 0 ≤ w := by
          intro w hw
          obtain ⟨q, -, hw⟩ := List.mem_flatMap.mp hw
          have : ∀ (L : List (ℕ × (Quad d × α))) (s : σ), ∀ w ∈ (callAll wfn L s).1, 0 ≤ w := by
            intro L
            induction L with
            | nil => intro s w hw; simp [callAll] at hw
            | cons x L ih =>
              obtain ⟨t, q⟩ := x
              intro s w hw
              rw [callAll, List.mem_cons] at hw
              rcases hw with rfl | hw
              · exact h1 _ _ _
              · exact ih _ w hw
          exact this _ _ w hw
        exact (list_sum_zero hnn hW) w (List.mem_flatMap.mpr ⟨p, List.mem_range.mpr hp, hww⟩)
      · right
        obtain ⟨first, -, h3, h4, h5, h6⟩ := weighted_wanted rnd m hr f trees P (by omega) leaves hf wfn s h1 _ rfl hW h2
        exact ⟨first, h3, h4, h5, h6⟩
  rcases hwant with h | ⟨first, h0, hm, hN, hw⟩
  · exact ⟨f, 0, leaves, h, hf, revisionOk_refl _ _⟩
  · cases hfc : forCoarsening with
    | false =>
      obtain ⟨f', shipped, h1, h2, h3, h4⟩ := partitionExt_wanted hd rnd hf hP1 under weight first h0 hm hN hw
      exact ⟨f', shipped, _, h1, h2, revisionOk_partition hf h0 hm hN h2 h3 h4⟩
    | true =>
      obtain ⟨hd2, u, hu, hu0⟩ := hc.memory hfc
      obtain ⟨first', f', shipped, h1, k0, km, kN, -, -, h2, h3, h4⟩ := partitionExt_coarsening hd2 rnd hf hP1 under weight
        first h0 hm hN (fun p _ _ _ => Or.inl ⟨u, hu, hu0⟩) hw
      exact ⟨f', shipped, _, h1, h2, revisionOk_partition hf k0 km kN h2 h3 h4⟩

/-! ### Copy -/

/-- C35. A copy has the same leaves and data on all ranks and the revision 0. -/
theorem C35_copy (P : ℕ) (f : Forest d α) (hf : Consistent P f) :
    (copyExt f).revision = 0 ∧ Consistent P (copyExt f) ∧ ∀ p, p < P → (copyExt f).ranks p = f.ranks p := by
  obtain ⟨trees, leaves, hf⟩ := hf
  have h : ∀ p, p < P → (copyExt f).ranks p = f.ranks p := by
    intro p hp
    have h1 : (f.ranks p).trees.mapIdx (fun jt l => if (f.ranks p).first ≤ jt ∧ jt ≤ (f.ranks p).last then l else []) =
        (f.ranks p).trees := by
      apply List.ext_getElem
      · simp
      · intro i h1 h2
        rw [List.getElem_mapIdx]
        split
        · rfl
        · rename_i hc
          exact ((hf.ranks p hp).outside i _ (List.getElem?_eq_getElem h2) hc).symm
    show ({ f.ranks p with trees := _ } : RankTrees (Quad d × α)) = _
    rw [h1]
  refine ⟨rfl, ⟨trees, leaves, hf.forest, hf.numTrees, hf.few, fun p hp => ?_, hf.gfq, hf.gfpTree, hf.globalNum⟩, h⟩
  rw [h p hp]; exact hf.ranks p hp

/-! ### Histories -/

/-- One call of a function that changes a forest on `P` ranks, with any arguments. -/
inductive Spec.Step (P : ℕ) : Forest d α → Forest d α → Prop
  | refine {σ : Type} (cb : ℕ → RefineCb d α σ) (recursive : Bool) (allowedLevel : ℤ) (hal : allowedLevel ≤ 29)
      (s s' : ℕ → σ) (f f' : Forest d α) (h : refineExt P cb recursive allowedLevel f s = some (f', s')) : Step P f f'
  | coarsen {σ : Type} (cb : ℕ → CoarsenCb d α σ) (recursive orphans : Bool) (s s' : ℕ → σ) (f f' : Forest d α)
      (h : coarsenExt P cb recursive orphans f s = some (f', s')) : Step P f f'
  | partition {σ : Type} (rnd : ℚ → ℚ) (m : ℕ) (hr : Rounding (m + 1) rnd) (under : Option ℤ) (forCoarsening : Bool)
      (weight : Option ((ℕ → Quad d × α → σ → ℤ × σ) × (ℕ → σ))) (f f' : Forest d α) (shipped : ℤ)
      (hc : PartitionCall m P under f forCoarsening weight)
      (h : partitionExt rnd P under f forCoarsening weight = some (f', shipped)) : Step P f f'

theorem Spec.Step.ok (hd : 0 < d) {P : ℕ} {f f' : Forest d α} (h : Step P f f') (hf : Consistent P f) :
    Consistent P f' ∧ RevisionOk P f f' := by
  cases h with
  | refine cb recursive allowedLevel hal s s' _ _ h =>
    obtain ⟨f1, s1, h1, h2, -, h3⟩ := C35_refine hd P f hf cb recursive allowedLevel hal s
    rw [h, Option.some.injEq, Prod.mk.injEq] at h1
    rw [h1.1]; exact ⟨h2, h3⟩
  | coarsen cb recursive orphans s s' _ _ h =>
    obtain ⟨f1, s1, h1, h2, -, h3⟩ := C35_coarsen hd P f hf cb recursive orphans s
    rw [h, Option.some.injEq, Prod.mk.injEq] at h1
    rw [h1.1]; exact ⟨h2, h3⟩
  | partition rnd m hr under forCoarsening weight _ _ shipped hc h =>
    obtain ⟨trees, leaves, hf⟩ := hf
    obtain ⟨f1, shipped1, leaves1, h1, h2, h3⟩ := C35_partition hd P f trees leaves hf rnd m hr under forCoarsening weight hc
    rw [h, Option.some.injEq, Prod.mk.injEq] at h1
    rw [h1.1]; exact ⟨⟨trees, leaves1, h2⟩, h3⟩

/-- A history: from `f` by `n` calls that changed something, and any number of others, to `f'`. -/
inductive Spec.History (P : ℕ) : Forest d α → ℕ → Forest d α → Prop
  | start (f : Forest d α) : History P f 0 f
  | change {f g h : Forest d α} {n : ℕ} (hist : History P f n g) (step : Step P g h) (hc : Changed P g h) :
      History P f (n + 1) h
  | idle {f g h : Forest d α} {n : ℕ} (hist : History P f n g) (step : Step P g h) (hc : ¬ Changed P g h) :
      History P f n h

/-- C35. Along every history of refinements, coarsenings and partitions in any order, the forest stays
consistent and the revision counts the calls that changed something. -/
theorem C35_history (hd : 0 < d) (P : ℕ) (f f' : Forest d α) (n : ℕ) (hf : Consistent P f) (h : History P f n f') :
    Consistent P f' ∧ f'.revision = f.revision + n := by
  induction h with
  | start => exact ⟨hf, rfl⟩
  | change _ step hc ih =>
    obtain ⟨h1, h2⟩ := ih
    obtain ⟨h3, h4⟩ := step.ok hd h1
    exact ⟨h3, by rw [h4.1 hc, h2]; rfl⟩
  | idle _ step hc ih =>
    obtain ⟨h1, h2⟩ := ih
    obtain ⟨h3, h4⟩ := step.ok hd h1
    exact ⟨h3, by rw [h4.2 hc, h2]⟩

/-- C35. If the revision is the same at two points of a history, all ranks have the same leaves at both. -/
theorem C35_same_revision (hd : 0 < d) (P : ℕ) (f f' : Forest d α) (n : ℕ) (hf : Consistent P f) (h : History P f n f')
    (hr : f'.revision = f.revision) : ∀ p, p < P → (f'.ranks p).tagged = (f.ranks p).tagged := by
  have hn : n = 0 := by have := (C35_history hd P f f' n hf h).2; omega
  clear hr
  induction h with
  | start => exact fun _ _ => rfl
  | change => omega
  | idle _ _ hc ih =>
    intro p hp
    rw [← ih hn p hp]
    by_contra hne
    exact hc ⟨p, hp, hne⟩

/-! ### Examples -/

/-- Refine the leaves whose data are odd; new leaves get 0. -/
def refineOdd : RefineCb 2 ℕ Unit := ⟨fun x _ => (x.data % 2 = 1, ()), fun _ _ => (0, ()), none⟩

/-- Coarsen every family. -/
def mergeAll : CoarsenCb 2 ℕ Unit := ⟨fun _ _ => (true, ()), fun _ _ => (1, ()), none⟩

example : ∃ f' s', refineExt 4 (fun _ => refineOdd) true (-1) dataForest (fun _ => ()) = some (f', s') ∧ Consistent 4 f' := by
  obtain ⟨f', s', h1, h2, -⟩ := C35_refine (by norm_num) 4 dataForest ⟨_, _, dataForest_holds⟩ (fun _ => refineOdd) true (-1)
    (by norm_num) (fun _ => ())
  exact ⟨f', s', h1, h2⟩

/-- A history of all three functions, beginning with revision 7. -/
example : ∃ f' n, History 4 dataForest n f' ∧ Consistent 4 f' ∧ f'.revision = 7 + n := by
  have hd : 0 < 2 := by norm_num
  have h0 : Consistent 4 dataForest := ⟨_, _, dataForest_holds⟩
  obtain ⟨f1, s1, h1, h2, -⟩ := C35_refine hd 4 dataForest h0 (fun _ => refineOdd) true 9 (by norm_num) (fun _ => ())
  obtain ⟨f2, s2, h3, h4, -⟩ := C35_coarsen hd 4 f1 h2 (fun _ => mergeAll) true true (fun _ => ())
  have h5 := h4
  obtain ⟨trees, leaves, h5⟩ := h5
  have hcall : PartitionCall (σ := Unit) (2 * (f2.globalNum + 1)) 4 (some 0) f2 true none :=
    ⟨fun _ => by
      have h6 : f2.globalNum + 1 < 2 ^ (f2.globalNum + 1) := Nat.lt_two_pow_self
      have h7 : 2 ^ (2 * (f2.globalNum + 1)) = 2 ^ (f2.globalNum + 1) * 2 ^ (f2.globalNum + 1) := by rw [two_mul, pow_add]
      rw [h7]
      rcases Nat.lt_or_ge (f2.globalNum + 1) 2 with h8 | h8
      · exfalso
        have h9 := h5.globalNum
        have h10 := h5.forest.split
        obtain ⟨l, hl⟩ := List.exists_mem_of_ne_nil _ h5.forest.someTree
        obtain ⟨t, ht, rfl⟩ := List.getElem_of_mem hl
        have h11 : forestLeaves trees = [] := List.length_eq_zero_iff.mp (by omega)
        have h12 := leavesIn_forest t trees
        rw [h11, List.getD_eq_getElem?_getD, List.getElem?_eq_getElem ht] at h12
        have h13 : trees[t] = [] := h12.symm
        have h14 := (h5.forest.complete _ hl).path hd
        rw [h13] at h14
        exact path_ne_nil h14 (by positivity) rfl
      · have h9 : 2 ^ 2 ≤ 2 ^ (f2.globalNum + 1) := Nat.pow_le_pow_right (by norm_num) h8
        exact Nat.mul_le_mul h6.le (by omega), fun _ _ h => by simp at h, fun _ => ⟨le_rfl, 0, rfl, le_rfl⟩⟩
  obtain ⟨f3, sh, leaves3, h6, h7, -⟩ := C35_partition (σ := Unit) hd 4 f2 trees leaves h5 id (2 * (f2.globalNum + 1))
    ⟨fun _ _ h => h, fun _ _ _ => rfl⟩ (some 0) true none hcall
  have extend : ∀ {g g' : Forest 2 ℕ} {n}, History 4 dataForest n g → Step 4 g g' → ∃ n', History 4 dataForest n' g' := by
    intro g g' n hh st
    by_cases hc : Changed 4 g g'
    · exact ⟨_, hh.change st hc⟩
    · exact ⟨_, hh.idle st hc⟩
  obtain ⟨n1, k1⟩ := extend (.start _) (.refine _ _ _ (by norm_num) _ _ _ _ h1)
  obtain ⟨n2, k2⟩ := extend k1 (.coarsen _ _ _ _ _ _ _ h3)
  obtain ⟨n3, k3⟩ := extend k2 (.partition (σ := Unit) _ _ ⟨fun _ _ h => h, fun _ _ _ => rfl⟩ _ _ _ _ _ _ hcall h6)
  exact ⟨f3, n3, k3, C35_history hd 4 _ _ _ h0 k3⟩

end P4est
