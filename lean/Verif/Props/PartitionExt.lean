import Verif.Lemmas.PartitionExt
import Verif.Props.PartitionFamily

/-! # C31: partition by weights and uniform partition -/

namespace P4est
open Spec

variable {d : ℕ} {α σ : Type}

/-- The state of all ranks is that of a forest of complete trees whose leaves are distributed among the
ranks. -/
structure Spec.ForestHolds (f : Forest d α) (trees : List (List (Quad d × α))) (numProcs : ℕ)
    (leaves : ℕ → List (ℕ × (Quad d × α))) : Prop where
  forest : DataForest trees numProcs leaves
  numTrees : f.numTrees = trees.length
  few : (trees.length : ℤ) ≤ topidxMax
  ranks : ∀ p, p < numProcs → Holds trees.length (leaves p) (f.ranks p)
  gfq : ∀ p, p ≤ numProcs → f.gfq p = ((∑ i ∈ Finset.range p, (leaves i).length : ℕ) : ℤ)
  gfpTree : f.gfpTree = (globalPartition (fun p => bare (leaves p)) numProcs trees.length).map GPos.tree
  globalNum : f.globalNum = (forestLeaves trees).length

/-! ### The counts -/

theorem flatMap_take {γ : Type} (wl : ℕ → List γ) (P p : ℕ) (hp : p < P) (j : ℕ) (hj : j ≤ (wl p).length) :
    ((List.range P).flatMap wl).take (∑ i ∈ Finset.range p, (wl i).length + j) = (List.range p).flatMap wl ++ (wl p).take j := by
  obtain ⟨n, rfl⟩ : ∃ n, P = p + (n + 1) := ⟨P - p - 1, by omega⟩
  have hl : ((List.range p).flatMap wl).length = ∑ i ∈ Finset.range p, (wl i).length := by rw [List.length_flatMap]; rfl
  rw [List.range_add, List.flatMap_append, ← hl, List.take_append, List.take_of_length_le (by omega)]
  congr 1
  rw [Nat.add_sub_cancel_left, List.range_succ_eq_map]
  simp only [List.map_cons, List.flatMap_cons, Nat.add_zero]
  rw [List.take_append_of_le_length hj]

theorem sum_flatMap (wl : ℕ → List ℤ) (p : ℕ) : ((List.range p).flatMap wl).sum = ∑ i ∈ Finset.range p, (wl i).sum := by
  induction p with
  | zero => rfl
  | succ p ih => rw [List.range_succ, List.flatMap_append, List.sum_append, ih, Finset.sum_range_succ]; simp

theorem take_sum_mono {ws : List ℤ} (h : ∀ w ∈ ws, 0 ≤ w) : Monotone fun k => (ws.take k).sum := by
  apply monotone_nat_of_le_succ
  intro k
  rw [List.take_add_one, List.sum_append]
  have : 0 ≤ (ws[k]?.toList).sum := by
    apply List.sum_nonneg
    intro w hw
    rw [Option.mem_toList] at hw
    exact h w (List.mem_of_getElem? hw)
  omega

theorem weightedCounts_spec (rnd : ℚ → ℚ) (m : ℕ) (hr : Rounding (m + 1) rnd) (P : ℕ) (hP : 0 < P) (wl : ℕ → List ℤ)
    (hpos : ∀ p, ∀ w ∈ wl p, 0 ≤ w) (gfq : ℕ → ℤ)
    (hgfq : ∀ p, p ≤ P → gfq p = ((∑ i ∈ Finset.range p, (wl i).length : ℕ) : ℤ))
    (hW : ((List.range P).flatMap wl).sum ≠ 0) (hsize : (((List.range P).flatMap wl).sum + 1) * P ≤ 2 ^ m)
    (ws : ℕ → List ℤ) (hws : ∀ p, p < P → ws p = 0 :: sums 0 (wl p)) :
    ∃ first : ℕ → ℕ, WeightedCuts ((List.range P).flatMap wl) P first ∧ first 0 = 0 ∧
      (∀ p, p < P → first p ≤ first (p + 1)) ∧
      weightedCounts rnd P gfq ((List.range P).flatMap wl).length ws =
        some (some ((List.range P).map fun p => (first (p + 1) : ℤ) - first p)) := by
  set all := (List.range P).flatMap wl with hall
  set o : ℕ → ℕ := fun p => ∑ i ∈ Finset.range p, (wl i).length with ho
  set C : ℕ → ℤ := fun k => (all.take k).sum with hC
  have hallpos : ∀ w ∈ all, 0 ≤ w := by
    intro w hw
    obtain ⟨p, -, hw⟩ := List.mem_flatMap.mp hw
    exact hpos p w hw
  have hCm : Monotone C := take_sum_mono hallpos
  have hlen : all.length = o P := by rw [hall, List.length_flatMap]; rfl
  have hCN : C all.length = all.sum := by simp only [hC, List.take_length]
  have hCo : ∀ p, p ≤ P → C (o p) = ∑ i ∈ Finset.range p, (wl i).sum := by
    intro p hp
    rcases Nat.lt_or_ge p P with h | h
    · have := flatMap_take wl P p h 0 (Nat.zero_le _)
      simp only [Nat.add_zero, List.take_zero, List.append_nil] at this
      simp only [hC]; rw [this, sum_flatMap]
    · have : p = P := by omega
      subst this
      rw [← hlen, hCN, hall, sum_flatMap]
  have hCj : ∀ p, p < P → ∀ j, j ≤ (wl p).length → C (o p + j) = C (o p) + ((wl p).take j).sum := by
    intro p hp j hj
    have h1 := flatMap_take wl P p hp j hj
    simp only [hC]
    rw [h1, List.sum_append, sum_flatMap, ← hCo p (by omega)]
  have hW0 : 0 ≤ all.sum := List.sum_nonneg hallpos
  -- the sums over ranks
  have hgws : ∀ p, p ≤ P → countQuadrants (fun p => (ws p).getLastD 0) P p = C (o p) := by
    intro p hp
    have h1 := prefixLoop_spec (fun p => (ws p).getLastD 0) P p
    rw [if_pos hp] at h1
    rw [hCo p hp]
    refine h1.trans (Finset.sum_congr rfl fun i hi => ?_)
    rw [Finset.mem_range] at hi
    rw [hws i (by omega), cons_sums_last, zero_add]
  have hsum : countQuadrants (fun p => (ws p).getLastD 0) P P = all.sum := by rw [hgws P le_rfl, ← hlen, hCN]
  -- the cuts
  have hcut : ∀ i, i ≤ P → partitionCut rnd all.sum.toNat i P = all.sum * i / P := by
    intro i hi
    rw [C28_cut_exact m rnd hr _ i P hP hi (by
      have : ((all.sum.toNat + 1 : ℕ) : ℤ) * P ≤ 2 ^ m := by push_cast; rw [Int.toNat_of_nonneg hW0]; exact hsize
      exact_mod_cast this)]
    push_cast
    rw [Int.toNat_of_nonneg hW0]
  have hPz : (0 : ℤ) < P := by exact_mod_cast hP
  have hex : ∀ i, ∃ k, i ≤ P → all.sum * i / P ≤ C k := by
    intro i
    by_cases hi : i ≤ P
    · refine ⟨all.length, fun _ => ?_⟩
      rw [hCN]
      apply Int.ediv_le_of_le_mul hPz
      apply mul_le_mul_of_nonneg_left _ hW0
      exact_mod_cast hi
    · exact ⟨0, fun h => absurd h hi⟩
  classical
  have hD : WData P o all.length C (fun i => partitionCut rnd all.sum.toNat i P) (fun i => Nat.find (hex i)) :=
    { pos := hP
      o0 := by simp [ho]
      oP := hlen.symm
      omono := fun _ _ h => Finset.sum_le_sum_of_subset (Finset.range_mono h)
      cmono := hCm
      c0 := by simp [hC]
      cut0 := by rw [hcut 0 (by omega)]; simp
      cutm := fun i j hij hj => by
        rw [hcut i (by omega), hcut j hj]
        apply Int.ediv_le_ediv hPz
        apply mul_le_mul_of_nonneg_left _ hW0
        exact_mod_cast hij
      cutP := by rw [hcut P le_rfl, hCN, Int.mul_ediv_cancel _ (by omega)]
      cpos := by rw [hCN]; exact hW
      b := fun i hi k => by
        rw [hcut i hi, Nat.find_le_iff]
        constructor
        · exact fun h => ⟨k, le_rfl, fun _ => h⟩
        · rintro ⟨k', h1, h2⟩
          exact le_trans (h2 hi) (hCm h1) }
  set b : ℕ → ℕ := fun i => Nat.find (hex i) with hb
  have hb0 : b 0 = 0 := hD.b_zero (by omega) hD.cut0
  have hwv : ∀ p, p < P → wval P all.length b p = b p := fun p hp => by rw [wval, if_pos hp]
  -- the messages
  have hms : ∀ p, ∃ ms, p < P → weightMessages (fun i => partitionCut rnd all.sum.toNat i P)
      (if p > 0 then (ws p).map (· + C (o p)) else ws p) (gfq p) all.length P (C (o p)) (C (o (p + 1))) = some ms ∧
      (∀ r, r < P → ms.filter (fun m => m.dst = r ∧ m.low = true) = if o p < b r ∧ b r ≤ o (p + 1) then [⟨r, true, b r⟩] else []) ∧
      (∀ r, r < P → ms.filter (fun m => m.dst = r ∧ m.low = false) =
        if o p < b (r + 1) ∧ b (r + 1) ≤ o (p + 1) then [⟨r, false, wval P all.length b (r + 1)⟩] else []) := by
    intro p
    by_cases hp : p < P
    · have hlw : (if p > 0 then (ws p).map (· + C (o p)) else ws p) = (0 :: sums 0 (wl p)).map (· + C (o p)) := by
        split
        · rw [hws p hp]
        · have : p = 0 := by omega
          subst this
          rw [hws 0 hp, hD.o0, hD.c0]; simp
      have hstep : o (p + 1) - o p = (wl p).length := by simp only [ho, Finset.sum_range_succ]; omega
      obtain ⟨ms, h1, h2⟩ := weightMessages_spec hD (p := p) (lw := (0 :: sums 0 (wl p)).map (· + C (o p)))
        (by rw [List.length_map, List.length_cons, sums_length, hstep])
        (fun j hj => by
          rw [hstep] at hj
          rw [List.getElem?_map, cons_sums_get 0 _ j hj, hCj p hp j hj]
          simp only [Option.map_some, Option.some.injEq]; ring)
      refine ⟨ms, fun _ => ⟨?_, h2⟩⟩
      rw [hlw, hgfq p (by omega)]
      exact h1
    · exact ⟨[], fun h => absurd h hp⟩
  choose ms hms using hms
  refine ⟨fun p => wval P all.length b p, ⟨fun p hp k _ => ?_, by simp [wval]⟩, ?_, fun p hp => ?_, ?_⟩
  · rw [hwv p hp, ← hD.b p (by omega) k, hcut p (by omega)]
  · simp only
    rw [hwv 0 hP, hb0]
  · simp only
    rw [hwv p hp]
    have hle : b p ≤ b (p + 1) := by
      rw [← hD.b p (by omega)]
      exact le_trans (hD.cutm p (p + 1) (by omega) (by omega)) ((hD.b (p + 1) (by omega) _).mpr le_rfl)
    unfold wval
    split
    · exact hle
    · rw [← hD.b p (by omega), ← hD.cutP]; exact hD.cutm p P (by omega) le_rfl
  · unfold weightedCounts
    simp only
    rw [hsum, if_neg hW]
    simp only [bind, Option.bind]
    rw [mapM_some (g := ms) fun p hp => by
      rw [List.mem_range] at hp
      rw [hgws p (by omega), hgws (p + 1) (by omega)]
      exact (hms p hp).1]
    simp only
    have hget : ∀ p, p < P → (((List.range P).map ms)[p]?).getD [] = ms p := by
      intro p hp
      rw [List.getElem?_map, List.getElem?_range hp]; rfl
    rw [mapM_some (g := fun p => (wval P all.length b (p + 1) : ℤ) - wval P all.length b p) fun r hr => by
      rw [List.mem_range] at hr
      rw [hwv r hr]
      exact weightCount_spec hD hgws (fun p hp r hr => by rw [hget p hp]; exact (hms p hp).2.1 r hr)
        (fun p hp r hr => by rw [hget p hp]; exact (hms p hp).2.2 r hr) hr]

/-! ### From the counts to the new forest -/

/-- The leaves of rank `p`, if the ranks begin with the leaves number `first 0`, `first 1`, ... of the
global sequence. -/
def Spec.part {γ : Type} (leaves : List γ) (first : ℕ → ℕ) (p : ℕ) : List γ :=
  (leaves.drop (first p)).take (first (p + 1) - first p)

theorem tagged_eq (rt : RankTrees (Quad d × α)) : rt.tagged = bare (forestLeaves rt.trees) := by
  unfold RankTrees.tagged forestLeaves bare
  have : ∀ n (l : List (List (Quad d × α))), (l.zipIdx n).flatMap (fun x => x.1.map fun q => (x.2, q.1)) =
      (tagFrom n l).map fun x => (x.1, x.2.1) := by
    intro n l
    induction l generalizing n with
    | nil => rfl
    | cons a l ih => simp [List.zipIdx_cons, tagFrom, ih, Function.comp_def]
  exact this 0 rt.trees

theorem globalPartition_congr {leaves leaves' : ℕ → List (ℕ × Quad d)} (P T : ℕ) (h : ∀ p, p < P → leaves p = leaves' p) :
    globalPartition leaves P T = globalPartition leaves' P T := by
  have h1 : ∀ (n : ℕ) (g g' : ℕ → GPos d), n ≤ P → (∀ i, i ≤ P → g i = g' i) → ∀ i, i ≤ P → backfill g n i = backfill g' n i := by
    intro n
    induction n with
    | zero => intro g g' _ hg i hi; exact hg i hi
    | succ n ih =>
      intro g g' hn hg i hi
      rw [backfill, backfill, hg n (by omega), hg (n + 1) hn]
      apply ih _ _ (by omega) _ i hi
      intro j hj
      split
      · rw [Function.update_apply, Function.update_apply, hg j hj]
      · exact hg j hj
  unfold globalPartition
  apply List.map_congr_left
  intro i hi
  rw [List.mem_range] at hi
  apply h1 P _ _ le_rfl _ i (by omega)
  intro j hj
  by_cases hjP : j = P
  · rw [if_pos hjP, if_pos hjP]
  · rw [if_neg hjP, if_neg hjP, h j (by omega)]

theorem partitionGiven_forest (hd : 0 < d) {f : Forest d α} {trees : List (List (Quad d × α))} {P : ℕ}
    {leaves : ℕ → List (ℕ × (Quad d × α))} (hf : ForestHolds f trees P leaves) (num : ℕ → ℕ)
    (hnum : ∑ p ∈ Finset.range P, num p = (forestLeaves trees).length) :
    ∃ out, partitionGiven P f.gfq f.gfpTree (fun p => (num p : ℤ)) f.ranks = some out ∧
      ForestHolds (afterPartition P f out) trees P (part (forestLeaves trees) fun p => ∑ r ∈ Finset.range p, num r) ∧
      out.shipped = changed (forestLeaves trees).length P (fun p => ∑ r ∈ Finset.range p, (leaves r).length)
        (fun p => ∑ r ∈ Finset.range p, num r) := by
  obtain ⟨out, h1, h2, h3, h4, h5⟩ := C30_partition_given hd trees P leaves hf.forest hf.few num hnum f.ranks hf.ranks f.gfq hf.gfq
  rw [← hf.gfpTree] at h1
  obtain ⟨c1, c2⟩ := C30_partition_conserves trees P leaves hf.forest num hnum
  have hpart : (part (forestLeaves trees) fun p => ∑ r ∈ Finset.range p, num r) =
      fun r => ((forestLeaves trees).drop (∑ p ∈ Finset.range r, num p)).take (num r) := by
    funext r
    unfold part
    simp only [Finset.sum_range_succ, Nat.add_sub_cancel_left]
  have hranks : ∀ r, r < P → Holds trees.length (part (forestLeaves trees) (fun p => ∑ r ∈ Finset.range p, num r) r)
      ((afterPartition P f out).ranks r) := by
    intro r hr
    obtain ⟨rt, e1, e2⟩ := h3 r hr
    rw [hpart]
    unfold afterPartition
    simp only [e1, Option.getD_some]
    exact e2
  refine ⟨out, h1, ?_, h5⟩
  exact
    { forest := by rw [hpart]; exact c1
      numTrees := hf.numTrees
      few := hf.few
      ranks := hranks
      gfq := fun p hp => by
        have : (afterPartition P f out).gfq p = ((∑ r ∈ Finset.range p, num r : ℕ) : ℤ) := by
          unfold afterPartition
          simp only
          rw [h4, List.getElem?_map, List.getElem?_range (by omega)]; rfl
        rw [this]
        congr 1
        apply Finset.sum_congr rfl
        intro r hr
        rw [Finset.mem_range] at hr
        rw [hpart]
        exact (c2 r (by omega)).symm
      gfpTree := by
        show (globalPartition (fun p => ((afterPartition P f out).ranks p).tagged) P f.numTrees).map GPos.tree = _
        rw [hf.numTrees, globalPartition_congr (leaves' := fun p => bare (part (forestLeaves trees) (fun p => ∑ r ∈ Finset.range p, num r) p))]
        intro p hp
        rw [tagged_eq, (hranks p hp).split]
      globalNum := hf.globalNum }

/-- Sums of the differences. -/
theorem sum_diff {first : ℕ → ℕ} (h0 : first 0 = 0) {P : ℕ} (hm : ∀ p, p < P → first p ≤ first (p + 1)) (p : ℕ) (hp : p ≤ P) :
    ∑ r ∈ Finset.range p, (first (r + 1) - first r) = first p := by
  induction p with
  | zero => simp [h0]
  | succ p ih =>
    rw [Finset.sum_range_succ, ih (by omega)]
    have := hm p (by omega); omega

/-- What `p4est_partition_ext` does when the wanted counts are known. -/
theorem partitionExt_wanted (hd : 0 < d) (rnd : ℚ → ℚ) {f : Forest d α} {trees : List (List (Quad d × α))} {P : ℕ}
    {leaves : ℕ → List (ℕ × (Quad d × α))} (hf : ForestHolds f trees P leaves) (hP : P ≠ 1) (under : Option ℤ)
    (weight : Option ((ℕ → Quad d × α → σ → ℤ × σ) × (ℕ → σ))) (first : ℕ → ℕ) (h0 : first 0 = 0)
    (hm : ∀ p, p < P → first p ≤ first (p + 1)) (hN : first P = (forestLeaves trees).length)
    (hw : wantedCounts rnd P f weight = some (some ((List.range P).map fun p => (first (p + 1) : ℤ) - first p))) :
    ∃ f' shipped, partitionExt rnd P under f false weight = some (f', shipped) ∧
      ForestHolds f' trees P (part (forestLeaves trees) first) ∧
      shipped = changed (forestLeaves trees).length P (fun p => ∑ r ∈ Finset.range p, (leaves r).length) first ∧
      f'.revision = if shipped = 0 then f.revision else f.revision + 1 := by
  obtain ⟨out, h1, h2, h3⟩ := partitionGiven_forest hd hf (fun p => if p < P then first (p + 1) - first p else 0) (by
    rw [← hN, ← sum_diff h0 hm P le_rfl]
    apply Finset.sum_congr rfl
    intro r hr
    rw [Finset.mem_range] at hr
    rw [if_pos hr])
  have hfirst : ∀ p, p ≤ P → ∑ r ∈ Finset.range p, (if r < P then first (r + 1) - first r else 0) = first p := by
    intro p hp
    rw [← sum_diff h0 hm p hp]
    apply Finset.sum_congr rfl
    intro r hr
    rw [Finset.mem_range] at hr
    rw [if_pos (by omega)]
  have hpart : ∀ r, r < P → part (forestLeaves trees) (fun p => ∑ r ∈ Finset.range p, (if r < P then first (r + 1) - first r else 0)) r =
      part (forestLeaves trees) first r := by
    intro r hr
    unfold part
    simp only
    rw [hfirst r (by omega), hfirst (r + 1) (by omega)]
  have hch : ∀ old, changed (forestLeaves trees).length P old
      (fun p => ∑ r ∈ Finset.range p, (if r < P then first (r + 1) - first r else 0)) =
      changed (forestLeaves trees).length P old first := by
    intro old
    unfold changed
    congr 1
    apply Finset.filter_congr
    intro k _
    rw [not_iff_not]
    apply exists_congr
    intro p
    apply and_congr_right
    intro hp
    rw [Finset.mem_range] at hp
    unfold OnRank
    simp only
    rw [hfirst p (by omega), hfirst (p + 1) (by omega)]
  refine ⟨afterPartition P f out, out.shipped, ?_, ?_, by rw [h3, hch], ?_⟩
  · unfold partitionExt
    rw [if_neg hP, hw]
    simp only [bind, Option.bind, correctedCounts, Bool.false_eq_true, if_false]
    have e : (fun p => (((List.range P).map fun p => (first (p + 1) : ℤ) - first p)[p]?).getD 0) =
        fun p => ((if p < P then first (p + 1) - first p else 0 : ℕ) : ℤ) := by
      funext p
      rw [List.getElem?_map]
      split
      · rename_i hp
        rw [List.getElem?_range hp]
        have := hm p hp
        simp only [Option.map_some, Option.getD_some]
        omega
      · rename_i hp
        rw [List.getElem?_eq_none (by simp; omega)]; rfl
    rw [e, h1]
  · exact
      { forest := ⟨h2.forest.complete, h2.forest.someTree, by
          have := h2.forest.split
          rw [← this]
          conv_rhs => rw [this]
          refine Eq.trans (List.flatMap_congr fun r hr => ?_) this
          rw [this]
          exact (hpart r (List.mem_range.mp hr)).symm⟩
        numTrees := h2.numTrees
        few := h2.few
        ranks := fun p hp => by rw [← hpart p hp]; exact h2.ranks p hp
        gfq := fun p hp => by
          rw [h2.gfq p hp]
          congr 1
          apply Finset.sum_congr rfl
          intro r hr
          rw [Finset.mem_range] at hr
          rw [hpart r (by omega)]
        gfpTree := by
          rw [h2.gfpTree]
          congr 1
          apply globalPartition_congr
          intro p hp
          rw [hpart p hp]
        globalNum := h2.globalNum }
  · unfold afterPartition
    simp only
    by_cases hs : out.shipped = 0
    · rw [if_neg (by simpa using hs), if_pos hs]
    · rw [if_pos hs, if_neg hs]

/-! ### C31 -/

theorem weighted_wanted (rnd : ℚ → ℚ) (m : ℕ) (hr : Rounding (m + 1) rnd) (f : Forest d α)
    (trees : List (List (Quad d × α))) (P : ℕ) (hP : 0 < P) (leaves : ℕ → List (ℕ × (Quad d × α)))
    (hf : ForestHolds f trees P leaves) (wfn : ℕ → Quad d × α → σ → ℤ × σ) (s : ℕ → σ)
    (hpos : ∀ t q s, 0 ≤ (wfn t q s).1) (ws : List ℤ)
    (hws : ws = (List.range P).flatMap fun p => (callAll wfn (leaves p) (s p)).1)
    (hW : ws.sum ≠ 0) (hsize : (ws.sum + 1) * P ≤ 2 ^ m) :
    ∃ first : ℕ → ℕ, WeightedCuts ws P first ∧ first 0 = 0 ∧ (∀ p, p < P → first p ≤ first (p + 1)) ∧
      first P = (forestLeaves trees).length ∧
      wantedCounts rnd P f (some (wfn, s)) = some (some ((List.range P).map fun p => (first (p + 1) : ℤ) - first p)) := by
  have hcl : ∀ p, ((callAll wfn (leaves p) (s p)).1).length = (leaves p).length := fun p => callAll_length _ _ _
  have hwl : ∀ (L : List (ℕ × (Quad d × α))) (s : σ), ∀ w ∈ (callAll wfn L s).1, 0 ≤ w := by
    intro L
    induction L with
    | nil => intro s w hw; simp [callAll] at hw
    | cons x L ih =>
      obtain ⟨t, q⟩ := x
      intro s w hw
      rw [callAll, List.mem_cons] at hw
      rcases hw with rfl | hw
      · exact hpos _ _ _
      · exact ih _ w hw
  have hlen : ws.length = (forestLeaves trees).length := by
    rw [hws, ← hf.forest.split, List.length_flatMap, List.length_flatMap]
    congr 1
    apply List.map_congr_left
    intro p _
    exact hcl p
  have hloc : (List.range P).mapM (fun p => localWeights wfn (f.ranks p) (f.gfq (p + 1) - f.gfq p).toNat (s p)) =
      some ((List.range P).map fun p => (0 :: sums 0 (callAll wfn (leaves p) (s p)).1, (callAll wfn (leaves p) (s p)).2)) := by
    apply mapM_some
    intro p hp
    rw [List.mem_range] at hp
    have e : (f.gfq (p + 1) - f.gfq p).toNat = (leaves p).length := by
      rw [hf.gfq p (by omega), hf.gfq (p + 1) (by omega), Finset.sum_range_succ]
      push_cast; omega
    rw [e]
    exact localWeights_spec wfn (hf.ranks p hp) (s p)
  obtain ⟨first, h1, h2, h3, h4⟩ := weightedCounts_spec rnd m hr P (by omega) (fun p => (callAll wfn (leaves p) (s p)).1)
    (fun p => hwl _ _) f.gfq (fun p hp => by simp only [hcl]; exact hf.gfq p hp) (hws ▸ hW) (hws ▸ hsize)
    (fun p => ((((List.range P).map fun p => (0 :: sums 0 (callAll wfn (leaves p) (s p)).1,
      (callAll wfn (leaves p) (s p)).2))[p]?).map Prod.fst).getD [])
    (fun p hp => by rw [List.getElem?_map, List.getElem?_range hp]; rfl)
  rw [← hws] at h1 h4
  have hN : first P = (forestLeaves trees).length := by rw [h1.last, hlen]
  refine ⟨first, h1, h2, h3, hN, ?_⟩
  unfold wantedCounts
  simp only [bind, Option.bind]
  rw [hloc]
  simp only
  rw [hf.globalNum, ← hlen]
  exact h4

/-- C31. Partition by weights, on two or more ranks, of a forest that is distributed in any way, with any
callback that returns nonnegative weights (and may keep a state on each rank), not all zero: all
messages are matched by receives (otherwise the model has no result), the callback is called once for
each local leaf in order on each rank, and afterwards rank `p` holds the leaves beginning with the lowest
one before which there is the weight `⌊W p / P⌋`, ending where the next rank begins.  The forest is
otherwise unchanged and consistent; the returned number is the number of leaves that changed their rank,
and the revision grows by one if it is not zero. -/
theorem C31_weighted_partition (hd : 0 < d) (rnd : ℚ → ℚ) (m : ℕ) (hr : Rounding (m + 1) rnd) (f : Forest d α)
    (trees : List (List (Quad d × α))) (P : ℕ) (hP : 1 < P) (leaves : ℕ → List (ℕ × (Quad d × α)))
    (hf : ForestHolds f trees P leaves) (under : Option ℤ) (wfn : ℕ → Quad d × α → σ → ℤ × σ) (s : ℕ → σ)
    (hpos : ∀ t q s, 0 ≤ (wfn t q s).1) (ws : List ℤ)
    (hws : ws = (List.range P).flatMap fun p => (callAll wfn (leaves p) (s p)).1)
    (hW : ws.sum ≠ 0) (hsize : (ws.sum + 1) * P ≤ 2 ^ m) :
    ∃ first : ℕ → ℕ, WeightedCuts ws P first ∧ first 0 = 0 ∧ (∀ p, p < P → first p ≤ first (p + 1)) ∧
      first P = (forestLeaves trees).length ∧
      ∃ f' shipped, partitionExt rnd P under f false (some (wfn, s)) = some (f', shipped) ∧
        ForestHolds f' trees P (part (forestLeaves trees) first) ∧
        shipped = changed (forestLeaves trees).length P (fun p => ∑ r ∈ Finset.range p, (leaves r).length) first ∧
        f'.revision = if shipped = 0 then f.revision else f.revision + 1 := by
  obtain ⟨first, h1, h2, h3, h4, h5⟩ := weighted_wanted rnd m hr f trees P (by omega) leaves hf wfn s hpos ws hws hW hsize
  exact ⟨first, h1, h2, h3, h4, partitionExt_wanted hd rnd hf (by omega) under _ first h2 h3 h4 h5⟩

/-- C31. Nothing happens if all weights are zero. -/
theorem C31_zero_weights (rnd : ℚ → ℚ) (f : Forest d α) (trees : List (List (Quad d × α))) (P : ℕ)
    (leaves : ℕ → List (ℕ × (Quad d × α))) (hf : ForestHolds f trees P leaves) (under : Option ℤ) (forCoarsening : Bool)
    (wfn : ℕ → Quad d × α → σ → ℤ × σ) (s : ℕ → σ)
    (hz : ∀ p, p < P → ∀ w ∈ (callAll wfn (leaves p) (s p)).1, w = 0) :
    partitionExt rnd P under f forCoarsening (some (wfn, s)) = some (f, 0) := by
  unfold partitionExt
  split
  · rfl
  · have hw : wantedCounts rnd P f (some (wfn, s)) = some none := by
      unfold wantedCounts
      simp only [bind, Option.bind]
      rw [mapM_some (g := fun p => (0 :: sums 0 (callAll wfn (leaves p) (s p)).1, (callAll wfn (leaves p) (s p)).2)) (by
        intro p hp
        rw [List.mem_range] at hp
        have e : (f.gfq (p + 1) - f.gfq p).toNat = (leaves p).length := by
          rw [hf.gfq p (by omega), hf.gfq (p + 1) (by omega), Finset.sum_range_succ]
          push_cast; omega
        rw [e]
        exact localWeights_spec wfn (hf.ranks p hp) (s p))]
      simp only
      unfold weightedCounts
      simp only
      rw [if_pos]
      have h1 := prefixLoop_spec (fun p => (((((List.range P).map fun p => (0 :: sums 0 (callAll wfn (leaves p) (s p)).1,
        (callAll wfn (leaves p) (s p)).2))[p]?).map Prod.fst).getD []).getLastD 0) P P
      rw [if_pos le_rfl] at h1
      refine h1.trans (Finset.sum_eq_zero fun p hp => ?_)
      rw [Finset.mem_range] at hp
      rw [List.getElem?_map, List.getElem?_range hp]
      simp only [Option.map_some, Option.getD_some]
      rw [cons_sums_last, zero_add, List.sum_eq_zero (hz p hp)]
    rw [hw]

/-- C31. Nothing happens on a single rank. -/
theorem C31_single_process (rnd : ℚ → ℚ) (f : Forest d α) (under : Option ℤ) (forCoarsening : Bool)
    (weight : Option ((ℕ → Quad d × α → σ → ℤ × σ) × (ℕ → σ))) :
    partitionExt rnd 1 under f forCoarsening weight = some (f, 0) := by
  unfold partitionExt
  rw [if_pos rfl]

theorem uniform_wanted (rnd : ℚ → ℚ) (m : ℕ) (hr : Rounding (m + 1) rnd) (f : Forest d α) (P : ℕ) (hP : 0 < P)
    (hsize : (f.globalNum + 1) * P ≤ 2 ^ m) :
    wantedCounts (σ := σ) rnd P f none =
      some (some ((List.range P).map fun p => ((f.globalNum * (p + 1) / P : ℕ) : ℤ) - ((f.globalNum * p / P : ℕ) : ℤ))) := by
  unfold wantedCounts
  simp only
  congr 2
  apply List.map_congr_left
  intro p hp
  rw [List.mem_range] at hp
  unfold uniformCounts
  rw [C28_cut_exact m rnd hr _ _ P hP (by omega) hsize]
  split
  · rename_i h; subst h; simp
  · rw [C28_cut_exact m rnd hr _ _ P hP (by omega) hsize]

/-- C31. Without weights, rank `p` holds afterwards the leaves from number `⌊N p / P⌋`, so that the numbers
of leaves differ by at most one (`C28_global_first_quadrant`). -/
theorem C31_uniform_partition (hd : 0 < d) (rnd : ℚ → ℚ) (m : ℕ) (hr : Rounding (m + 1) rnd) (f : Forest d α)
    (trees : List (List (Quad d × α))) (P : ℕ) (hP : 1 < P) (leaves : ℕ → List (ℕ × (Quad d × α)))
    (hf : ForestHolds f trees P leaves) (under : Option ℤ) (hsize : ((forestLeaves trees).length + 1) * P ≤ 2 ^ m) :
    ∃ f' shipped, partitionExt (σ := σ) rnd P under f false none = some (f', shipped) ∧
      ForestHolds f' trees P (part (forestLeaves trees) fun p => (forestLeaves trees).length * p / P) ∧
      shipped = changed (forestLeaves trees).length P (fun p => ∑ r ∈ Finset.range p, (leaves r).length)
        (fun p => (forestLeaves trees).length * p / P) ∧
      f'.revision = if shipped = 0 then f.revision else f.revision + 1 := by
  apply partitionExt_wanted hd rnd hf (by omega) under none _ (by simp)
    (fun p _ => Nat.div_le_div_right (Nat.mul_le_mul_left _ (by omega))) (Nat.mul_div_cancel _ (by omega))
  rw [uniform_wanted rnd m hr f P (by omega) (by rw [hf.globalNum]; exact hsize), hf.globalNum]

/-! ### With correction for coarsening -/

theorem bare_holds {T : ℕ} {L : List (ℕ × (Quad d × α))} {rt : RankTrees (Quad d × α)} (h : Holds T L rt) :
    Holds T (bare L) rt.bare where
  trees := by rw [RankTrees.bare, List.length_map, h.trees]
  split := by rw [RankTrees.bare, forestLeaves, tagFrom_map, ← forestLeaves, h.split]; rfl
  first := by
    show rt.first = _
    rw [h.first, bare, List.head?_map]
    cases L.head? <;> rfl
  last := by
    show rt.last = _
    rw [h.last, bare, List.getLast?_map]
    cases L.getLast? <;> rfl

theorem partitionExt_coarsening (hd : 2 ≤ d) (rnd : ℚ → ℚ) {f : Forest d α} {trees : List (List (Quad d × α))} {P : ℕ}
    {leaves : ℕ → List (ℕ × (Quad d × α))} (hf : ForestHolds f trees P leaves) (hP : P ≠ 1) (under : Option ℤ)
    (weight : Option ((ℕ → Quad d × α → σ → ℤ × σ) × (ℕ → σ))) (first : ℕ → ℕ) (h0 : first 0 = 0)
    (hm : ∀ p, p < P → first p ≤ first (p + 1)) (hN : first P = (forestLeaves trees).length)
    (hunder : ∀ p, 1 ≤ p → p < P → first p < first (p + 1) → (∃ u, under = some u ∧ 0 ≤ u) ∨
      2 ^ d ≤ first p + 1 ∨ (forestLeaves trees).length + 2 ≤ first p + 2 ^ d)
    (hw : wantedCounts rnd P f weight = some (some ((List.range P).map fun p => (first (p + 1) : ℤ) - first p))) :
    ∃ first' f' shipped, partitionExt rnd P under f true weight = some (f', shipped) ∧
      first' 0 = 0 ∧ (∀ p, p < P → first' p ≤ first' (p + 1)) ∧ first' P = (forestLeaves trees).length ∧
      (∀ m, FamilyAt (bare (forestLeaves trees)) m → ∃ r, r < P ∧ first' r ≤ m ∧ m + 2 ^ d ≤ first' (r + 1)) ∧
      (∀ p, p ≤ P → first' p = first p ∨ ∃ m, FamilyAt (bare (forestLeaves trees)) m ∧ m < first p ∧ first p < m + 2 ^ d ∧
        (first' p = m ∨ first' p = m + 2 ^ d)) ∧
      ForestHolds f' trees P (part (forestLeaves trees) first') ∧
      shipped = changed (forestLeaves trees).length P (fun p => ∑ r ∈ Finset.range p, (leaves r).length) first' ∧
      f'.revision = if shipped = 0 then f.revision else f.revision + 1 := by
  have hbare : forestLeaves (trees.map (·.map Prod.fst)) = bare (forestLeaves trees) := by
    rw [forestLeaves, tagFrom_map]; rfl
  have hblen : (forestLeaves (trees.map (·.map Prod.fst))).length = (forestLeaves trees).length := by
    rw [hbare, bare, List.length_map]
  have hsum0 : ∀ p, p ≤ P → ∑ r ∈ Finset.range p, (if r < P then first (r + 1) - first r else 0) = first p := by
    intro p hp
    rw [← sum_diff h0 hm p hp]
    apply Finset.sum_congr rfl
    intro r hr
    rw [Finset.mem_range] at hr
    rw [if_pos (by omega)]
  obtain ⟨num', shift, k1, k2, k3, k4, -, -⟩ := C32_partition_for_coarsening_partial hd (trees.map (·.map Prod.fst)) P
    (fun p => bare (leaves p)) hf.forest.distributed (fun p => if p < P then first (p + 1) - first p else 0)
    (by rw [hblen, ← hN]; exact hsum0 P le_rfl) (fun p => (f.ranks p).bare)
    (fun p hp => by rw [List.length_map]; exact bare_holds (hf.ranks p hp)) f.gfq
    (fun p hp => by
      rw [hf.gfq p hp]
      congr 1
      apply Finset.sum_congr rfl
      intro r _
      rw [bare, List.length_map]) under
    (fun p h1 h2 h3 => by
      rw [if_pos h2] at h3
      rw [hsum0 p (by omega), hblen]
      exact hunder p h1 h2 (by omega))
  rw [hblen] at k1 k2
  rw [hbare] at k3 k4
  set num'' : ℕ → ℕ := fun p => if p < P then num' p else if p < P then first (p + 1) - first p else 0 with hnum''
  have hsum' : ∀ p, p ≤ P → ∑ r ∈ Finset.range p, num'' r = ∑ r ∈ Finset.range p, num' r := by
    intro p hp
    apply Finset.sum_congr rfl
    intro r hr
    rw [Finset.mem_range] at hr
    rw [hnum'']
    simp only
    rw [if_pos (by omega)]
  obtain ⟨out, h1, h2, h3⟩ := partitionGiven_forest (by omega) hf num'' (by rw [hsum' P le_rfl, k2])
  refine ⟨fun p => ∑ r ∈ Finset.range p, num'' r, afterPartition P f out, out.shipped, ?_, by simp, fun p _ => ?_, ?_, ?_, ?_, h2, h3, ?_⟩
  · unfold partitionExt
    rw [if_neg hP, hw]
    simp only [bind, Option.bind, correctedCounts, if_true]
    have e : (fun p => (((List.range P).map fun p => (first (p + 1) : ℤ) - first p)[p]?).getD 0) =
        fun p => ((if p < P then first (p + 1) - first p else 0 : ℕ) : ℤ) := by
      funext p
      rw [List.getElem?_map]
      split
      · rename_i hp
        rw [List.getElem?_range hp]
        have := hm p hp
        simp only [Option.map_some, Option.getD_some]
        omega
      · rename_i hp
        rw [List.getElem?_eq_none (by simp; omega)]; rfl
    rw [e, hf.globalNum, k1]
    simp only [Option.map_some]
    have e2 : (fun p => if p < P then (num' p : ℤ) else ((if p < P then first (p + 1) - first p else 0 : ℕ) : ℤ)) =
        fun p => (num'' p : ℤ) := by
      funext p
      rw [hnum'']
      simp only
      split <;> rfl
    rw [e2, h1]
  · simp only [Finset.sum_range_succ]; omega
  · simp only; rw [hsum' P le_rfl, k2]
  · intro m hfam
    obtain ⟨r, r1, -, r2, r3⟩ := k3 m hfam
    refine ⟨r, r1, ?_, ?_⟩
    · simp only; rw [hsum' r (by omega)]; exact r2
    · simp only; rw [hsum' (r + 1) (by omega)]; exact r3
  · intro p hp
    simp only
    rw [hsum' p hp]
    have := k4 p hp
    rw [hsum0 p hp] at this
    rcases this with h | ⟨m, m1, m2, m3, m4⟩
    · exact Or.inl h.1
    · exact Or.inr ⟨m, m1, m2, m3, m4⟩
  · unfold afterPartition
    simp only
    by_cases hs : out.shipped = 0
    · rw [if_neg (by simpa using hs), if_pos hs]
    · rw [if_pos hs, if_neg hs]

/-- C32. The uniform partition with correction for coarsening: afterwards every family of leaves is on one
rank, and a rank that does not begin with leaf `⌊N p / P⌋` begins with the first leaf of the family
which this leaf divides, or behind it.  (Partial: as in `C32_partition_for_coarsening_partial`, the
memory before `global_first_quadrant` must not be read or hold a nonnegative number.) -/
theorem C32_uniform_for_coarsening_partial (hd : 2 ≤ d) (rnd : ℚ → ℚ) (m : ℕ) (hr : Rounding (m + 1) rnd) (f : Forest d α)
    (trees : List (List (Quad d × α))) (P : ℕ) (hP : 1 < P) (leaves : ℕ → List (ℕ × (Quad d × α)))
    (hf : ForestHolds f trees P leaves) (hsize : ((forestLeaves trees).length + 1) * P ≤ 2 ^ m)
    (N : ℕ) (hN : N = (forestLeaves trees).length) (under : Option ℤ)
    (hunder : ∀ p, 1 ≤ p → p < P → (∃ u, under = some u ∧ 0 ≤ u) ∨ 2 ^ d ≤ N * p / P + 1 ∨ N + 2 ≤ N * p / P + 2 ^ d) :
    ∃ first' f' shipped, partitionExt (σ := σ) rnd P under f true none = some (f', shipped) ∧
      first' 0 = 0 ∧ (∀ p, p < P → first' p ≤ first' (p + 1)) ∧ first' P = N ∧
      (∀ m, FamilyAt (bare (forestLeaves trees)) m → ∃ r, r < P ∧ first' r ≤ m ∧ m + 2 ^ d ≤ first' (r + 1)) ∧
      (∀ p, p ≤ P → first' p = N * p / P ∨ ∃ m, FamilyAt (bare (forestLeaves trees)) m ∧ m < N * p / P ∧ N * p / P < m + 2 ^ d ∧
        (first' p = m ∨ first' p = m + 2 ^ d)) ∧
      ForestHolds f' trees P (part (forestLeaves trees) first') ∧
      shipped = changed N P (fun p => ∑ r ∈ Finset.range p, (leaves r).length) first' ∧
      f'.revision = if shipped = 0 then f.revision else f.revision + 1 := by
  subst hN
  apply partitionExt_coarsening hd rnd hf (by omega) under none _ (by simp)
    (fun p _ => Nat.div_le_div_right (Nat.mul_le_mul_left _ (by omega))) (Nat.mul_div_cancel _ (by omega))
    (fun p h1 h2 _ => hunder p h1 h2)
  rw [uniform_wanted rnd m hr f P (by omega) (by rw [hf.globalNum]; exact hsize), hf.globalNum]

/-- C32. The weighted partition with correction for coarsening: afterwards every family of leaves is on one
rank, and a rank that does not begin with the leaf determined by the weights begins with the first leaf of
the family which this leaf divides, or behind it.  (Partial in the same way.) -/
theorem C32_weighted_for_coarsening_partial (hd : 2 ≤ d) (rnd : ℚ → ℚ) (m : ℕ) (hr : Rounding (m + 1) rnd) (f : Forest d α)
    (trees : List (List (Quad d × α))) (P : ℕ) (hP : 1 < P) (leaves : ℕ → List (ℕ × (Quad d × α)))
    (hf : ForestHolds f trees P leaves) (under : ℤ) (hunder : 0 ≤ under) (wfn : ℕ → Quad d × α → σ → ℤ × σ) (s : ℕ → σ)
    (hpos : ∀ t q s, 0 ≤ (wfn t q s).1) (ws : List ℤ)
    (hws : ws = (List.range P).flatMap fun p => (callAll wfn (leaves p) (s p)).1)
    (hW : ws.sum ≠ 0) (hsize : (ws.sum + 1) * P ≤ 2 ^ m) :
    ∃ first first' : ℕ → ℕ, WeightedCuts ws P first ∧
      ∃ f' shipped, partitionExt rnd P (some under) f true (some (wfn, s)) = some (f', shipped) ∧
      first' 0 = 0 ∧ (∀ p, p < P → first' p ≤ first' (p + 1)) ∧ first' P = (forestLeaves trees).length ∧
      (∀ m, FamilyAt (bare (forestLeaves trees)) m → ∃ r, r < P ∧ first' r ≤ m ∧ m + 2 ^ d ≤ first' (r + 1)) ∧
      (∀ p, p ≤ P → first' p = first p ∨ ∃ m, FamilyAt (bare (forestLeaves trees)) m ∧ m < first p ∧ first p < m + 2 ^ d ∧
        (first' p = m ∨ first' p = m + 2 ^ d)) ∧
      ForestHolds f' trees P (part (forestLeaves trees) first') ∧
      shipped = changed (forestLeaves trees).length P (fun p => ∑ r ∈ Finset.range p, (leaves r).length) first' ∧
      f'.revision = if shipped = 0 then f.revision else f.revision + 1 := by
  obtain ⟨first, h1, h2, h3, h4, h5⟩ := weighted_wanted rnd m hr f trees P (by omega) leaves hf wfn s hpos ws hws hW hsize
  obtain ⟨first', f', shipped, h6, h7⟩ := partitionExt_coarsening hd rnd hf (by omega) (some under) _ first h2 h3 h4
    (fun p _ _ _ => Or.inl ⟨under, rfl, hunder⟩) h5
  exact ⟨first, first', h1, f', shipped, h6, h7⟩

/-! ### Examples -/

/-- Five leaves on four ranks: three on rank 0 and two on rank 2, ... -/
def dataForest : Forest 2 ℕ :=
  ⟨dataState, countQuadrants (fun p => ((dataLeaves p).length : ℤ)) 4,
    (globalPartition (fun p => bare (dataLeaves p)) 4 dataTrees.length).map GPos.tree, 5, 2, 7⟩

theorem dataForest_holds : ForestHolds dataForest dataTrees 4 dataLeaves :=
  ⟨dataTrees_forest, by decide +kernel, by decide +kernel, dataState_holds,
    (C28_count_quadrants (fun p => (dataLeaves p).length) 4).1, rfl, by decide +kernel⟩

/-- ... with weights that count the calls of the callback on each rank. -/
def countCalls (_ : ℕ) (_ : Quad 2 × ℕ) (n : ℕ) : ℤ × ℕ := (n, n + 1)

theorem countCalls_weights :
    ((List.range 4).flatMap fun p => (callAll countCalls (dataLeaves p) 1).1) = [1, 2, 3, 1, 2] := by decide +kernel

example : ∃ first : ℕ → ℕ, WeightedCuts [1, 2, 3, 1, 2] 4 first ∧
    ∃ f' shipped, partitionExt id 4 none dataForest false (some (countCalls, fun _ => 1)) = some (f', shipped) ∧
      ForestHolds f' dataTrees 4 (part (forestLeaves dataTrees) first) := by
  obtain ⟨first, h1, -, -, -, f', shipped, h2, h3, -⟩ := C31_weighted_partition (by norm_num) id 63
    ⟨fun _ _ h => h, fun _ _ _ => rfl⟩ dataForest dataTrees 4 (by norm_num) dataLeaves dataForest_holds none
    countCalls (fun _ => 1) (fun _ _ _ => Int.natCast_nonneg _) [1, 2, 3, 1, 2] countCalls_weights.symm (by norm_num) (by norm_num)
  exact ⟨first, h1, f', shipped, h2, h3⟩

/-- The same by computation: the numbers of leaves, the moved leaves and the revision. -/
example : (partitionExt id 4 none dataForest false (some (countCalls, fun _ => 1))).map
    (fun r => ((List.range 5).map r.1.gfq, r.2, r.1.revision)) = some ([0, 2, 3, 3, 5], 3, 8) := by decide +kernel

/-- The uniform partition, without and with correction for the family in the first tree. -/
example : (partitionExt (σ := ℕ) id 4 none dataForest false none).map
    (fun r => ((List.range 5).map r.1.gfq, r.2, r.1.revision)) = some ([0, 1, 2, 3, 5], 4, 8) := by decide +kernel

example : ∃ first' f' shipped, partitionExt (σ := ℕ) id 4 (some 0) dataForest true none = some (f', shipped) ∧
    ForestHolds f' dataTrees 4 (part (forestLeaves dataTrees) first') := by
  obtain ⟨first', f', shipped, h1, -, -, -, -, -, h2, -⟩ := C32_uniform_for_coarsening_partial (σ := ℕ) le_rfl id 63
    ⟨fun _ _ h => h, fun _ _ _ => rfl⟩ dataForest dataTrees 4 (by norm_num) dataLeaves dataForest_holds (by decide +kernel)
    5 (by decide +kernel) (some 0) (fun p _ _ => Or.inl ⟨0, rfl, le_rfl⟩)
  exact ⟨first', f', shipped, h1, h2⟩

example : ∃ first first' : ℕ → ℕ, WeightedCuts [1, 2, 3, 1, 2] 4 first ∧
    ∃ f' shipped, partitionExt id 4 (some 0) dataForest true (some (countCalls, fun _ => 1)) = some (f', shipped) ∧
      ForestHolds f' dataTrees 4 (part (forestLeaves dataTrees) first') := by
  obtain ⟨first, first', h1, f', shipped, h2, -, -, -, -, -, h3, -⟩ := C32_weighted_for_coarsening_partial le_rfl id 63
    ⟨fun _ _ h => h, fun _ _ _ => rfl⟩ dataForest dataTrees 4 (by norm_num) dataLeaves dataForest_holds 0 le_rfl
    countCalls (fun _ => 1) (fun _ _ _ => Int.natCast_nonneg _) [1, 2, 3, 1, 2] countCalls_weights.symm (by norm_num) (by norm_num)
  exact ⟨first, first', h1, f', shipped, h2, h3⟩

end P4est
