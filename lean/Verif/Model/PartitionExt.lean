import Verif.Model.PartitionFamily

/-! # `p4est_partition_ext`, src/p4est.c:2437-2788

The new numbers of leaves for all ranks, uniform or by weights, then
`p4est_partition_for_coarsening` and `p4est_partition_given`.  The version for `P4EST_ENABLE_MPI` is
modelled.  Weights are modelled as unbounded integers (the code uses `int64_t` for the weights and
`p4est_locidx_t` for the resulting counts). -/

namespace P4est

variable {d : ℕ} {β σ : Type}

/-! ### Uniform counts -/

/-- The loop src/p4est.c:2491-2499. -/
def uniformCounts (rnd : ℚ → ℚ) (globalNum numProcs p : ℕ) : ℤ :=
  partitionCut rnd globalNum (p + 1) numProcs -
    if p = 0 then 0 else partitionCut rnd globalNum p numProcs

/-! ### Weights -/

/-- The loop src/p4est.c:2514-2520 over the leaves of tree `t`: the array `local_weights`, as far as
it is filled, and the state of the user's callback.  The array has `size` entries. -/
def weighTree (wfn : ℕ → β → σ → ℤ × σ) (size t : ℕ) : List β → List ℤ × σ → Option (List ℤ × σ)
  | [], s => some s
  | q :: qs, (acc, s) =>
    if acc.length < size then
      weighTree wfn size t qs (acc ++ [acc.getLastD 0 + (wfn t q s).1], (wfn t q s).2)
    else none

/-- The loop src/p4est.c:2512-2521 over the trees `t, ..., t + n - 1`. -/
def weighTrees (wfn : ℕ → β → σ → ℤ × σ) (size : ℕ) (rt : RankTrees β) : ℕ → ℕ → List ℤ × σ → Option (List ℤ × σ)
  | 0, _, s => some s
  | n + 1, t, s => do
    let tree ← rt.trees[t]?
    let s ← weighTree wfn size t tree s
    weighTrees wfn size rt n (t + 1) s

/-- `local_weights` of a rank before the sums of the other ranks are added, src/p4est.c:2504-2522; all
entries of the array must be set. -/
def localWeights (wfn : ℕ → β → σ → ℤ × σ) (rt : RankTrees β) (localNum : ℕ) (s : σ) : Option (List ℤ × σ) := do
  let r ← weighTrees wfn (localNum + 1) rt (localTrees rt) rt.first.toNat ([0], s)
  if r.1.length = localNum + 1 then some r else none

/-- The loop src/p4est.c:2571-2578 over `i, ..., i + n - 1`: `send_lowest` and `send_highest`. -/
def weightPeers (cut : ℕ → ℤ) (a b : ℤ) : ℕ → ℕ → ℕ × ℕ → ℕ × ℕ
  | 0, _, s => s
  | n + 1, i, s => weightPeers cut a b n (i + 1) (if a < cut i ∧ cut i ≤ b then (min s.1 i, max s.2 i) else s)

/-- `sc_search_lower_bound64` of libsc, by its contract: the lowest position of a sorted array whose entry
is at least the target, or -1; the guess must be a position of the array. -/
def scLowerBound (target : ℤ) (a : List ℤ) (guess : ℤ) : Option ℤ :=
  if 0 ≤ guess ∧ guess < a.length then
    some (match a.findIdx? (fun x => decide (target ≤ x)) with | some k => k | none => -1)
  else none

/-- A message: receiver, `P4EST_COMM_PARTITION_WEIGHTED_LOW` (`true`) or `..._HIGH`, and its content. -/
structure WMsg where
  dst : ℕ
  low : Bool
  val : ℤ

/-- The loop src/p4est.c:2594-2635 over `i, ..., i + n - 1`. -/
def weightSends (cut : ℕ → ℤ) (lw : List ℤ) (first globalNum : ℤ) (numProcs : ℕ) : ℕ → ℕ → ℤ → List WMsg → Option (List WMsg)
  | 0, _, _, acc => some acc
  | n + 1, i, lowers, acc =>
    if i < numProcs then do
      let k ← scLowerBound (cut i) lw lowers
      weightSends cut lw first globalNum numProcs n (i + 1) k (acc ++ [⟨i, true, k + first⟩, ⟨i - 1, false, k + first⟩])
    else weightSends cut lw first globalNum numProcs n (i + 1) 0 (acc ++ [⟨i - 1, false, globalNum⟩])

/-- The messages of a rank, src/p4est.c:2568-2636; `a` and `b` are `global_weight_sums[rank]` and
`global_weight_sums[rank + 1]`. -/
def weightMessages (cut : ℕ → ℤ) (lw : List ℤ) (first globalNum : ℤ) (numProcs : ℕ) (a b : ℤ) : Option (List WMsg) :=
  let w := weightPeers cut a b numProcs 1 (numProcs, 0)
  weightSends cut lw first globalNum numProcs (w.2 + 1 - w.1) w.1 0 []

/-- The loops src/p4est.c:2647-2657 and 2669-2679 over `i, ..., i + n - 1`: the rank that knows the
position of the cut. -/
def weightSource (gws : ℕ → ℤ) (cut : ℤ) : ℕ → ℕ → Option ℕ
  | 0, _ => none
  | n + 1, i => if gws i < cut ∧ cut ≤ gws (i + 1) then some i else weightSource gws cut n (i + 1)

/-- The receive for `rank` with the given tag, src/p4est.c:2641-2713: `none` as source is
`MPI_REQUEST_NULL` and the value is 0.  The message must exist, and there must not be another one. -/
def weightReceive (sends : ℕ → List WMsg) (numProcs rank : ℕ) (low : Bool) (source : Option ℕ) : Option ℤ :=
  if (List.range numProcs).all (fun p =>
      decide (((sends p).filter fun m => m.dst = rank ∧ m.low = low).length = if source = some p then 1 else 0)) then
    match source with
    | none => some 0
    | some p => ((sends p).find? fun m => m.dst = rank ∧ m.low = low).map WMsg.val
  else none

/-- `low_source` and `high_source`, src/p4est.c:2641-2685, with the search starting with rank `i`: `none` is
the -1 for a cut that is zero; otherwise the search must be successful. -/
def cutSource (gws : ℕ → ℤ) (cut : ℤ) (numProcs i : ℕ) : Option (Option ℕ) :=
  if cut = 0 then some none else (weightSource gws cut (numProcs - i) i).map some

/-- `qcount` of a rank, src/p4est.c:2638-2717. -/
def weightCount (cut gws : ℕ → ℤ) (sends : ℕ → List WMsg) (numProcs rank : ℕ) : Option ℤ := do
  let lowSource ← cutSource gws (cut rank) numProcs 0
  let highSource ← cutSource gws (cut (rank + 1)) numProcs (lowSource.getD 0)
  let low ← weightReceive sends numProcs rank true lowSource
  let high ← weightReceive sends numProcs rank false highSource
  some (high - low)

/-- `num_quadrants_in_proc` for a partition by weights, src/p4est.c:2501-2722.  `ws` are the arrays
`local_weights` of all ranks before the adjustment.  The inner `none` is the early return for zero
weights. -/
def weightedCounts (rnd : ℚ → ℚ) (numProcs : ℕ) (gfq : ℕ → ℤ) (globalNum : ℤ) (ws : ℕ → List ℤ) :
    Option (Option (List ℤ)) :=
  let gws := countQuadrants (fun p => (ws p).getLastD 0) numProcs
  let sum := gws numProcs
  if sum = 0 then some none
  else do
    let cut := fun i => partitionCut rnd sum.toNat i numProcs
    let sends ← (List.range numProcs).mapM fun p =>
      weightMessages cut (if p > 0 then (ws p).map (· + gws p) else ws p) (gfq p) globalNum numProcs (gws p) (gws (p + 1))
    let counts ← (List.range numProcs).mapM (weightCount cut gws (fun p => (sends[p]?).getD []) numProcs)
    some (some counts)

/-! ### The whole function -/

/-- The members of `p4est_t` on all ranks, as far as the function needs them: `trees` of each rank with
`first_local_tree` and `last_local_tree`, and the members that agree on all ranks:
`global_first_quadrant`, the trees of `global_first_position`, `global_num_quadrants`,
`connectivity->num_trees` and `revision`. -/
structure Forest (d : ℕ) (α : Type) where
  ranks : ℕ → RankTrees (Quad d × α)
  gfq : ℕ → ℤ
  gfpTree : List ℤ
  globalNum : ℕ
  numTrees : ℕ
  revision : ℕ

/-- The numbers of leaves for `p4est_partition_given`, src/p4est.c:2487-2722; the inner `none` is the
early return.  `weight` is the callback with its state on each rank. -/
def wantedCounts {α : Type} (rnd : ℚ → ℚ) (numProcs : ℕ) (f : Forest d α)
    (weight : Option ((ℕ → Quad d × α → σ → ℤ × σ) × (ℕ → σ))) : Option (Option (List ℤ)) :=
  match weight with
  | none => some (some ((List.range numProcs).map (uniformCounts rnd f.globalNum numProcs)))
  | some (wfn, s) => do
    let ws ← (List.range numProcs).mapM fun p =>
      localWeights wfn (f.ranks p) (f.gfq (p + 1) - f.gfq p).toNat (s p)
    weightedCounts rnd numProcs f.gfq f.globalNum fun p => ((ws[p]?).map Prod.fst).getD []

/-- The leaves without their data. -/
def RankTrees.bare {α : Type} (rt : RankTrees (Quad d × α)) : RankTrees (Quad d) :=
  ⟨rt.trees.map (·.map Prod.fst), rt.first, rt.last⟩

/-- The counts after `p4est_partition_for_coarsening`, src/p4est.c:2750-2757. -/
def correctedCounts {α : Type} (numProcs : ℕ) (under : Option ℤ) (f : Forest d α) (forCoarsening : Bool) (num : ℕ → ℤ) :
    Option (ℕ → ℤ) :=
  if forCoarsening then
    (partitionForCoarsening f.gfq under numProcs f.globalNum (fun p => (f.ranks p).bare) num).map Prod.fst
  else some num

/-- The leaves of a rank with the numbers of their trees, in order of storage. -/
def RankTrees.tagged {α : Type} (rt : RankTrees (Quad d × α)) : List (ℕ × Quad d) :=
  rt.trees.zipIdx.flatMap fun x => x.1.map fun q => (x.2, q.1)

/-- What is left to do with the result of `p4est_partition_given`: its call of `p4est_comm_global_partition`
(src/p4est_algorithms.c:3692) and the revision counter (src/p4est.c:2761-2764). -/
def afterPartition {α : Type} (numProcs : ℕ) (f : Forest d α) (out : Repartition (Quad d × α)) : Forest d α :=
  let ranks := fun p => (out.ranks[p]?).getD (f.ranks p)
  { f with
    ranks := ranks
    gfq := fun i => (out.gfq[i]?).getD 0
    gfpTree := (globalPartition (fun p => (ranks p).tagged) numProcs f.numTrees).map GPos.tree
    revision := if out.shipped ≠ 0 then f.revision + 1 else f.revision }

/-- `p4est_partition_ext`, src/p4est.c:2437-2788: the new forest and the return value.  `under` is the
memory before `global_first_quadrant` (see `Model/PartitionFamily.lean`). -/
def partitionExt {α : Type} (rnd : ℚ → ℚ) (numProcs : ℕ) (under : Option ℤ) (f : Forest d α) (forCoarsening : Bool)
    (weight : Option ((ℕ → Quad d × α → σ → ℤ × σ) × (ℕ → σ))) : Option (Forest d α × ℤ) :=
  if numProcs = 1 then some (f, 0)
  else
    match wantedCounts rnd numProcs f weight with
    | none => none
    | some none => some (f, 0)
    | some (some wanted) => do
      let num ← correctedCounts numProcs under f forCoarsening fun p => (wanted[p]?).getD 0
      let out ← partitionGiven numProcs f.gfq f.gfpTree num f.ranks
      some (afterPartition numProcs f out, out.shipped)

end P4est
