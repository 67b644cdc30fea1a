import Verif.Model.Repartition

/-! # Keeping families together: `p4est_partition_for_coarsening`, src/p4est.c:2791-3385

All ranks execute the function.  As in `Model/Repartition.lean`, messages are modelled by their
effect: a posted receive must match exactly one message and every message must be received.
The version for `P4EST_ENABLE_MPI` is modelled, without the debug code.

The receive part of the code can read `partition_now[-1]`, which is not part of the array
`global_first_quadrant`.  The model takes the content of the memory before the array as the parameter
`under`; `none` means that the access is a fault.  All other accesses out of bounds are `none`. -/

namespace P4est

variable {d : ℕ}

/-! ### The new partition -/

/-- The loop src/p4est.c:2834-2836. -/
def newCut (num : ℕ → ℤ) : ℕ → ℤ
  | 0 => 0
  | i + 1 => newCut num i + num i

/-- `partition_new`, src/p4est.c:2832-2837. -/
def partitionNew (num : ℕ → ℤ) (numProcs : ℕ) (globalNum : ℤ) (i : ℕ) : ℤ :=
  if i = numProcs then globalNum else newCut num i

/-- The condition src/p4est.c:2942-2945 (negated there) and 3247-3250: rank `src` has leaves close to
the new cut of rank `dst`.  `C` is `P4EST_CHILDREN`. -/
def nearRelevant (C : ℤ) (now new : ℕ → ℤ) (src dst : ℕ) : Bool :=
  decide (new dst < new (dst + 1)) && decide (now src ≤ new dst + C - 2) &&
    decide (new dst - C + 1 < now (src + 1))

/-! ### Sending -/

/-- Number, lowest and highest of the ranks to communicate with. -/
structure NearWindow where
  count : ℤ
  lowest : ℤ
  highest : ℤ

/-- `begin` and `end`, src/p4est.c:2845-2880. -/
def sendRange (C : ℤ) (now new : ℕ → ℤ) (numProcs : ℕ) (globalNum : ℤ) (rank : ℕ) : Option (ℕ × ℕ) :=
  if now rank - C + 2 < 0 ∧ now (rank + 1) - 1 + C ≥ globalNum then some (1, numProcs - 1)
  else do
    let r ← findPartition ((List.range (numProcs - 1)).map fun i => new (i + 1))
      (now rank - C + 2) (now (rank + 1) - 1 + C)
    some (r.1 + 1, r.2)

/-- The loop src/p4est.c:2885-2892 over the ranks `i, ..., i + n - 1`. -/
def sendWindowLoop (new : ℕ → ℤ) (numProcs : ℕ) : ℕ → ℕ → NearWindow → Option NearWindow
  | 0, _, w => some w
  | n + 1, i, w =>
    if i < numProcs then
      sendWindowLoop new numProcs n (i + 1)
        (if new i < new (i + 1) then ⟨w.count + 1, min w.lowest i, max w.highest i⟩ else w)
    else none

/-- src/p4est.c:2840-2897. -/
def sendWindow (C : ℤ) (now new : ℕ → ℤ) (numProcs : ℕ) (globalNum : ℤ) (rank : ℕ) : Option NearWindow :=
  if now rank < now (rank + 1) then do
    let r ← sendRange C now new numProcs globalNum rank
    sendWindowLoop new numProcs (r.2 + 1 - r.1) r.1 ⟨0, numProcs, 0⟩
  else some ⟨0, numProcs, 0⟩

/-- A message: a quadrant with the fields `p.piggy3.which_tree` and `p.piggy3.local_num`. -/
structure Near (d : ℕ) where
  quad : Quad d
  tree : ℤ
  localNum : ℤ

/-- `quad_id_near_cut`, src/p4est.c:2950-2966.  The rank has the leaves `[a, b)`. -/
def nearCut (a b cut : ℤ) : ℤ :=
  if a ≤ cut ∧ cut < b then cut
  else if |cut - a| < |cut - b + 1| then a
  else b - 1

/-- The loop src/p4est.c:2971-2981 over the local trees `t, ..., t + n - 1`, with `tree_index` and
`num_quadrants_in_tree`. -/
def nearTreeLoop (rt : RankTrees (Quad d)) (idx : ℤ) : ℕ → ℕ → ℤ × ℤ → Option (ℤ × ℤ)
  | 0, _, s => some s
  | n + 1, t, s =>
    if t < rt.trees.length then
      if (treeOffset rt t : ℤ) ≤ idx then nearTreeLoop rt idx n (t + 1) (t, s.2)
      else some (s.1, treeOffset rt t)
    else none

/-- Access to an array at a signed index. -/
def getZ {γ : Type} (a : List γ) (i : ℤ) : Option γ := if i < 0 then none else a[i.toNat]?

/-- The loops src/p4est.c:3001-3024 (`step = -1`) and 3028-3054 (`step = 1`) with `n` iterations:
the last index with a leaf of the same level and parent. `base` is the global index of the first
leaf of the tree. -/
def nearScan (tree : List (Quad d)) (base : ℤ) (p : Quad d) (level : ℕ) (step : ℤ) : ℕ → ℤ → ℤ → Option ℤ
  | 0, _, best => some best
  | n + 1, iq, best => do
    let q ← getZ tree (iq - base)
    if q.level = level then
      if isParent p q then nearScan tree base p level step n (iq + step) iq else some best
    else some best

/-- The message for the cut, src/p4est.c:2949-3099.  The rank has the leaves `[a, b)`. -/
def nearMessage (C : ℤ) (rt : RankTrees (Quad d)) (a b cut : ℤ) : Option (Near d) := do
  let near := nearCut a b cut
  let r ← nearTreeLoop rt (near - a) (localTrees rt) rt.first.toNat (-1, b - a)
  let tree ← getZ rt.trees r.1
  let off : ℤ := treeOffset rt r.1.toNat
  let q ← getZ tree (near - a - off)
  if q.level > 0 then do
    let mn ← nearScan tree (a + off) (parent q) q.level (-1)
      (near - max (a + off) (cut - C + 1) + 1).toNat near near
    let mx ← nearScan tree (a + off) (parent q) q.level 1
      (min (a + off + (r.2 - off) - 1) (cut + C - 2) - near + 1).toNat near near
    some ⟨parent q, r.1, if near = cut then (cut - mn) * C + (mx - cut) else mx - mn + 1⟩
  else some ⟨q, r.1, 1⟩

/-- The loop src/p4est.c:2940-3104 over the ranks `i, ..., i + n - 1`. There is room for `count`
messages. -/
def sendLoop (C : ℤ) (now new : ℕ → ℤ) (rt : RankTrees (Quad d)) (rank : ℕ) (count : ℤ) :
    ℕ → ℕ → List (ℕ × Near d) → Option (List (ℕ × Near d))
  | 0, _, acc => some acc
  | n + 1, i, acc =>
    if nearRelevant C now new rank i then
      if (acc.length : ℤ) < count then do
        let m ← nearMessage C rt (now rank) (now (rank + 1)) (new i)
        sendLoop C now new rt rank count n (i + 1) (acc ++ [(i, m)])
      else none
    else sendLoop C now new rt rank count n (i + 1) acc

/-- The messages of a rank, src/p4est.c:2839-3107; all `num_sends` requests must be in use, since all
are waited for (3345). -/
def nearSends (C : ℤ) (now new : ℕ → ℤ) (numProcs : ℕ) (globalNum : ℤ) (rt : RankTrees (Quad d)) (rank : ℕ) :
    Option (List (ℕ × Near d)) := do
  let w ← sendWindow C now new numProcs globalNum rank
  if w.count > 0 then do
    let ms ← sendLoop C now new rt rank w.count (w.highest + 1 - w.lowest).toNat w.lowest.toNat []
    if (ms.length : ℤ) = w.count then some ms else none
  else some []

/-! ### Receiving -/

/-- Read `partition_now[i]`. -/
def readNow (now : ℕ → ℤ) (under : Option ℤ) (numProcs : ℕ) (i : ℤ) : Option ℤ :=
  if i = -1 then under
  else if 0 ≤ i ∧ i ≤ numProcs then some (now i.toNat)
  else none

/-- `begin` and `end`, src/p4est.c:3113-3153. -/
def recvRange (C : ℤ) (now new : ℕ → ℤ) (numProcs : ℕ) (globalNum : ℤ) (rank : ℕ) : Option (ℤ × ℤ) :=
  if new rank - C + 1 < 0 ∧ new rank + C - 2 ≥ globalNum then some (0, (numProcs : ℤ) - 1)
  else do
    let r ← findPartition ((List.range numProcs).map now) (new rank - C + 1) (new rank + C - 2)
    if r.1 ≤ numProcs ∧ r.2 ≤ numProcs then
      some ((if new rank - C + 1 = now r.1 then (r.1 : ℤ) + 1 else r.1) - 1,
        if new rank + C - 2 ≠ now r.2 then (r.2 : ℤ) - 1 else r.2)
    else none

/-- `num_receives`, `receive_lowest`, `receive_highest`, `process_with_cut` and
`process_with_cut_recv_id`. -/
structure RecvWindow where
  count : ℤ
  lowest : ℤ
  highest : ℤ
  cutProc : ℤ
  cutId : ℤ

/-- The body of the loop src/p4est.c:3158-3174 for a nonempty rank `i` with leaves `[x, y)`. -/
def recvCount (cut : ℤ) (i x y : ℤ) (s : RecvWindow) : RecvWindow :=
  { count := s.count + 1
    lowest := min s.lowest i
    highest := max s.highest i
    cutProc := if x ≤ cut ∧ cut < y then i else s.cutProc
    cutId := if x ≤ cut ∧ cut < y then s.count else s.cutId }

/-- The loop src/p4est.c:3158-3184.  At most `n` iterations are possible since `i` is at most
`num_procs - 1`. -/
def recvLoop (now : ℕ → ℤ) (under : Option ℤ) (numProcs : ℕ) (cut : ℤ) : ℕ → ℤ → ℤ → RecvWindow → Option RecvWindow
  | 0, _, _, s => some s
  | n + 1, i, e, s =>
    if i ≤ min e ((numProcs : ℤ) - 1) then do
      let x ← readNow now under numProcs i
      let y ← readNow now under numProcs (i + 1)
      if x < y then recvLoop now under numProcs cut n (i + 1) e (recvCount cut i x y s)
      else if i = e ∧ x = y then recvLoop now under numProcs cut n (i + 1) (e + 1) s
      else recvLoop now under numProcs cut n (i + 1) e s
    else some s

/-- src/p4est.c:3109-3191. -/
def recvWindow (C : ℤ) (now new : ℕ → ℤ) (under : Option ℤ) (numProcs : ℕ) (globalNum : ℤ) (rank : ℕ) :
    Option RecvWindow :=
  if rank ≠ 0 ∧ new rank < new (rank + 1) then do
    let r ← recvRange C now new numProcs globalNum rank
    recvLoop now under numProcs (new rank) ((numProcs : ℤ) - r.1).toNat r.1 r.2 ⟨0, numProcs, 0, -1, -1⟩
  else some ⟨0, numProcs, 0, -1, -1⟩

/-- The condition src/p4est.c:3247-3250. -/
def recvRelevant (C cut x y : ℤ) : Bool :=
  decide (x < y) && decide (x ≤ cut + C - 2) && decide (cut - C + 1 < y)

/-- The loop src/p4est.c:3245-3268 over the ranks `i, ..., i + n - 1`: the ranks for which a receive is
posted. There is room for `count` receives. -/
def postLoop (C : ℤ) (now : ℕ → ℤ) (under : Option ℤ) (numProcs : ℕ) (cut count : ℤ) :
    ℕ → ℤ → List ℤ → Option (List ℤ)
  | 0, _, acc => some acc
  | n + 1, i, acc => do
    let x ← readNow now under numProcs i
    let y ← readNow now under numProcs (i + 1)
    if recvRelevant C cut x y then
      if (acc.length : ℤ) < count then
        postLoop C now under numProcs cut count n (i + 1) (acc ++ [i])
      else none
    else postLoop C now under numProcs cut count n (i + 1) acc

/-- The posted receives; all `num_receives` requests must be in use. -/
def posted (C : ℤ) (now new : ℕ → ℤ) (under : Option ℤ) (numProcs rank : ℕ) (w : RecvWindow) : Option (List ℤ) :=
  if w.count > 0 then do
    let ps ← postLoop C now under numProcs (new rank) w.count (w.highest + 1 - w.lowest).toNat w.lowest []
    if (ps.length : ℤ) = w.count then some ps else none
  else some []

/-- The messages for `rank` meet the posted receives: there are receives exactly for the ranks that
send one message.  The result are the messages in the order of the receives. -/
def collect (sends : ℕ → List (ℕ × Near d)) (numProcs rank : ℕ) (posted : List ℤ) : Option (List (Near d)) :=
  if posted.all (fun i => decide (0 ≤ i ∧ i < numProcs)) &&
      (List.range numProcs).all (fun p =>
        decide ((posted.filter (· = (p : ℤ))).length = ((sends p).filter fun m => m.1 = rank).length)) then
    posted.mapM fun i => ((sends i.toNat).find? fun m => m.1 = rank).map Prod.snd
  else none

/-! ### The correction -/

/-- The loop src/p4est.c:3290-3315: `min_quad_id` and `max_quad_id`. -/
def spanLoop (C : ℤ) (own : Near d) (cutProc : ℤ) : List (ℤ × Near d) → ℤ × ℤ → ℤ × ℤ
  | [], s => s
  | (i, m) :: rest, s =>
    spanLoop C own cutProc rest
      (if m.tree = own.tree ∧ m.quad = own.quad then
        if i < cutProc then (s.1 - m.localNum, s.2)
        else if i > cutProc then (s.1, s.2 + m.localNum)
        else (s.1 - m.localNum.tdiv C, s.2 + m.localNum.tmod C)
      else s)

/-- The decreasing search src/p4est_algorithms.c:2760-2767 with `k = i + 1`:
`max_num_quadrants` and `rank_with_max_quads`. -/
def correctionDown (part : ℕ → ℤ) (mn : ℤ) : ℕ → ℤ × ℕ → Option (ℤ × ℕ)
  | 0, s => if mn < part 0 then none else some s
  | i + 1, s =>
    if mn < part (i + 1) then
      correctionDown part mn i
        (if s.1 ≤ part (i + 1) - max mn (part i) then (part (i + 1) - max mn (part i), i) else s)
    else some s

/-- The increasing search src/p4est_algorithms.c:2771-2778 starting with rank `i`, `n` ranks before
the end of the array. -/
def correctionUp (part : ℕ → ℤ) (mx : ℤ) : ℕ → ℕ → ℤ × ℕ → Option (ℤ × ℕ)
  | 0, i, s => if part i ≤ mx then none else some s
  | n + 1, i, s =>
    if part i ≤ mx then
      correctionUp part mx n (i + 1)
        (if s.1 < min mx (part (i + 1) - 1) - part i + 1 then (min mx (part (i + 1) - 1) - part i + 1, i) else s)
    else some s

/-- `p4est_partition_correction`, src/p4est_algorithms.c:2741-2787. -/
def partitionCorrection (C : ℤ) (part : ℕ → ℤ) (numProcs rank : ℕ) (mn mx : ℤ) : Option ℤ :=
  if mx - mn + 1 ≠ C then some 0
  else do
    let s ← correctionDown part mn rank (min mx (part (rank + 1) - 1) - part rank + 1, rank)
    let s ← correctionUp part mx (numProcs - (s.2 + 1)) (s.2 + 1) s
    some (if s.2 < rank then part rank - mx - 1 else part rank - mn)

/-- `correction_local` of a rank, src/p4est.c:3282-3325 (and 3190 if nothing is received). -/
def correctionLocal (C : ℤ) (now new : ℕ → ℤ) (under : Option ℤ) (numProcs : ℕ) (globalNum : ℤ)
    (sends : ℕ → List (ℕ × Near d)) (rank : ℕ) : Option ℤ := do
  let w ← recvWindow C now new under numProcs globalNum rank
  let ps ← posted C now new under numProcs rank w
  let ms ← collect sends numProcs rank ps
  if w.count > 0 then do
    let own ← getZ ms w.cutId
    let s := spanLoop C own w.cutProc (ps.zip ms) (new rank, new rank)
    partitionCorrection C new numProcs rank s.1 s.2
  else some 0

/-! ### The corrected partition -/

/-- The loop of `p4est_next_nonempty_process`, src/p4est_algorithms.c:2799-2801, `n` ranks before the
end of the array. -/
def nonemptyLoop (num : ℕ → ℤ) : ℕ → ℕ → ℕ
  | 0, rank => rank
  | n + 1, rank => if num rank = 0 then nonemptyLoop num n (rank + 1) else rank

/-- `p4est_next_nonempty_process`, src/p4est_algorithms.c:2789-2806. -/
def nextNonempty (rank numProcs : ℕ) (num : ℕ → ℤ) : ℕ :=
  if rank ≥ numProcs then numProcs else nonemptyLoop num (numProcs - rank) rank

/-- The loop src/p4est.c:3355-3374: the corrected counts and `num_moved_quadrants`.  The outer `none`
is an excess of the number of iterations allowed for. -/
def correctLoop (numProcs : ℕ) (corr : ℕ → ℤ) : ℕ → ℕ → ℕ → (ℕ → ℤ) × ℤ → Option ((ℕ → ℤ) × ℤ)
  | 0, _, _, _ => none
  | n + 1, cur, next, (num, moved) =>
    if cur < numProcs then
      let num1 := if 0 < cur ∧ cur < numProcs then Function.update num cur (num cur + corr cur) else num
      let moved1 := if 0 < cur ∧ cur < numProcs then moved + |corr cur| else moved
      let num2 := if next < numProcs then Function.update num1 cur (num1 cur - corr next) else num1
      correctLoop numProcs corr n next (nextNonempty (next + 1) numProcs num2) (num2, moved1)
    else some (num, moved)

/-- `p4est_partition_for_coarsening`, src/p4est.c:2791-3385: the corrected `num_quadrants_in_proc` and
the return value, the same on all ranks.  `now` is `global_first_quadrant` and `st` the leaves of
all ranks. -/
def partitionForCoarsening (now : ℕ → ℤ) (under : Option ℤ) (numProcs : ℕ) (globalNum : ℤ)
    (st : ℕ → RankTrees (Quad d)) (num : ℕ → ℤ) : Option ((ℕ → ℤ) × ℤ) := do
  let C : ℤ := 2 ^ d
  let new := partitionNew num numProcs globalNum
  let sends ← (List.range numProcs).mapM fun p => nearSends C now new numProcs globalNum (st p) p
  let corr ← (List.range numProcs).mapM
    (correctionLocal C now new under numProcs globalNum fun p => (sends[p]?).getD [])
  let cur := nextNonempty 0 numProcs num
  correctLoop numProcs (fun p => (corr[p]?).getD 0) (numProcs + 1) cur (nextNonempty (cur + 1) numProcs num)
    (num, 0)

end P4est
