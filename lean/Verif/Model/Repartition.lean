import Verif.Model.Search
import Verif.Model.Partition

/-! # Moving leaves between ranks: `p4est_partition_given`, src/p4est_algorithms.c:2808-3699

All ranks execute the function; the model computes what every rank does and what it receives.
Point to point messages are modelled by their effect: every posted receive must match exactly one
message of the same size, and every message must be received (`transmit`).  There is at most one
message for each ordered pair of ranks, all operations are nonblocking and are completed before
the buffers are used, so that no other property of the schedule matters.

`none` is an access out of bounds of an array, a use of an uninitialised entry, or a
communication that does not match.  The type `β` is a leaf together with its user data (the code
copies both; the pool that holds the user data is not modelled).  The debug code under
`P4EST_ENABLE_DEBUG` is not modelled. -/

namespace P4est

variable {β : Type}

/-- The part of `p4est_t` of one rank that holds the leaves: for each tree the array of its local
leaves, `first_local_tree` and `last_local_tree` (-1 and -2 if the rank is empty). -/
structure RankTrees (β : Type) where
  trees : List (List β)
  first : ℤ
  last : ℤ
deriving DecidableEq

/-! ### Windows -/

/-- `global_last_quad_index`, src/p4est_algorithms.c:2889. -/
def oldLast (gfq : ℕ → ℤ) (i : ℕ) : ℤ := gfq (i + 1) - 1

/-- `new_global_last_quad_index`, src/p4est_algorithms.c:2881 and 2903-2904. -/
def newLast (num : ℕ → ℤ) : ℕ → ℤ
  | 0 => num 0 - 1
  | i + 1 => num (i + 1) + newLast num i

/-- `total_quadrants_shipped` after iteration `i` of the loop src/p4est_algorithms.c:2885-2924. -/
def shippedLoop (last new num : ℕ → ℤ) : ℕ → ℤ
  | 0 => 0
  | i + 1 =>
    shippedLoop last new num i +
      if last i - new i ≥ 0 then min (last i - new i) (num (i + 1))
      else min (-(last i - new i)) (num i)

/-- `lower_bound` (src/p4est_algorithms.c:2985-2986, 3114-3115) and `my_begin` (2971, 3094). -/
def lowerBound (last : ℕ → ℤ) (p : ℕ) : ℤ := if p = 0 then 0 else last (p - 1) + 1

/-- The result of one search for the ranks that overlap an interval: the window of ranks,
the counts (`num_recv_from`, `num_send_to`) and `begin_send_to`, `none` where it is not set. -/
structure Overlap where
  lo : ℕ
  hi : ℕ
  num : ℕ → ℤ
  begins : ℕ → Option ℤ

/-- The loops src/p4est_algorithms.c:2984-2999 and 3112-3129 for `n` ranks starting with `p`.
The first one does not record the beginnings. -/
def overlapLoop (last : ℕ → ℤ) (numProcs : ℕ) (b e : ℤ) : ℕ → ℕ → Overlap → Option Overlap
  | 0, _, s => some s
  | n + 1, p, s =>
    if p < numProcs then
      overlapLoop last numProcs b e n (p + 1)
        (if lowerBound last p ≤ e ∧ last p ≥ b then
          { s with
            num := Function.update s.num p (min e (last p) - max b (lowerBound last p) + 1)
            begins := Function.update s.begins p (some (max b (lowerBound last p))) }
        else s)
    else none

/-- src/p4est_algorithms.c:2971-3004 (receives) and 3094-3134 (sends): the ranks whose interval,
given by its last index, overlaps `[b, e]`. -/
def overlapWindow (last : ℕ → ℤ) (numProcs rank : ℕ) (b e : ℤ) : Option Overlap :=
  if b > e then some ⟨rank, rank, fun _ => 0, fun _ => some (-1)⟩
  else do
    let (lo, hi) ← findPartition ((List.range numProcs).map last) b e
    overlapLoop last numProcs b e (hi + 1 - lo) lo ⟨lo, hi, fun _ => 0, fun _ => none⟩

/-- What `rank` receives, src/p4est_algorithms.c:2968-3004. -/
def recvOverlap (last new : ℕ → ℤ) (numProcs rank : ℕ) : Option Overlap :=
  overlapWindow last numProcs rank (lowerBound new rank) (new rank)

/-- What `rank` sends, src/p4est_algorithms.c:3086-3134. -/
def sendOverlap (last new : ℕ → ℤ) (numProcs rank : ℕ) : Option Overlap :=
  overlapWindow new numProcs rank (lowerBound last rank) (last rank)

/-! ### Packing -/

/-- `local_tree_last_quad_index[first_local_tree + i]`, src/p4est_algorithms.c:2931-2949. -/
def treeLast (rt : RankTrees β) : ℕ → Option ℤ
  | 0 => (rt.trees[rt.first.toNat]?).map fun l => l.length - 1
  | i + 1 => do
    let l ← rt.trees[rt.first.toNat + (i + 1)]?
    let prev ← treeLast rt i
    some (l.length + prev)

/-- `from_begin` and `from_end` of local tree number `i`, src/p4est_algorithms.c:3206-3208,
3256-3258 and 3411-3413. -/
def fromRange (rt : RankTrees β) (i : ℕ) : Option (ℤ × ℤ) := do
  let fb ← if i = 0 then some 0 else (treeLast rt (i - 1)).map (· + 1)
  let fe ← treeLast rt i
  some (fb, fe)

/-- Begin in the tree and number of the leaves of a tree that belong to `[mb, me]`,
src/p4est_algorithms.c:3210-3218, 3260-3264 and 3439-3449.  Where the first two do nothing the
result is a count of 0. -/
def treePart (mb me fb fe : ℤ) : ℤ × ℤ :=
  if fb ≤ me ∧ fe ≥ mb then
    (max mb fb - fb, min me fe - fb - (max mb fb - fb) + 1)
  else (0, 0)

/-- `k` entries from position `b`, the source of a `memcpy`. -/
def cut {γ : Type} (l : List γ) (b k : ℤ) : Option (List γ) :=
  if 0 ≤ b ∧ 0 ≤ k ∧ b + k ≤ l.length then some ((l.drop b.toNat).take k.toNat) else none

/-- A message: the counts for each tree, then the leaves with their data. -/
structure Message (β : Type) where
  counts : List ℤ
  leaves : List β

/-- The loop src/p4est_algorithms.c:3252-3296 over the local trees `i, ..., i + n - 1`, filling
`num_per_tree_send_buf` and `quad_send_buf`/`user_data_send_buf`. -/
def packLoop (rt : RankTrees β) (numTrees : ℕ) (me : ℤ) : ℕ → ℕ → ℤ → (ℕ → ℤ) → List β →
    Option ((ℕ → ℤ) × List β)
  | 0, _, _, counts, buf => some (counts, buf)
  | n + 1, i, mb, counts, buf => do
    let r ← fromRange rt i
    let part := treePart mb me r.1 r.2
    let tree ← rt.trees[rt.first.toNat + i]?
    let piece ← cut tree part.1 part.2
    if i < numTrees then
      packLoop rt numTrees me n (i + 1) (mb + part.2) (Function.update counts i part.2) (buf ++ piece)
    else none

/-- The number of iterations of `for (which_tree = first_local_tree; which_tree <=
last_local_tree; ++which_tree)`. -/
def localTrees (rt : RankTrees β) : ℕ := (rt.last - rt.first + 1).toNat

/-- One message, src/p4est_algorithms.c:3231-3296: `num` leaves from global index `start`.  `base`
is the global index of the first leaf of the rank.  The buffer must be filled exactly. -/
def packMessage (rt : RankTrees β) (numTrees : ℕ) (num start base : ℤ) : Option (Message β) := do
  let r ← packLoop rt numTrees (start + num - 1 - base) (localTrees rt) 0 (start - base) (fun _ => 0) []
  if (r.2.length : ℤ) = num then some ⟨(List.range numTrees).map r.1, r.2⟩ else none

/-- The loop src/p4est_algorithms.c:3201-3221. -/
def localCountsLoop (rt : RankTrees β) (numTrees : ℕ) (mb me : ℤ) : ℕ → ℕ → (ℕ → ℤ) → Option (ℕ → ℤ)
  | 0, _, counts => some counts
  | n + 1, i, counts => do
    let r ← fromRange rt i
    if i < numTrees then
      localCountsLoop rt numTrees mb me n (i + 1)
        (Function.update counts i (treePart mb me r.1 r.2).2)
    else none

/-- `num_per_tree_local`, src/p4est_algorithms.c:3194-3222: the leaves that stay. -/
def localCounts (rt : RankTrees β) (numTrees rank : ℕ) (send : Overlap) (base : ℤ) : Option (List ℤ) :=
  if send.num rank > 0 then do
    let start ← send.begins rank
    let counts ← localCountsLoop rt numTrees (start - base) (start + send.num rank - 1 - base)
      (localTrees rt) 0 (fun _ => 0)
    some ((List.range numTrees).map counts)
  else some (List.replicate numTrees 0)

/-- `num_send_trees` and `num_recv_trees`, src/p4est_algorithms.c:2821-2823, 3059-3061 and
3327-3332: the trees for which a rank sends counts, according to the trees of
`global_first_position`. -/
def numTreesOf (gfpTree : List ℤ) (p : ℕ) : Option ℕ := do
  let a ← gfpTree[p]?
  let b ← gfpTree[p + 1]?
  if b - a + 1 < 0 then none else some (b - a + 1).toNat

/-- What `rank` sends to `dest`, src/p4est_algorithms.c:3225-3310: a message if `dest` is another rank
in the window and there is something to send. -/
def sendTo (last new : ℕ → ℤ) (gfpTree : List ℤ) (numProcs : ℕ) (rt : RankTrees β) (rank dest : ℕ) :
    Option (Option (Message β)) := do
  let send ← sendOverlap last new numProcs rank
  if send.lo ≤ dest ∧ dest ≤ send.hi ∧ dest ≠ rank ∧ send.num dest ≠ 0 then do
    let numTrees ← numTreesOf gfpTree rank
    let start ← send.begins dest
    let m ← packMessage rt numTrees (send.num dest) start (lowerBound last rank)
    some (some m)
  else some none

/-- The receive that `rank` posts for `source`, src/p4est_algorithms.c:3052-3081: the numbers of
counts and of leaves that determine the size of the message. -/
def recvPosted (last new : ℕ → ℤ) (gfpTree : List ℤ) (numProcs rank source : ℕ) :
    Option (Option (ℕ × ℤ)) := do
  let recv ← recvOverlap last new numProcs rank
  if recv.lo ≤ source ∧ source ≤ recv.hi ∧ source ≠ rank ∧ recv.num source ≠ 0 then do
    let numTrees ← numTreesOf gfpTree source
    some (some (numTrees, recv.num source))
  else some none

/-- A message meets the receive that was posted for it. -/
def transmit : Option (ℕ × ℤ) → Option (Message β) → Option (Option (Message β))
  | none, none => some none
  | some s, some m => if m.counts.length = s.1 ∧ (m.leaves.length : ℤ) = s.2 then some (some m) else none
  | _, _ => none

/-! ### Filling in -/

/-- `P4EST_TOPIDX_MAX`, src/p4est_base.h. -/
def topidxMax : ℤ := 2147483647

/-- `new_local_tree_elem_count`, `new_local_tree_elem_count_before`, `new_first_local_tree` and
`new_last_local_tree`. -/
structure NewCounts where
  count : ℕ → ℤ
  before : ℕ → ℤ
  first : ℤ
  last : ℤ

/-- The loop src/p4est_algorithms.c:3343-3368 over the counts of one source, for trees starting
with `t`. -/
def countTrees (totalTrees : ℕ) (below : Bool) : List ℤ → ℤ → NewCounts → Option NewCounts
  | [], _, s => some s
  | c :: cs, t, s =>
    if c > 0 then
      if 0 ≤ t ∧ t < totalTrees then
        countTrees totalTrees below cs (t + 1)
          { count := Function.update s.count t.toNat (s.count t.toNat + c)
            before := Function.update s.before t.toNat (s.before t.toNat + if below then c else 0)
            first := min s.first t
            last := max s.last t }
      else none
    else countTrees totalTrees below cs (t + 1) s

/-- The loop src/p4est_algorithms.c:3322-3370 over the sources.  `counts` holds for each source the
counts in its message, or `num_per_tree_local`. -/
def countSources (totalTrees : ℕ) (gfpTree : List ℤ) (rank : ℕ) (num : ℕ → ℤ) (counts : ℕ → List ℤ) :
    List ℕ → NewCounts → Option NewCounts
  | [], s => some s
  | p :: ps, s =>
    if num p > 0 then do
      let t ← gfpTree[p]?
      let s' ← countTrees totalTrees (decide (p < rank)) (counts p) t s
      countSources totalTrees gfpTree rank num counts ps s'
    else countSources totalTrees gfpTree rank num counts ps s

/-- `sc_array_resize`: keeps the common part, new entries are uninitialised. -/
def resize {γ : Type} (a : List (Option γ)) (n : ℕ) : List (Option γ) :=
  a.take n ++ List.replicate (n - a.length) none

/-- `memcpy` into an array at position `b`. -/
def overwrite {γ : Type} (a : List γ) (b : ℤ) (piece : List γ) : Option (List γ) :=
  if 0 ≤ b ∧ b + piece.length ≤ a.length then
    some (a.take b.toNat ++ piece ++ a.drop (b.toNat + piece.length))
  else none

/-- The treatment of one tree in the loop src/p4est_algorithms.c:3403-3507: leaves that stay are
moved to their new place in the array. -/
def keepTree (rt : RankTrees β) (new : NewCounts) (mb me : ℤ) (t : ℕ) (a : List (Option β)) :
    Option (List (Option β)) :=
  if new.count t > 0 then
    if rt.first ≤ t ∧ t ≤ rt.last then do
      let r ← fromRange rt (t - rt.first.toNat)
      let part := treePart mb me r.1 r.2
      let a1 := if new.count t > a.length then resize a (new.count t).toNat else a
      let piece ← cut a1 part.1 part.2
      let a2 ← overwrite a1 (new.before t) piece
      some (if new.count t < a2.length then resize a2 (new.count t).toNat else a2)
    else some a
  else if rt.first ≤ t ∧ t ≤ rt.last then some []
  else some a

/-- The loop src/p4est_algorithms.c:3403-3507 over the trees `t, ..., t + n - 1`. -/
def keepLoop (rt : RankTrees β) (new : NewCounts) (mb me : ℤ) : ℕ → ℕ → List (List (Option β)) →
    Option (List (List (Option β)))
  | 0, _, arrs => some arrs
  | n + 1, t, arrs => do
    let a ← arrs[t]?
    let a' ← keepTree rt new mb me t a
    keepLoop rt new mb me n (t + 1) (arrs.set t a')

/-- The global index of the first leaf that stays, src/p4est_algorithms.c:3398-3401. -/
def ownStart (send : Overlap) (rank : ℕ) : Option ℤ :=
  if send.lo ≤ rank ∧ send.hi ≥ rank then send.begins rank else some 0

/-- src/p4est_algorithms.c:3379-3507: which leaves stay and which trees are visited. -/
def keepLocal (rt : RankTrees β) (new : NewCounts) (send : Overlap) (rank : ℕ) (base : ℤ) :
    Option (List (List (Option β))) := do
  let firstTree := if rt.first ≥ 0 ∧ new.first ≥ 0 then min rt.first new.first else max rt.first new.first
  let lastTree := max rt.last new.last
  let start ← ownStart send rank
  keepLoop rt new (start - base) (start + send.num rank - 1 - base) (lastTree - firstTree + 1).toNat
    firstTree.toNat (rt.trees.map (·.map some))

/-- The loop src/p4est_algorithms.c:3537-3588 over the counts of one source: copy the leaves of
each tree from the message to the array of the tree.  `buf` is the unread part of the message.
`own` is the source being the rank itself, whose leaves are in place. -/
def fillTrees (new : NewCounts) (own : Bool) : List ℤ → ℤ → List β → (ℕ → ℤ) × List (List (Option β)) →
    Option ((ℕ → ℤ) × List (List (Option β)))
  | [], _, _, s => some s
  | c :: cs, t, buf, (before, arrs) =>
    if c > 0 then
      if t < 0 then none
      else if own then
        fillTrees new own cs (t + 1) buf (Function.update before t.toNat (before t.toNat + c), arrs)
      else do
        let a ← arrs[t.toNat]?
        let piece ← cut buf 0 c
        let a' ← overwrite (resize a (new.count t.toNat).toNat) (before t.toNat) (piece.map some)
        fillTrees new own cs (t + 1) (buf.drop c.toNat)
          (Function.update before t.toNat (before t.toNat + c), arrs.set t.toNat a')
    else fillTrees new own cs (t + 1) buf (before, arrs)

/-- The loop src/p4est_algorithms.c:3513-3590 over the sources. -/
def fillSources (gfpTree : List ℤ) (rank : ℕ) (new : NewCounts) (num : ℕ → ℤ) (counts : ℕ → List ℤ)
    (bufs : ℕ → List β) : List ℕ → (ℕ → ℤ) × List (List (Option β)) →
    Option ((ℕ → ℤ) × List (List (Option β)))
  | [], s => some s
  | p :: ps, s =>
    if num p > 0 then do
      let t ← gfpTree[p]?
      let s' ← fillTrees new (decide (p = rank)) (counts p) t (bufs p) s
      fillSources gfpTree rank new num counts bufs ps s'
    else fillSources gfpTree rank new num counts bufs ps s

/-- An array all of whose entries have been written. -/
def initialised (a : List (Option β)) : Option (List β) := a.mapM id

/-- `quadrants_offset` of tree `t`, src/p4est_algorithms.c:3611-3655, for a tree between the first
and last local tree; the sum of the arrays of the local trees before it.  Before the first local
tree it is 0. -/
def treeOffset (rt : RankTrees β) (t : ℕ) : ℕ :=
  if (t : ℤ) < rt.first then 0
  else (((rt.trees.take (min t (rt.last + 1).toNat)).drop rt.first.toNat).map List.length).sum

/-- src/p4est_algorithms.c:3312-3590: the new leaves of a rank after all messages have arrived. -/
def fillIn (gfpTree : List ℤ) (rank : ℕ) (rt : RankTrees β) (recv send : Overlap) (base : ℤ)
    (local_ : List ℤ) (msgs : ℕ → Option (Message β)) : Option (RankTrees β) := do
  let counts := fun p => if p = rank then local_ else (msgs p).elim [] Message.counts
  let bufs := fun p => (msgs p).elim [] Message.leaves
  let sources := List.range' recv.lo (recv.hi + 1 - recv.lo)
  let new ← countSources rt.trees.length gfpTree rank recv.num counts sources
    ⟨fun _ => 0, fun _ => 0, topidxMax, 0⟩
  let new : NewCounts := if new.first > new.last then { new with first := -1, last := -2 } else new
  let arrs ← keepLocal rt new send rank base
  let r ← fillSources gfpTree rank new recv.num counts bufs sources (fun _ => 0, arrs)
  let trees ← r.2.mapM initialised
  some ⟨trees, new.first, new.last⟩

/-- `p4est_partition_given` on rank `rank`, src/p4est_algorithms.c:2808-3699: the new leaves of the
rank.  `st` is the state of every rank before, `gfq` is `global_first_quadrant`, `gfpTree` the trees of
`global_first_position`, `num` is `new_num_quadrants_in_proc`. -/
def partitionRank (numProcs : ℕ) (gfq : ℕ → ℤ) (gfpTree : List ℤ) (num : ℕ → ℤ)
    (st : ℕ → RankTrees β) (rank : ℕ) : Option (RankTrees β) := do
  let last := oldLast gfq
  let new := newLast num
  let recv ← recvOverlap last new numProcs rank
  let send ← sendOverlap last new numProcs rank
  let numTrees ← numTreesOf gfpTree rank
  let base := lowerBound last rank
  let local_ ← localCounts (st rank) numTrees rank send base
  let msgs ← (List.range numProcs).mapM fun p => do
    let posted ← recvPosted last new gfpTree numProcs rank p
    let m ← sendTo last new gfpTree numProcs (st p) p rank
    transmit posted m
  fillIn gfpTree rank (st rank) recv send base local_ fun p => (msgs[p]?).join

/-- The outcome of `p4est_partition_given` on all ranks. -/
structure Repartition (β : Type) where
  ranks : List (RankTrees β)
  gfq : List ℤ
  shipped : ℤ

/-- `p4est_partition_given`, src/p4est_algorithms.c:2808-3699, on all ranks: the new leaves of
every rank, the new `global_first_quadrant` (3601-3603, the entry 0 keeps its value) and the return
value, which are the same on all ranks. -/
def partitionGiven (numProcs : ℕ) (gfq : ℕ → ℤ) (gfpTree : List ℤ) (num : ℕ → ℤ)
    (st : ℕ → RankTrees β) : Option (Repartition β) := do
  let ranks ← (List.range numProcs).mapM (partitionRank numProcs gfq gfpTree num st)
  some ⟨ranks, (gfq 0) :: (List.range numProcs).map fun i => newLast num i + 1,
    shippedLoop (oldLast gfq) (newLast num) num (numProcs - 1)⟩

end P4est
