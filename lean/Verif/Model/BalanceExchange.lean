import Verif.Model.Uniqify
import Verif.Model.BalanceBorder
import Verif.Model.Partition

/-! # Exchange of quadrants in p4est_balance, within one tree: src/p4est.c

The tree has no neighbors.  The processes that have leaves in this tree are numbered from 0; the others take no part
in the exchange, since lines 1171-1174 skip empty processes and the others own no position in the tree. -/

namespace P4est

variable {d : ℕ} {α σ : Type}

/-- The part of the tree on one process: its members `first_desc` and `last_desc` and its leaves. -/
structure Part (d : ℕ) where
  f : Quad d
  l : Quad d
  leaves : List (Quad d)

/-- The process returned by `p4est_comm_find_owner` for a quadrant of the finest level is this one.
Simplification: instead of the search (see `findOwner` and C47) the position is compared with both ends of the part. -/
def Part.owns (P : Part d) (q : Quad d) : Bool := decide (compare P.f q ≤ 0) && decide (compare q P.l ≤ 0)

/-- `p4est_comm_neighborhood_owned`, src/p4est_communication.c:889-917, for a tree that is shared with
other processes. -/
def Part.ownsAround (P : Part d) (q : Quad d) : Bool :=
  decide (∀ i, 0 ≤ (insulQuad q 0).c i) && decide (∀ i, (insulQuad q (3 ^ d - 1)).c i < rootLen) &&
    P.owns (firstDesc (insulQuad q 0) QMAXLEVEL) && P.owns (lastDesc (insulQuad q (3 ^ d - 1)) QMAXLEVEL)

/-- The array `borders` after the first pass, src/p4est.c:1473-1508.  When the tree is not shared with other
processes (lines 1475-1482) it stays empty. -/
def Part.border (P : Part d) : List (Quad d) :=
  if P.f = firstDesc (root d) QMAXLEVEL ∧ P.l = lastDesc (root d) QMAXLEVEL then []
  else P.leaves.filter fun q => !P.ownsAround q

/-- `p4est_balance_schedule`, src/p4est.c:1149-1211, called for all positions around the quadrant at lines 1510-1650:
the quadrant is sent to this part.  The owners of the first and of the last descendant of the position limit the
processes; those are the parts that are not before the first and not behind the last.  Positions
outside of the tree have no receiver.  The quadrant is pushed once, because the pushes for one quadrant follow
each other. -/
def Part.gets (P : Part d) (q : Quad d) : Bool :=
  (List.range (3 ^ d)).any fun w =>
    decide (w ≠ 3 ^ d / 2) && isInsideRoot (insulQuad q w) &&
      decide (compare (firstDesc (insulQuad q w) QMAXLEVEL) P.l ≤ 0) &&
      decide (compare P.f (lastDesc (insulQuad q w) QMAXLEVEL) ≤ 0)

/-- The array `send_first` of `P` for `Q`. -/
def Part.sends (P Q : Part d) : List (Quad d) := P.border.filter Q.gets

/-- `p4est_balance_response`, src/p4est.c:1213-1238, for one tree. -/
def Part.respond (k : ℕ) (P : Part d) (recvFirst : List (Quad d)) : Option (List (ℕ × Quad d) × List (ℕ × Quad d)) :=
  balanceResponse k (fun _ => (P.border, P.f, P.l)) (fun _ _ => [])
    (recvFirst.map fun q => (⟨q, 0, ()⟩ : OverlapIn d Unit))

/-- The array `borders` after the received quadrants are merged, src/p4est.c:2263-2306: for each other process `j`
what is left of `recv_first` and the answer `recv_second`.  The messages (lines 1655-2253) arrive unchanged. -/
def mergedBorder (k n : ℕ) (Ps : ℕ → Part d) (i : ℕ) : Option (List (Quad d)) := do
  let rs ← (List.range n).mapM fun j =>
    if j = i then some [] else do
      let mine ← (Ps i).respond k ((Ps j).sends (Ps i))
      let theirs ← (Ps j).respond k ((Ps i).sends (Ps j))
      some ((mine.2 ++ theirs.1).map Prod.snd)
  some ((Ps i).border ++ rs.flatten)

/-- `p4est_balance_ext`, src/p4est.c:1248-2378, for a tree without neighbors that is shared by `n` processes: process
`i` balances its part (`first`, lines 1440-1483), gets the border quadrants of the others and balances its border
(lines 2308-2330).  `ts` are the trees of all processes before, `s` is the user state of this one. -/
def balanceShared (bs : (Quad d → ℤ) → List (Quad d) → Option ℕ) (init : Quad d → σ → α × σ) (k n : ℕ)
    (ends : ℕ → Quad d × Quad d) (ts : ℕ → Tree d α) (ss : ℕ → σ) (i : ℕ) : Option (Tree d α × σ) := do
  let firsts ← (List.range n).mapM fun j => balanceSubtree bs init k (ends j).1 (ends j).2 (ts j) (ss j)
  let me ← firsts[i]?
  let B ← mergedBorder k n (fun j => ⟨(ends j).1, (ends j).2, (firsts[j]?).elim [] fun x => x.1.quads.toList.map Leaf.q⟩) i
  let r ← balanceBorder bs init k (ends i).1 (ends i).2 B me.1 me.2.1
  some (r.1, r.2.1)

end P4est
