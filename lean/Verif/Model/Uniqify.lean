import Verif.Model.Overlap
import Verif.Model.Balance

/-! # Removal of superfluous seeds: src/p4est_algorithms.c -/

namespace P4est

variable {d : ℕ} {ι : Type}

/-- `p4est_quadrant_compare_piggy`, src/p4est_bits.c:455-471, for quadrants with their trees. -/
def comparePiggy (a b : ℕ × Quad d) : ℤ :=
  if a.1 = b.1 then compare a.2 b.2 else if a.1 < b.1 then -1 else 1

/-- See `sortPiggy`. -/
def insertPiggy (a : ℕ × Quad d) : List (ℕ × Quad d) → List (ℕ × Quad d)
  | [] => [a]
  | b :: bs => if comparePiggy a b ≤ 0 then a :: b :: bs else b :: insertPiggy a bs

/-- `sc_array_sort` of libsc (not in the tree) with `p4est_quadrant_compare_piggy`, by its contract. -/
def sortPiggy (l : List (ℕ × Quad d)) : List (ℕ × Quad d) := l.foldr insertPiggy []

/-- The loop of `p4est_tree_uniqify_overlap`, src/p4est_algorithms.c:1218-1243.  `q` is the entry written
last. -/
def uniqifyLoop : ℕ × Quad d → List (ℕ × Quad d) → List (ℕ × Quad d)
  | q, [] => [q]
  | q, p :: ps =>
    if q.1 = p.1 ∧ (nca p.2 q.2).level + 1 ≥ min q.2.level p.2.level then
      if p.2.level > q.2.level then uniqifyLoop p ps else uniqifyLoop q ps
    else q :: uniqifyLoop p ps

/-- `p4est_tree_uniqify_overlap`, src/p4est_algorithms.c:1200-1246. -/
def uniqifyOverlap (out : List (ℕ × Quad d)) : List (ℕ × Quad d) :=
  match sortPiggy out with
  | [] => []
  | q :: ps => uniqifyLoop q ps

/-- `p4est_balance_response`, src/p4est.c:1213-1238: the arrays `send_second` and, afterwards,
`recv_first` of a peer.  The statistics are left out. -/
def balanceResponse (k : ℕ) (trees : ℕ → List (Quad d) × Quad d × Quad d)
    (emit : OverlapIn d ι → Quad d → List (ℕ × Quad d)) (recvFirst : List (OverlapIn d ι)) :
    Option (List (ℕ × Quad d) × List (ℕ × Quad d)) := do
  let r ← computeOverlap k trees emit recvFirst
  some (uniqifyOverlap r.1, uniqifyOverlap r.2)

end P4est
