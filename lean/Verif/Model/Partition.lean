import Mathlib.Data.Rat.Floor
import Verif.Model.Linear

/-! # The partition of the forest among ranks: src/p4est_communication.c

MPI collectives are modelled by their effect: after `MPI_Allgather` every rank holds the array of
the contributions of all ranks.  Arrays that are read at computed indices are lists with checked
access, `none` is an access out of bounds. -/

namespace P4est

variable {d : ℕ}

/-- An entry of `p4est->global_first_position` (src/p4est.h, `p4est_t`): a tree number and the
coordinates of a quadrant, whose level is always `P4EST_QMAXLEVEL`. -/
structure GPos (d : ℕ) where
  tree : ℤ
  c : Fin d → ℤ

instance : DecidableEq (GPos d) := fun a b =>
  decidable_of_iff (a.tree = b.tree ∧ ∀ i, a.c i = b.c i)
    ⟨fun h => by cases a; cases b; simp only [GPos.mk.injEq] at *; exact ⟨h.1, funext h.2⟩,
     fun h => by subst h; exact ⟨rfl, fun _ => rfl⟩⟩

/-- The quadrant stored in an entry of `global_first_position`. -/
def GPos.quad (g : GPos d) : Quad d := ⟨g.c, QMAXLEVEL⟩

/-! ### Counts -/

/-- The loop of src/p4est_communication.c:337-339 after `i` iterations:
`global_first_quadrant[i + 1] += global_first_quadrant[i]`. -/
def prefixLoop (g : ℕ → ℤ) : ℕ → ℕ → ℤ
  | 0 => g
  | i + 1 => Function.update (prefixLoop g i) (i + 1) (prefixLoop g i (i + 1) + prefixLoop g i i)

/-- `p4est_comm_count_quadrants`, src/p4est_communication.c:322-341, the array
`global_first_quadrant` (positions beyond `num_procs` are not part of it). `loc p` is
`local_num_quadrants` of rank `p`. -/
def countQuadrants (loc : ℕ → ℤ) (numProcs : ℕ) : ℕ → ℤ :=
  prefixLoop (fun i => match i with | 0 => 0 | i + 1 => loc i) numProcs

/-- `p4est_partition_cut_gloidx`, src/p4est_base.h:527-552 (and `p4est_partition_cut_uint64`,
src/p4est_base.h:500-524).  `rnd` is the rounding of the `long double` operations: one for the
product and one for the quotient; the conversion to integer truncates.  The conversions of the
integer arguments to floating point are exact for the argument ranges (63 and 31 bits) of an
extended precision `long double`. -/
def partitionCut (rnd : ℚ → ℚ) (globalNum : ℕ) (p numProcs : ℕ) : ℤ :=
  if p = numProcs then globalNum
  else ⌊rnd (rnd ((globalNum : ℚ) * p) / numProcs)⌋

/-- `p4est_comm_global_first_quadrant`, src/p4est_communication.c:411-427. -/
def globalFirstQuadrant (rnd : ℚ → ℚ) (globalNum numProcs : ℕ) (i : ℕ) : ℤ :=
  if i = 0 then 0
  else if i < numProcs then partitionCut rnd globalNum i numProcs
  else globalNum

/-! ### Positions -/

/-- What a rank contributes in `p4est_comm_global_partition`, src/p4est_communication.c:358-386:
tree and corner of its first leaf, or negative values.  The leaves of the rank are given
as the list of (tree, leaf) in order of storage. -/
def rankInput : List (ℕ × Quad d) → GPos d
  | [] => ⟨-1, fun _ => -1⟩
  | (t, q) :: _ => ⟨t, q.c⟩

/-- The loop of src/p4est_communication.c:394-408 over `i = n - 1, ..., 0`: entries of empty ranks
are overwritten with the next entry. -/
def backfill (g : ℕ → GPos d) : ℕ → ℕ → GPos d
  | 0 => g
  | i + 1 => backfill (if (g i).tree < 0 then Function.update g i (g (i + 1)) else g) i

/-- `p4est_comm_global_partition`, src/p4est_communication.c:343-409: the array
`global_first_position` with `num_procs + 1` entries. -/
def globalPartition (leaves : ℕ → List (ℕ × Quad d)) (numProcs numTrees : ℕ) : List (GPos d) :=
  (List.range (numProcs + 1)).map
    (backfill (fun i => if i = numProcs then ⟨numTrees, fun _ => 0⟩ else rankInput (leaves i)) numProcs)

/-! ### Ownership -/

/-- `p4est_comm_is_empty_gfq`, src/p4est_communication.c:606-613. -/
def isEmptyGfq (gfq : List ℤ) (p : ℕ) : Option Bool := do
  let a ← gfq[p]?
  let b ← gfq[p + 1]?
  some (decide (a = b))

/-- `p4est_comm_is_empty_gfp`, src/p4est_communication.c:615-622 with
`p4est_quadrant_is_equal_piggy` (src/p4est_bits.c:353-359: tree, level and coordinates). -/
def isEmptyGfp (gfp : List (GPos d)) (p : ℕ) : Option Bool := do
  let a ← gfp[p]?
  let b ← gfp[p + 1]?
  some (decide (a = b))

/-- "q begins on a lower processor", src/p4est_communication.c:697-708 and 757-771. -/
def beginsBefore (cur : GPos d) (tree : ℤ) (q : Quad d) : Bool :=
  decide (tree < cur.tree) ||
    (decide (tree = cur.tree) && decide (compare q cur.quad < 0) && decide (∃ i, q.c i ≠ cur.c i))

/-- "q lies on a higher processor", src/p4est_communication.c:712-724 and 777-791. -/
def beginsAfter (cur : GPos d) (tree : ℤ) (q : Quad d) : Bool :=
  decide (tree > cur.tree) ||
    (decide (tree = cur.tree) && (decide (compare cur.quad q ≤ 0) || decide (∀ i, q.c i = cur.c i)))

/-- `p4est_comm_is_owner_gfp`, src/p4est_communication.c:683-730. -/
def isOwner (gfp : List (GPos d)) (tree : ℤ) (q : Quad d) (rank : ℕ) : Option Bool := do
  let cur ← gfp[rank]?
  if beginsBefore cur tree q then some false
  else do
    let next ← gfp[rank + 1]?
    if beginsAfter next tree q then some false else some true

/-- `p4est_comm_is_contained`, src/p4est_communication.c:624-669. -/
def isContained (gfp : List (GPos d)) (tree : ℤ) (q : Quad d) (rank : ℕ) : Option Bool := do
  let cur ← gfp[rank]?
  if beginsBefore cur tree q then some false
  else do
    let next ← gfp[rank + 1]?
    if tree > next.tree ∨ (tree = next.tree ∧ compare next.quad (lastDesc q QMAXLEVEL) ≤ 0) then some false
    else some true

/-- The loop of `p4est_comm_find_owner`, src/p4est_communication.c:751-799. -/
def ownerLoop (gfp : List (GPos d)) (tree : ℤ) (q : Quad d) (low high guess : ℤ) : Option ℤ :=
  if guess < 0 then none
  else do
    let cur ← gfp[guess.toNat]?
    if beginsBefore cur tree q then
      ownerLoop gfp tree q low (guess - 1) ((low + (guess - 1) + 1).tdiv 2)
    else do
      let next ← gfp[guess.toNat + 1]?
      if beginsAfter next tree q then
        ownerLoop gfp tree q (guess + 1) high ((guess + 1 + high).tdiv 2)
      else some guess
partial_fixpoint

/-- `p4est_comm_find_owner`, src/p4est_communication.c:732-807. -/
def findOwner (gfp : List (GPos d)) (numProcs : ℕ) (tree : ℤ) (q : Quad d) (guess : ℤ) : Option ℤ :=
  ownerLoop gfp tree q 0 (numProcs - 1) guess

/-! ### Neighborhood -/

/-- `full_tree` of `p4est_comm_tree_info`, src/p4est_communication.c:822-838. -/
def fullTree (gfp : List (GPos d)) (rank : ℕ) (firstLocal lastLocal tree : ℤ) : Option (Bool × Bool) := do
  let first ← gfp[rank]?
  let next ← gfp[rank + 1]?
  some (decide (tree > firstLocal) || decide (∀ i, first.c i = 0),
    decide (tree < lastLocal) || decide (∀ i, next.c i = 0))

/-- `tree_contact` of `p4est_comm_tree_info`, src/p4est_communication.c:840-847: the face is
connected to another face.  `tree_to_tree` and `tree_to_face` are functions of tree and face. -/
def treeContact (treeToTree treeToFace : ℕ → ℕ → ℕ) (tree face : ℕ) : Bool :=
  decide (treeToTree tree face ≠ tree) || decide (treeToFace tree face ≠ face)

/-- `p4est_comm_neighborhood_owned`, src/p4est_communication.c:857-918. -/
def neighborhoodOwned (gfp : List (GPos d)) (numProcs rank : ℕ) (tree : ℤ) (full : Bool × Bool)
    (contact : ℕ → Bool) (q : Quad d) : Option Bool :=
  if full.1 && full.2 then
    some (!decide (∃ i : Fin d, (contact (2 * i) = true ∧ q.c i = 0) ∨
      (contact (2 * i + 1) = true ∧ q.c i = rootLen - qlen q.level)))
  else
    let n0 : Quad d := ⟨fun i => q.c i - qlen q.level, q.level⟩
    let n1 : Quad d := ⟨fun i => q.c i + qlen q.level, q.level⟩
    if (∀ i, 0 ≤ n0.c i) ∧ (∀ i, n1.c i < rootLen) then do
      let p0 ← findOwner gfp numProcs tree n0 rank
      if p0 = rank then do
        let p1 ← findOwner gfp numProcs tree (lastDesc n1 QMAXLEVEL) rank
        some (decide (p1 = rank))
      else some false
    else some false

end P4est
