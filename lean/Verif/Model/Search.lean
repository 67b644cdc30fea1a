import Verif.Model.Complete

/-! # Searches in sorted arrays: src/p4est_search.c -/

namespace P4est

variable {d : ℕ} {α : Type}

/-- Condition of src/p4est_search.c:120, `comp <= 0 && (guess > 0 && compare (q, cur - 1) <= 0)`;
`none` is an access out of bounds. -/
def roomBelow (a : List (Quad d)) (q : Quad d) (guess : ℕ) (comp : ℤ) : Option Bool :=
  if comp ≤ 0 ∧ 0 < guess then (a[guess - 1]?).map fun p => decide (compare q p ≤ 0) else some false

/-- The loop of `p4est_find_lower_bound`, src/p4est_search.c:110-138.  The inner `none` is the
return value -1. -/
def lowerLoop (a : List (Quad d)) (q : Quad d) (low high guess : ℕ) : Option (Option ℕ) := do
  let cur ← a[guess]?
  let below ← roomBelow a q guess (compare q cur)
  if below then lowerLoop a q low (guess - 1) ((low + (guess - 1) + 1) / 2)
  else if compare q cur > 0 then
    if guess + 1 > high then some none
    else lowerLoop a q (guess + 1) high ((guess + 1 + high) / 2)
  else some (some guess)
partial_fixpoint

/-- `p4est_find_lower_bound`, src/p4est_search.c:94-141. -/
def findLowerBound (a : List (Quad d)) (q : Quad d) (guess : ℕ) : Option (Option ℕ) :=
  if a.length = 0 then some none else lowerLoop a q 0 (a.length - 1) guess

/-- Condition of src/p4est_search.c:169-170. -/
def roomAbove (a : List (Quad d)) (q : Quad d) (guess : ℕ) (comp : ℤ) : Option Bool :=
  if comp ≤ 0 ∧ guess < a.length - 1 then (a[guess + 1]?).map fun p => decide (compare p q ≤ 0)
  else some false

/-- The loop of `p4est_find_higher_bound`, src/p4est_search.c:159-191. -/
def higherLoop (a : List (Quad d)) (q : Quad d) (low high guess : ℕ) : Option (Option ℕ) := do
  let cur ← a[guess]?
  let above ← roomAbove a q guess (compare cur q)
  if above then higherLoop a q (guess + 1) high ((guess + 1 + high) / 2)
  else if compare cur q > 0 then
    if guess = 0 then some none
    else if guess - 1 < low then some none
    else higherLoop a q low (guess - 1) ((low + (guess - 1) + 1) / 2)
  else some (some guess)
partial_fixpoint

/-- `p4est_find_higher_bound`, src/p4est_search.c:143-194. -/
def findHigherBound (a : List (Quad d)) (q : Quad d) (guess : ℕ) : Option (Option ℕ) :=
  if a.length = 0 then some none else higherLoop a q 0 (a.length - 1) guess

/-- The loop of `p4est_find_quadrant_cumulative`, src/p4est_search.c:218-245.  The trees are given
by their `quadrants_offset` and number of local quadrants.  The indices are signed. -/
def cumulativeLoop (trees : List (ℤ × ℕ)) (id : ℤ) (low high guess : ℤ) : Option (ℤ × ℤ) :=
  if guess < 0 then none
  else do
    let t ← trees[guess.toNat]?
    if id < t.1 then cumulativeLoop trees id low (guess - 1) ((low + (guess - 1)).tdiv 2)
    else if id ≥ t.1 + t.2 then cumulativeLoop trees id (guess + 1) high ((guess + 1 + high).tdiv 2)
    else some (guess, id - t.1)
partial_fixpoint

/-- `p4est_find_quadrant_cumulative`, src/p4est_search.c:196-246: tree and position in the tree.
`hint` is `*which_tree`, if given and not -1. -/
def findCumulative (trees : List (ℤ × ℕ)) (firstLocal lastLocal : ℤ) (id : ℤ) (hint : Option ℤ) :
    Option (ℤ × ℤ) :=
  cumulativeLoop trees id firstLocal lastLocal (hint.getD ((firstLocal + lastLocal).tdiv 2))

/-- `sc_array_split` of libsc (not in the tree), by its contract: for an array sorted by type,
`offsets[j]` for `j = 0..num_types` is the number of entries with a smaller type. -/
def scArraySplit (types : List ℕ) (numTypes : ℕ) : List ℕ :=
  (List.range (numTypes + 1)).map fun j => (types.filter (· < j)).length

/-- `type_fn_global_quad_index`, src/p4est_search.c:50-65. -/
def partitionType (myBegin myEnd x : ℤ) : ℕ :=
  if x < myBegin then 0
  else if myBegin ≤ x ∧ myEnd > x then 1
  else if myEnd ≤ x then 2
  else 0

/-- `p4est_find_partition`, src/p4est_search.c:67-92. -/
def findPartition (searchIn : List ℤ) (myBegin myEnd : ℤ) : Option (ℕ × ℕ) := do
  let offsets := scArraySplit (searchIn.map (partitionType myBegin myEnd)) 3
  let b ← offsets[1]?
  let e ← offsets[2]?
  some (b, e)

/-- `p4est_split_array`, src/p4est_search.c:248-292: the offsets for a branch of the given level. -/
def splitArray (a : List (Quad d)) (level : ℕ) : List ℕ :=
  if a.length = 0 then List.replicate (2 ^ d + 1) 0
  else scArraySplit (a.map fun q => ancestorId q (level + 1)) (2 ^ d)

end P4est
