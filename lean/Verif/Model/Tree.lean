import Verif.Model.Linear

/-! # Leaf arrays of one tree

`sc_array_t` of `p4est_quadrant_t` and the consistency checks of src/p4est_algorithms.c. -/

namespace P4est

variable {d : ℕ}

/-- `p4est_tree_is_sorted`, src/p4est_algorithms.c:225-246.  The loop over consecutive array
entries is written as a recursion over the list of entries. -/
def treeIsSorted : List (Quad d) → Bool
  | q1 :: q2 :: rest => if compare q1 q2 ≥ 0 then false else treeIsSorted (q2 :: rest)
  | _ => true

/-- `p4est_tree_is_linear`, src/p4est_algorithms.c:248-272. -/
def treeIsLinear : List (Quad d) → Bool
  | q1 :: q2 :: rest =>
    if compare q1 q2 ≥ 0 then false
    else if isAncestor q1 q2 then false
    else treeIsLinear (q2 :: rest)
  | _ => true

/-- `p4est_tree_is_complete`, src/p4est_algorithms.c:337-358. -/
def treeIsComplete : List (Quad d) → Bool
  | q1 :: q2 :: rest => if !isNext q1 q2 then false else treeIsComplete (q2 :: rest)
  | _ => true

/-- `face_contact1`, src/p4est_algorithms.c:289-297: one bit per face of the tree that the
quadrant lies beyond.  Written as the pair (below, above) for each axis instead of bits. -/
def faceContact (q : Quad d) : List (Bool × Bool) :=
  (List.finRange d).map fun i => (decide (q.c i < 0), decide (q.c i ≥ rootLen))

/-- Two different `out_axis` entries are nonzero, src/p4est_algorithms.c:310-321: the quadrant is
outside of at least two axes, i.e. beyond an edge (3D) or a corner of the tree. -/
def outTwoAxes (q : Quad d) : Bool :=
  decide (2 ≤ ((faceContact q).filter fun b => b.1 || b.2).length)

/-- `p4est_tree_is_almost_sorted`, src/p4est_algorithms.c:274-335. -/
def treeIsAlmostSorted (checkLinearity : Bool) : List (Quad d) → Bool
  | q1 :: q2 :: rest =>
    if outTwoAxes q2 && decide (faceContact q1 = faceContact q2) then
      treeIsAlmostSorted checkLinearity (q2 :: rest)
    else if compare q1 q2 ≥ 0 then false
    else if checkLinearity && isAncestor q1 q2 then false
    else treeIsAlmostSorted checkLinearity (q2 :: rest)
  | _ => true

/-- A leaf: quadrant and its user data (`p.user_data`, src/p4est.h:100). -/
structure Leaf (d : ℕ) (α : Type) where
  q : Quad d
  data : α

variable {α : Type}

/-- An `sc_array_t` of quadrants: memory contents and `elem_count`.  The contents beyond
`count` are unspecified. -/
structure LArr (d : ℕ) (α : Type) where
  get : ℕ → Leaf d α
  count : ℕ

/-- `sc_array_index`, with the bounds check of the debug build: `none` is an access out of
bounds. -/
def LArr.index (a : LArr d α) (i : ℕ) : Option (Leaf d α) := if i < a.count then some (a.get i) else none

/-- Assignment to an entry of the array (`*q = ...` for `q = sc_array_index (a, i)`). -/
def LArr.write (a : LArr d α) (i : ℕ) (x : Leaf d α) : Option (LArr d α) :=
  if i < a.count then some ⟨Function.update a.get i x, a.count⟩ else none

/-- `sc_array_resize`: entries that stay in the array are kept. -/
def LArr.resize (a : LArr d α) (n : ℕ) : LArr d α := ⟨a.get, n⟩

/-- The contents of the array. -/
def LArr.toList (a : LArr d α) : List (Leaf d α) := (List.range a.count).map a.get

/-- `p4est_tree_t`, src/p4est.h:130-152 (quadrants, `quadrants_per_level`, `maxlevel`,
`quadrants_offset`).  Counts are unbounded integers: overflow of `p4est_locidx_t` is not
modelled.  `first_desc` and `last_desc` are not changed by the functions using this type. -/
structure Tree (d : ℕ) (α : Type) where
  quads : LArr d α
  perLevel : ℕ → ℤ
  maxlevel : ℕ
  offset : ℤ

/-- Add `n` to one of the level counters. -/
def bump (f : ℕ → ℤ) (l : ℕ) (n : ℤ) : ℕ → ℤ := Function.update f l (f l + n)

end P4est
