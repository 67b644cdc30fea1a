import Verif.Model.File

/-! # Equality of connectivities

Models p4est_connectivity_is_equal of src/p4est_connectivity.c. -/

namespace P4est

/-- `memcmp (a, b, n)` for `n` elements, whether the result is not zero.  `none` means that an array is read past
its end.  The comparison of the bytes of numbers is modelled by that of the numbers. -/
def memDiffers {α : Type*} [DecidableEq α] (n : ℕ) (a b : List α) : Option Bool :=
  if n ≤ a.length ∧ n ≤ b.length then some (decide (a.take n ≠ b.take n)) else none

/-- A sequence of tests `if (test) return 0;` with `return 1` at its end. -/
def returnZeroIfAny : List (Option Bool) → Option Bool
  | [] => some true
  | none :: _ => none
  | some true :: _ => some false
  | some false :: l => returnZeroIfAny l

/-- The tests after the comparison of the numbers, src/p4est_connectivity.c:1171-1243, in their order; an operand
of `||` is a test of its own.  `num_ett` and `num_ctt` are read before the tests that use them; `none` means that
this read is outside of the array. -/
def connTests (d : ℕ) (c1 c2 : ConnFile) : List (Option Bool) :=
  [if c1.numVertices > 0 then memDiffers (3 * c1.numVertices * 8) c1.vertices c2.vertices else some false,
   if c1.numVertices > 0 then memDiffers (2 ^ d * c1.numTrees) c1.treeToVertex c2.treeToVertex else some false,
   if d = 3 ∧ c1.numEdges > 0 then memDiffers (12 * c1.numTrees) c1.treeToEdge c2.treeToEdge else some false,
   if c1.numCorners > 0 then memDiffers (2 ^ d * c1.numTrees) c1.treeToCorner c2.treeToCorner else some false,
   memDiffers (2 * d * c1.numTrees) c1.treeToTree c2.treeToTree,
   memDiffers (2 * d * c1.numTrees) c1.treeToFace c2.treeToFace,
   some (decide (decide (c1.attr = []) ≠ decide (c2.attr = []))),
   some (decide (c1.attrBytes ≠ c2.attrBytes)),
   if c1.attr ≠ [] then memDiffers (c1.numTrees * c1.attrBytes) c1.attr c2.attr else some false] ++
  (if d = 3 then
    [c1.ettOffset[c1.numEdges]?.map fun _ => false,
     memDiffers (c1.numEdges + 1) c1.ettOffset c2.ettOffset,
     c1.ettOffset[c1.numEdges]?.bind fun n => memDiffers n.toNat c1.edgeToTree c2.edgeToTree,
     c1.ettOffset[c1.numEdges]?.bind fun n => memDiffers n.toNat c1.edgeToEdge c2.edgeToEdge] else []) ++
  [c1.cttOffset[c1.numCorners]?.map fun _ => false,
   memDiffers (c1.numCorners + 1) c1.cttOffset c2.cttOffset,
   c1.cttOffset[c1.numCorners]?.bind fun n => memDiffers n.toNat c1.cornerToTree c2.cornerToTree,
   c1.cttOffset[c1.numCorners]?.bind fun n => memDiffers n.toNat c1.cornerToCorner c2.cornerToCorner]

/-- `p4est_connectivity_is_equal`, src/p4est_connectivity.c:1147-1246. -/
def connIsEqual (d : ℕ) (c1 c2 : ConnFile) : Option Bool :=
  if c1.numVertices ≠ c2.numVertices ∨ c1.numTrees ≠ c2.numTrees ∨ (d = 3 ∧ c1.numEdges ≠ c2.numEdges) ∨
    c1.numCorners ≠ c2.numCorners then some false
  else returnZeroIfAny (connTests d c1 c2)

end P4est
