import Verif.Model.Neighbor

/-! # Descendants at the faces and corners of an ancestor

Models p4est_quadrant_is_ancestor_face and p4est_quadrant_is_ancestor_corner of src/p4est_bits.c. -/

namespace P4est

variable {d : ℕ}

/-- `p4est_quadrant_is_ancestor_face`, src/p4est_bits.c:2721-2756, without the assertions.  The axis is
`face >> 1`; a face with no axis is excluded by an assertion, and here by the type. -/
def isAncestorFace (descendant ancestor : Quad d) (axis : Fin d) (upper : Bool) : Bool :=
  let dx := descendant.c axis + (if upper then qlen descendant.level else 0)
  let ax := ancestor.c axis + (if upper then qlen ancestor.level else 0)
  decide (dx = ax)

/-- `p4est_quadrant_is_ancestor_corner`, src/p4est_bits.c:2758-2806, without the assertions. -/
def isAncestorCorner (descendant ancestor : Quad d) (corner : ℕ) : Bool :=
  decide (∀ i : Fin d, ancestor.c i + (if corner.testBit i then qlen ancestor.level else 0) =
    descendant.c i + (if corner.testBit i then qlen descendant.level else 0))

end P4est
