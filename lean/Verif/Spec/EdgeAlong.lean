import Verif.Spec.Corner

/-! # Positions along an edge of a tree -/

namespace P4est.Spec

/-- The positions of the cells of the octant along the axis of the edge. -/
def AlongEdge (edge : ℕ) (t : Quad 3) : Set ℤ := {y | ∃ x ∈ Cells t, ∀ i : Fin 3, (i : ℕ) = edge / 4 → x i = y}

/-- The point of the edge at position `y`. -/
def PointOnEdge (edge : ℕ) (y : ℤ) (p : Fin 3 → ℤ) : Prop :=
  ∀ i : Fin 3, p i = if (i : ℕ) = edge / 4 then y
    else if edge.testBit (if (i : ℕ) = 0 ∨ (i : ℕ) = 1 ∧ edge / 4 = 0 then 0 else 1) then 2 ^ 30 else 0

end P4est.Spec
