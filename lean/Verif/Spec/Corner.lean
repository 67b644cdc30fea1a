import Verif.Spec.BalanceSeeds

/-! # The corners of a tree -/

namespace P4est.Spec

/-- The cell of the tree at the corner `corner`: bit `i` of the corner chooses the upper end of axis `i`. -/
def cellInside (d corner : ℕ) : Fin d → ℤ := fun i => if corner.testBit i then 2 ^ 30 - 1 else 0

/-- The cell opposite to it, diagonally across the corner. -/
def cellAcross (d corner : ℕ) : Fin d → ℤ := fun i => if corner.testBit i then 2 ^ 30 else -1

/-- The quadrant has a cell at the edge `edge` of the tree.  The edges of number `4 a` to `4 a + 3` run along axis
`a`; bit 0 of the number chooses the end of the first, bit 1 that of the second of the other two axes. -/
def AtEdge (edge : ℕ) (t : Quad 3) : Prop :=
  ∃ x ∈ Cells t, ∀ i : Fin 3, (i : ℕ) ≠ edge / 4 →
    x i = if edge.testBit (if (i : ℕ) = 0 ∨ (i : ℕ) = 1 ∧ edge / 4 = 0 then 0 else 1) then 2 ^ 30 - 1 else 0

/-- The quadrant has a cell diagonally across the edge from the tree. -/
def AcrossEdge (edge : ℕ) (t : Quad 3) : Prop :=
  ∃ x ∈ Cells t, ∀ i : Fin 3, (i : ℕ) ≠ edge / 4 →
    x i = if edge.testBit (if (i : ℕ) = 0 ∨ (i : ℕ) = 1 ∧ edge / 4 = 0 then 0 else 1) then 2 ^ 30 else -1

end P4est.Spec
