import Verif.Spec.Basic

/-! # Quadrants that belong to the leaves of a process -/

namespace P4est.Spec

/-- Every cell of the quadrant of tree `t` belongs to one of the leaves. -/
def WithinLeaves {d : ℕ} (leaves : List (ℕ × Quad d)) (t : ℕ) (q : Quad d) : Prop :=
  ∀ p ∈ Cells q, ∃ x ∈ leaves, x.1 = t ∧ p ∈ Cells x.2

end P4est.Spec
