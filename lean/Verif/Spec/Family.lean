import Verif.Spec.Refine

/-! # Families in the global sequence of leaves -/

namespace P4est.Spec

variable {d : ℕ}

/-- The leaves with the global numbers `m, ..., m + 2^d - 1` are the children of one quadrant. -/
def FamilyAt (leaves : List (ℕ × Quad d)) (m : ℕ) : Prop :=
  ∃ t p, Valid p ∧ ∀ k, k < 2 ^ d → leaves[m + k]? = some (t, kid p k)

/-- Number of the leaves `[m, m + C)` on rank `i` of the partition in which rank `i` has the leaves
`[n i, n (i + 1))`. -/
def share (n : ℕ → ℕ) (m C i : ℕ) : ℕ := min (n (i + 1)) (m + C) - max (n i) m

end P4est.Spec
