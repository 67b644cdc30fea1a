import Verif.Spec.Forest

/-! # Specification of the arrays for saving a forest -/

namespace P4est.Spec

/-- The number of leaves in the first `t` trees, for `t` from zero to the number of trees. -/
def leavesBefore {β : Type} (trees : List (List β)) : List ℤ :=
  (List.range (trees.length + 1)).map fun t => (((trees.take t).map List.length).sum : ℕ)

end P4est.Spec
