import Verif.Spec.BalanceSeeds

/-! # Specification of the border of a tree -/

namespace P4est.Spec

variable {d : ℕ}

/-- A border of the part of a tree from `f` to `l` with the given leaves: quadrants outside of this part,
leaves, and quadrants inside of leaves that are listed too, which are first children. -/
structure BorderOf (f l : Quad d) (leaves border : List (Quad d)) : Prop where
  extended : ∀ b ∈ border, Extended b
  cases : ∀ b ∈ border, Cells b ∩ Section f l = ∅ ∨ b ∈ leaves ∨
    (childId b = 0 ∧ ∃ q ∈ leaves, q ∈ border ∧ Cells b ⊂ Cells q)

/-- The quadrants of the border that are properly inside of `q`. -/
def SeedsIn (border : List (Quad d)) (q : Quad d) : Set (Quad d) := {b | b ∈ border ∧ Cells b ⊂ Cells q}

end P4est.Spec
