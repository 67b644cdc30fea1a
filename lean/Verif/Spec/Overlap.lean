import Verif.Spec.BalanceSeeds
import Verif.Spec.Tree
import Verif.Spec.Balance

/-! # Specification of quadrants that touch -/

namespace P4est.Spec

variable {d : ℕ}

/-- The quadrants, including their boundaries, have a point in common. -/
def Touching (a b : Quad d) : Prop := ∀ i, a.c i ≤ b.c i + side b ∧ b.c i ≤ a.c i + side a

/-- The leaves `L` of the part of a tree from `f` to `l`, as far as they matter for the quadrant `q` from
elsewhere: where a quadrant of the size of `q` that touches `q` meets this part, at least one of the leaves is inside
of it or contains it. -/
structure LeavesFor (f l q : Quad d) (L : List (Quad d)) : Prop where
  valid : ∀ x ∈ L, Valid x
  linear : Linear L
  inside : ∀ x ∈ L, Cells x ⊆ Section f l
  apart : ∀ x ∈ L, Cells x ∩ Cells q = ∅
  some_ : L ≠ []
  found : ∀ s, Valid s → s.level = q.level → s ≠ q → Touching s q → (Cells s ∩ Section f l).Nonempty →
    ∃ x ∈ L, Cells x ⊆ Cells s ∨ Cells s ⊆ Cells x

end P4est.Spec
