import Verif.Spec.Profile

/-! # Balanced layers in several columns -/

namespace P4est.Spec

/-- The columns `c` over the columns number 0 to `num - 1` of the mesh are a balanced refinement of `layers`: each one
fills the height `h`, refines the given one, is balanced in itself, and layers at the same height in columns that
`touch` differ by at most one level. -/
structure BalancedLayers (num h : ℕ) (touch : ℕ → ℕ → Prop) (layers c : ℕ → List ℕ) : Prop where
  column : ∀ e < num, Column 0 (c e) h
  refines : ∀ e < num, Finer (layers e) (c e)
  graded : ∀ e < num, Graded (c e)
  balanced : ∀ e < num, ∀ e' < num, touch e e' → FaceBalanced (c e) (c e')

end P4est.Spec
