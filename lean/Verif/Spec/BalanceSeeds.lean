import Verif.Spec.Balance

/-! # Specification of the balance between two quadrants

A mesh is here a set of quadrants that covers a box without overlap.  The box may be larger than one
tree: neighboring trees are addressed in the coordinates of one of them. -/

namespace P4est.Spec

variable {d : ℕ}

/-- The points from `lo` to `hi`. -/
def BoxOf (lo hi : Fin d → ℤ) : Set (Fin d → ℤ) := {x | ∀ i, lo i ≤ x i ∧ x i < hi i}

/-- The points of one tree. -/
def TreeBox (d : ℕ) : Set (Fin d → ℤ) := BoxOf (fun _ => 0) (fun _ => 2 ^ 30)

/-- The box consists of whole trees. -/
def WholeTrees (lo hi : Fin d → ℤ) : Prop := ∀ i, (2 : ℤ) ^ 30 ∣ lo i ∧ (2 : ℤ) ^ 30 ∣ hi i

/-- The quadrants `U` cover `D` without overlap. -/
structure Paves (D : Set (Fin d → ℤ)) (U : Set (Quad d)) : Prop where
  legal : ∀ u ∈ U, Aligned u ∧ u.level ≤ 29
  disjoint : ∀ u ∈ U, ∀ v ∈ U, (Cells u ∩ Cells v).Nonempty → u = v
  cover : ∀ x, x ∈ D ↔ ∃ u ∈ U, x ∈ Cells u

/-- Quadrants that share a piece of their boundaries of codimension at most `k` differ by at most one
level. -/
def GradedBy (k : ℕ) (U : Set (Quad d)) : Prop := ∀ u ∈ U, ∀ v ∈ U, Touch k u v → u.level ≤ v.level + 1

/-- In every balanced mesh of `D` in which no quadrant of `S` is inside a coarser one, `r` is divided:
there is no quadrant that contains all of it. -/
def Divides (D : Set (Fin d → ℤ)) (k : ℕ) (S : Set (Quad d)) (r : Quad d) : Prop :=
  ∀ U, Paves D U → GradedBy k U → (∀ s ∈ S, ∀ u ∈ U, ¬ Cells s ⊂ Cells u) → ∀ u ∈ U, ¬ Cells r ⊆ Cells u

/-- The number of axes along which `q` is not within `p`. -/
def axesOutside (q p : Quad d) : ℕ :=
  (Finset.univ.filter fun i => ¬ (p.c i ≤ q.c i ∧ q.c i + side q ≤ p.c i + side p)).card

end P4est.Spec
