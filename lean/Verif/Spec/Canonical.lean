import Mathlib.Logic.Relation
import Verif.Model.Canonical
import Verif.Spec.GhostCorner

/-! # Points of trees that are the same point of the mesh -/

namespace P4est.Spec

variable {d : ℕ}

/-- The point `x` of a tree on a face is the point `y` of the tree that is connected there. -/
def StepFace (conn : FaceConn) (x y : ℕ × (Fin d → ℤ)) : Prop :=
  ∃ f nf o T, f < 2 * d ∧ nf < 2 * d ∧ conn.treeToTree[2 * d * x.1 + f]? = some y.1 ∧
    conn.treeToFace[2 * d * x.1 + f]? = some (nf + 2 * d * o) ∧ (y.1 ≠ x.1 ∨ nf ≠ f) ∧ Glues f nf o T ∧ OnFace f x.2 ∧ y.2 = T x.2

/-- The corner `x` of a tree is listed in the corner tables as the same as the corner `y`. -/
def StepCorner (cc : CornerConn) (x y : ℕ × (Fin 2 → ℤ)) : Prop :=
  ∃ c c', c < 4 ∧ c' < 4 ∧ SameCorner cc (x.1, c) (y.1, c') ∧ x.2 = cornerPoint c ∧ y.2 = cornerPoint c'

/-- The same point of the mesh, in two dimensions. -/
def SamePoint (conn : FaceConn) (cc : CornerConn) : ℕ × (Fin 2 → ℤ) → ℕ × (Fin 2 → ℤ) → Prop :=
  Relation.EqvGen fun x y => StepFace conn x y ∨ StepCorner cc x y

/-- The tables tell about each corner of each tree all corners of trees that are the same point: the trees are connected by a face there,
or the corner tables list them as the same. -/
def CornersComplete (conn : FaceConn) (cc : CornerConn) : Prop :=
  ∀ t c y, t < conn.numTrees → c < 4 → SamePoint conn cc (t, cornerPoint c) y →
    y = (t, cornerPoint c) ∨ StepFace conn (t, cornerPoint c) y ∨ StepCorner cc (t, cornerPoint c) y

/-- `x` comes before `y` or is equal: its tree has a lower number, or the tree is the same and the point is not after the other one on the
space filling curve. -/
def NotAfter (x y : ℕ × (Fin d → ℤ)) : Prop := x.1 < y.1 ∨ (x.1 = y.1 ∧ curve x.2 ≤ curve y.2)

/-- A point that is not on the boundary of the tree, or in the interior of one of its faces. -/
def OffEdges (x : Fin d → ℤ) : Prop := ∀ f g, f < 2 * d → g < 2 * d → OnFace f x → OnFace g x → f = g

/-- Moves a point by the length of a tree across corner `c`. -/
def acrossCorner (c : ℕ) (x : Fin 2 → ℤ) : Fin 2 → ℤ := fun i => if c.testBit i then x i + 2 ^ 30 else x i - 2 ^ 30

/-- The transformation of the coordinates is the map `T`, and the reverse one undoes it in both directions, whatever the output contained
before. -/
def Realizes (n : NeighborTransform d) (T : (Fin d → ℤ) → Fin d → ℤ) : Prop :=
  (∀ x, neighborCoordinates n x = T x) ∧ (∀ mem x, neighborCoordinatesReverse mem n (T x) = x) ∧
    ∀ mem y, T (neighborCoordinatesReverse mem n y) = y

end P4est.Spec
