import Verif.Spec.ConnComplete

/-! # Specification of connectivities with joined faces -/

namespace P4est.Spec

/-- A corner of a tree has the number of a corner of the connectivity. -/
def CornerStored (cc : CornerConn) (x : ℕ × ℕ) : Prop := ∃ k < cc.numCorners, cc.treeToCorner[4 * x.1 + x.2]? = some (k : ℤ)

/-- The tables say that two corners of trees are at the same point: they are listed as the same corner, or they meet across a
connected face. -/
def AtPoint (conn : FaceConn) (cc : CornerConn) (x y : ℕ × ℕ) : Prop := x = y ∨ SameCorner cc x y ∨ AcrossConnected conn x y

/-- Without corners, the array of entries is missing or has only -1. -/
def CornerTable (n : ℕ) (cc : CornerConn) : Prop :=
  cc.numCorners = 0 → cc.treeToCorner = [] ∨ (cc.treeToCorner.length = 4 * n ∧ ∀ v ∈ cc.treeToCorner, v = -1)

/-- Corners of trees that meet across faces are treated alike.  If one has a number, then the other is in its list.  If it
has none, then the other has none either, and meets no further corner. -/
structure CornersClosed (conn : FaceConn) (cc : CornerConn) : Prop where
  table : CornerTable conn.numTrees cc
  numbered : ∀ x y : ℕ × ℕ, x.1 < conn.numTrees → x.2 < 4 → y.2 < 4 → AcrossConnected conn x y → CornerStored cc x → SameCorner cc x y
  free : ∀ x y : ℕ × ℕ, x.1 < conn.numTrees → x.2 < 4 → y.2 < 4 → AcrossConnected conn x y → ¬ CornerStored cc x →
    ¬ CornerStored cc y ∧ ∀ z : ℕ × ℕ, z.2 < 4 → AcrossConnected conn y z → z = x ∨ AcrossConnected conn x z

/-- The smallest equivalence of corners of trees that contains the given relation. -/
def Chain (n : ℕ) (r : ℕ × ℕ → ℕ × ℕ → Prop) : ℕ × ℕ → ℕ × ℕ → Prop :=
  Relation.EqvGen fun a b => a.1 < n ∧ a.2 < 4 ∧ b.1 < n ∧ b.2 < 4 ∧ r a b

end P4est.Spec
