import Verif.Spec.Ghost
import Verif.Model.GhostCorner

/-! # Specification of the corners of trees and of leaves with a common point, in two dimensions -/

namespace P4est.Spec

/-- Corner `c` of tree `t` is in the list of the corner numbered `k`. -/
def Listed (cc : CornerConn) (k t c : ℕ) : Prop :=
  ∃ a b i, cc.cttOffset[k]? = some a ∧ cc.cttOffset[k + 1]? = some b ∧ a ≤ i ∧ i < b ∧
    cc.cornerToTree[i]? = some t ∧ cc.cornerToCorner[i]? = some c

/-- The arrays have the lengths that the numbers of trees and corners require. -/
structure CornerArrays (numTrees : ℕ) (cc : CornerConn) : Prop where
  entries : cc.numCorners ≠ 0 → cc.treeToCorner.length = 4 * numTrees
  offsets : cc.cttOffset.length = cc.numCorners + 1
  trees : cc.cttOffset[cc.numCorners]? = some cc.cornerToTree.length
  corners : cc.cornerToCorner.length = cc.cornerToTree.length

/-- The corner tables fit together.  The lists are consecutive and name corners of trees.  Each corner of each tree has
the entry -1 or the number of a corner; the list of that corner names it exactly once, and names only corners
of trees that have the same entry. -/
structure CornerConsistent (numTrees : ℕ) (cc : CornerConn) : Prop where
  arrays : CornerArrays numTrees cc
  ordered : ∀ k a b, cc.cttOffset[k]? = some a → cc.cttOffset[k + 1]? = some b → a ≤ b
  tree : ∀ t ∈ cc.cornerToTree, t < numTrees
  corner : ∀ c ∈ cc.cornerToCorner, c < 4
  range : cc.numCorners ≠ 0 → ∀ t c v, t < numTrees → c < 4 → cc.treeToCorner[4 * t + c]? = some v →
    v = -1 ∨ ∃ k : ℕ, v = k ∧ k < cc.numCorners ∧ Listed cc k t c
  once : ∀ t c k a b i j, t < numTrees → c < 4 → k < cc.numCorners → cc.treeToCorner[4 * t + c]? = some (k : ℤ) →
    cc.cttOffset[k]? = some a → cc.cttOffset[k + 1]? = some b → a ≤ i → i < b → a ≤ j → j < b →
    cc.cornerToTree[i]? = some t → cc.cornerToCorner[i]? = some c →
    cc.cornerToTree[j]? = some t → cc.cornerToCorner[j]? = some c → i = j
  back : ∀ t c k t' c', t < numTrees → c < 4 → k < cc.numCorners → cc.treeToCorner[4 * t + c]? = some (k : ℤ) →
    Listed cc k t' c' → cc.treeToCorner[4 * t' + c']? = some (k : ℤ)

/-- The list of the corner of the first names the second. -/
def SameCorner (cc : CornerConn) (x y : ℕ × ℕ) : Prop :=
  ∃ k < cc.numCorners, cc.treeToCorner[4 * x.1 + x.2]? = some (k : ℤ) ∧ Listed cc k y.1 y.2

/-- Two leaves have a common point in the same tree, or on faces of trees that are connected. -/
def MeetFace (conn : FaceConn) (x y : ℕ × Quad 2) : Prop :=
  (x.1 = y.1 ∧ (Box x.2 ∩ Box y.2).Nonempty) ∨
  ∃ f nf o T u, f < 4 ∧ nf < 4 ∧ conn.treeToTree[4 * x.1 + f]? = some y.1 ∧
    conn.treeToFace[4 * x.1 + f]? = some (nf + 4 * o) ∧ (y.1 ≠ x.1 ∨ nf ≠ f) ∧ Glues f nf o T ∧
    OnFace f u ∧ u ∈ Box x.2 ∧ T u ∈ Box y.2

/-- Two leaves have a common point: in the same tree, on faces of trees that are connected, or at corners of trees that
the corner tables list as the same. -/
def Meet (conn : FaceConn) (cc : CornerConn) (x y : ℕ × Quad 2) : Prop :=
  MeetFace conn x y ∨
  ∃ c c', c < 4 ∧ c' < 4 ∧ SameCorner cc (x.1, c) (y.1, c') ∧ cornerPoint c ∈ Box x.2 ∧ cornerPoint c' ∈ Box y.2

/-- Each corner of a tree that is the same as another one lies on a face of the tree that is connected. -/
def CornersOnFaces (conn : FaceConn) (cc : CornerConn) : Prop :=
  ∀ t c t' c', c < 4 → c' < 4 → SameCorner cc (t, c) (t', c') → (t', c') ≠ (t, c) →
    ∃ f, f < 4 ∧ OnFace f (cornerPoint c : Fin 2 → ℤ) ∧
      ¬ (conn.treeToTree[4 * t + f]? = some t ∧ conn.treeToFace[4 * t + f]? = some f)

end P4est.Spec
