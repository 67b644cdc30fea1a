import Verif.Spec.GhostCorner

/-! # Specification of trees connected by their vertices -/

namespace P4est.Spec

/-- The vertex at corner `c` of tree `t`. -/
def vertexAt (d : ℕ) (ttv : List ℕ) (t c : ℕ) : Option ℕ := ttv[2 ^ d * t + c]?

/-- The numbers of the corners on face `f` of a tree. -/
def cornersOf (d f : ℕ) : List ℕ := (List.range (2 ^ d)).filter fun k => k.testBit (f / 2) == (f % 2 == 1)

/-- Two faces of trees have the same vertices. -/
def FaceMatch (d : ℕ) (ttv : List ℕ) (x y : ℕ × ℕ) : Prop :=
  ((cornersOf d x.2).map (vertexAt d ttv x.1)).Perm ((cornersOf d y.2).map (vertexAt d ttv y.1))

/-- Each corner of each tree has a vertex, and no three faces have the same vertices. -/
structure VertexTable (d numTrees numVertices : ℕ) (ttv : List ℕ) : Prop where
  length : ttv.length = 2 ^ d * numTrees
  range : ∀ v ∈ ttv, v < numVertices
  two : ∀ x y z : ℕ × ℕ, x.1 < numTrees → x.2 < 2 * d → y.1 < numTrees → y.2 < 2 * d → z.1 < numTrees → z.2 < 2 * d →
    FaceMatch d ttv x y → FaceMatch d ttv x z → x = y ∨ x = z ∨ y = z

/-- The tables connect the first face with the second one in the orientation `o`. -/
def Connected (d : ℕ) (conn : FaceConn) (x y : ℕ × ℕ) (o : ℕ) : Prop :=
  conn.treeToTree[2 * d * x.1 + x.2]? = some y.1 ∧ conn.treeToFace[2 * d * x.1 + x.2]? = some (y.2 + 2 * d * o)

/-- The first corner of the face of `x` and corner `o` of the face of `y` have the same vertex. -/
def FirstCorner (d : ℕ) (ttv : List ℕ) (x y : ℕ × ℕ) (o : ℕ) : Prop :=
  ∃ c c', (cornersOf d x.2)[0]? = some c ∧ (cornersOf d y.2)[o]? = some c' ∧ vertexAt d ttv x.1 c = vertexAt d ttv y.1 c'

/-- The corner `y` of a tree is where the corner `x` of a tree is, as seen across a connected face. -/
def AcrossConnected (conn : FaceConn) (x y : ℕ × ℕ) : Prop :=
  ∃ (f nf o : ℕ) (T : (Fin 2 → ℤ) → Fin 2 → ℤ), f < 4 ∧ nf < 4 ∧ Connected 2 conn (x.1, f) (y.1, nf) o ∧ (y.1, nf) ≠ (x.1, f) ∧ Glues f nf o T ∧
    OnFace f (cornerPoint x.2 : Fin 2 → ℤ) ∧ T (cornerPoint x.2) = cornerPoint y.2

end P4est.Spec
