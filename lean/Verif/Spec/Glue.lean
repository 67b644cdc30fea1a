import Mathlib.LinearAlgebra.Matrix.Determinant.Basic
import Verif.Spec.Basic
import Verif.Model.Connectivity

/-! # Trees glued together at a face

Points of a tree are integer vectors; the tree itself is the cube `[0, 2^30]^d`.  Faces are numbered
`-x, +x, -y, +y, -z, +z`, corners by their binary digits, and the corners of a face by increasing corner
number.  Two trees that share a face see each other through a map of the coordinates of the one to the
coordinates of the other. -/

namespace P4est.Spec

variable {d : ℕ}

/-- The points of a tree, with its boundary. -/
def InCube (x : Fin d → ℤ) : Prop := ∀ i, 0 ≤ x i ∧ x i ≤ 2 ^ 30

/-- Moves a point by the length of a tree across face `f`. -/
def across (f : ℕ) (x : Fin d → ℤ) : Fin d → ℤ :=
  fun i => if (i : ℕ) = f / 2 then (if f % 2 = 1 then x i + 2 ^ 30 else x i - 2 ^ 30) else x i

/-- The points of face `f` of a tree. -/
def OnFace (f : ℕ) (x : Fin d → ℤ) : Prop :=
  InCube x ∧ ∀ i : Fin d, (i : ℕ) = f / 2 → x i = if f % 2 = 1 then 2 ^ 30 else 0

/-- Corner `k` of a tree. -/
def cornerPoint (k : ℕ) : Fin d → ℤ := fun i => if k.testBit i then 2 ^ 30 else 0

/-- The number of the `j`-th corner on face `f` of a tree. -/
def faceCorner (d f j : ℕ) : Option ℕ :=
  ((List.range (2 ^ d)).filter fun k => k.testBit (f / 2) == (f % 2 == 1))[j]?

/-- `T` maps the coordinates of a tree to those of its neighbor, where face `f` of the tree is face `nf` of the
neighbor and the connection has the orientation `o`.  It permutes the axes, with changes of direction and
offsets; it maps the one face to the other, the cube beyond face `f` onto the neighbor and the tree itself to
the cube beyond face `nf` of the neighbor.  The orientation is that of the documentation
(src/p4est_connectivity.h:159-161, src/p8est_connectivity.h:165-173): the first corner of the face with the
lower number is corner `o` of the other face.  In three dimensions both coordinate systems have the same
hand. -/
structure Glues (f nf o : ℕ) (T : (Fin d → ℤ) → Fin d → ℤ) : Prop where
  rigid : ∃ (a : Fin d → Fin d) (s b : Fin d → ℤ), Function.Injective a ∧ (∀ i, s i = 1 ∨ s i = -1) ∧
    ∀ x i, T x i = s i * x (a i) + b i
  face : ∀ x, OnFace f x ↔ OnFace nf (T x)
  into : ∀ x, InCube x ↔ InCube (T (across f x))
  own : ∀ x, InCube x ↔ ∃ y, InCube y ∧ T x = across nf y
  corner : ∀ k k', (f ≤ nf → faceCorner d f 0 = some k ∧ faceCorner d nf o = some k') →
    (nf < f → faceCorner d f o = some k ∧ faceCorner d nf 0 = some k') → T (cornerPoint k) = cornerPoint k'
  hand : d = 3 → Matrix.det (Matrix.of fun i j => T (Pi.single i 1) j - T 0 j) = 1

/-- The points of a quadrant, with its boundary. -/
def Box (q : Quad d) : Set (Fin d → ℤ) := {x | ∀ i, q.c i ≤ x i ∧ x i ≤ q.c i + side q}

/-- The face tables of a mesh of trees fit together: for each face of each tree there are an entry of a tree and
an entry made of a face number and an orientation (`face + 2 d * orientation`), and the entries of that face
of that tree lead back with the same orientation.  A face that is connected to itself is a boundary of the
domain; it has the orientation zero. -/
structure FaceConsistent (d : ℕ) (conn : FaceConn) : Prop where
  trees : conn.treeToTree.length = 2 * d * conn.numTrees
  faces : conn.treeToFace.length = 2 * d * conn.numTrees
  range : ∀ t f t' c, t < conn.numTrees → f < 2 * d → conn.treeToTree[2 * d * t + f]? = some t' →
    conn.treeToFace[2 * d * t + f]? = some c → t' < conn.numTrees ∧ c < 2 * d * 2 ^ (d - 1)
  back : ∀ t f t' nf o, t < conn.numTrees → f < 2 * d → nf < 2 * d → conn.treeToTree[2 * d * t + f]? = some t' →
    conn.treeToFace[2 * d * t + f]? = some (nf + 2 * d * o) →
    conn.treeToTree[2 * d * t' + nf]? = some t ∧ conn.treeToFace[2 * d * t' + nf]? = some (f + 2 * d * o)
  boundary : ∀ t f o, t < conn.numTrees → f < 2 * d → conn.treeToTree[2 * d * t + f]? = some t →
    conn.treeToFace[2 * d * t + f]? = some (f + 2 * d * o) → o = 0

end P4est.Spec
