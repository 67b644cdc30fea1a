import Verif.Spec.Iterate

/-! # What the mesh tells about the neighbors at the faces: the documentation of `p4est_mesh_t` -/

namespace P4est.Spec

variable {d : ℕ}

/-- The orientation of the connection at face `f` of the quadrant `x` to face `g` of something in tree `t`: 0 inside a tree, and the one
in the connectivity at a face of the tree. -/
def Oriented (conn : FaceConn) (f g o : ℕ) (x : ℕ × Quad d) (t : ℕ) : Prop :=
  (t = x.1 ∧ o = 0 ∧ ∀ b, CellAtFace f x.2 b → ¬ AtFace f b) ∨
  ((∀ b, CellAtFace f x.2 b → AtFace f b) ∧ conn.treeToTree[2 * d * x.1 + f]? = some t ∧
    conn.treeToFace[2 * d * x.1 + f]? = some (g + 2 * d * o))

/-- The entries `q` of `quad_to_quad` and `v` of `quad_to_face` for face `f` of the local leaf `x` with number `j`.  `L` are the local
leaves followed by the ghosts, so that the number of a leaf in the mesh is its position in `L`; `half` is `quad_to_half`. -/
inductive FaceEntry (conn : FaceConn) (L : List (ℕ × Quad d)) (half : List (List ℕ)) (j : ℕ) (x : ℕ × Quad d) (f : ℕ) (q v : ℤ) : Prop
  /-- At the boundary of the domain a quadrant sees itself and its face. -/
  | outside (at_face : ∀ b, CellAtFace f x.2 b → AtFace f b) (tree : conn.treeToTree[2 * d * x.1 + f]? = some x.1)
      (face : conn.treeToFace[2 * d * x.1 + f]? = some f) (quad : q = j) (code : v = f)
  /-- The neighbor `y` has the same size; its face is `g`. -/
  | same (n : ℕ) (y : ℕ × Quad d) (g o : ℕ) (face : g < 2 * d) (orientation : o < 2 ^ (d - 1)) (quad : q = n) (number : L[n]? = some y)
      (common : SameFace conn f g x y) (oriented : Oriented conn f g o x y.1) (code : v = o * (2 * d) + g)
  /-- The neighbor `y` is larger; `x` touches subface `h` of its face `g`. -/
  | double (n : ℕ) (y : ℕ × Quad d) (g o h k : ℕ) (face : g < 2 * d) (orientation : o < 2 ^ (d - 1)) (subface : h < 2 ^ (d - 1))
      (quad : q = n) (number : L[n]? = some y) (corner : faceCorner d g h = some k)
      (common : SameFace conn f g x (y.1, kid y.2 k)) (oriented : Oriented conn f g o x y.1)
      (code : v = 2 * d * 2 ^ (d - 1) + h * (2 * d * 2 ^ (d - 1)) + o * (2 * d) + g)
  /-- The neighbors are smaller, with faces `g`.  They are listed in the order of the corners of face `f` of `x`. -/
  | half (n t : ℕ) (ns : List ℕ) (g o : ℕ) (face : g < 2 * d) (orientation : o < 2 ^ (d - 1)) (quad : q = n) (numbers : half[n]? = some ns)
      (length : ns.length = 2 ^ (d - 1))
      (common : ∀ h < 2 ^ (d - 1), ∃ i y k, ns[h]? = some i ∧ L[i]? = some (t, y) ∧ faceCorner d f h = some k ∧
        SameFace conn f g (x.1, kid x.2 k) (t, y))
      (oriented : Oriented conn f g o x t) (code : v = -(2 * d * 2 ^ (d - 1)) + o * (2 * d) + g)

/-- Face `f` of the leaf lies on the boundary of the domain. -/
def AtBoundary (conn : FaceConn) (x : ℕ × Quad d) (f : ℕ) : Prop :=
  (∀ b, CellAtFace f x.2 b → AtFace f b) ∧ conn.treeToTree[2 * d * x.1 + f]? = some x.1 ∧ conn.treeToFace[2 * d * x.1 + f]? = some f

/-- Ghosts for the mesh of rank `p`: usable for the search, with all leaves of other ranks that have a common part of a face with a local
leaf, and with offsets that tell the owners. -/
structure MeshGhosts (conn : FaceConn) (trees : List (List (Quad d))) (P : ℕ) (leaves : ℕ → List (ℕ × Quad d)) (p : ℕ) (g : GhostLayer d) :
    Prop where
  array : GhostArray trees (leaves p) g
  all : ∀ x ∈ leaves p, ∀ y ∈ forestLeaves trees, ShareFace conn x y → y ∈ leaves p ∨ y ∈ ghostArg (some g)
  owners : ∃ piece, CutInto g.ghosts g.procOffsets P piece ∧ ∀ r < P, ∀ x ∈ piece r, x.1 ∈ leaves r

end P4est.Spec
