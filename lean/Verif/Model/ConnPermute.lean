import Verif.Model.GhostCorner

/-! # Model of `p4est_connectivity_permute` and `p4est_connectivity_reduce`, in two dimensions -/

namespace P4est

/-- A connectivity: face tables, corner tables and `tree_to_vertex`, which is `none` without vertices.  The array
`tree_to_corner` is empty where the pointer is NULL.  Coordinates of vertices and attributes of trees are left out;
`p4est_connectivity_permute` touches neither of them. -/
structure TreeConn where
  faces : FaceConn
  corners : CornerConn
  ttv : Option (List ℕ)

/-- The inverse of the permutation, src/p4est_connectivity.c:4174-4181.  `mem` is what the new array contains at first. -/
def invertPerm (mem : List ℕ) (inperm : List ℕ) (ntrees : ℕ) : Option (List ℕ) :=
  (List.range ntrees).foldlM (fun perm ti => do
    let mapti ← inperm[ti]?
    if mapti < perm.length then some (perm.set mapti ti) else none) mem

/-- New numbers for the first `count` entries of a table of trees, src/p4est_connectivity.c:4186-4191 and 4204-4210. -/
def renameTrees (perm : List ℕ) (count : ℕ) (l : List ℕ) : Option (List ℕ) :=
  (List.range count).foldlM (fun l i => do
    let tj ← l[i]?
    let v ← perm[tj]?
    some (l.set i v)) l

/-- `sc_array_permute` of libsc, which is not part of the repository, on an array of `n` elements of `w` entries: the element
with number `i` moves to the position `perm[i]`. -/
def permuteRows {β : Type} (w n : ℕ) (perm : List ℕ) (l : List β) : List β :=
  (List.range n).flatMap fun i => (l.drop (w * perm.idxOf i)).take w

/-- `p4est_connectivity_permute`, src/p4est_connectivity.c:4156-4250.  Without vertices, `sc_array_permute` is called with the
pointer NULL; it accesses the array unless the permutation is the identity. -/
def connPermute (mem : List ℕ) (conn : TreeConn) (inperm : List ℕ) (isCurrentToNew : Bool) : Option TreeConn := do
  let n := conn.faces.numTrees
  let perm ← (if isCurrentToNew then some inperm else invertPerm mem inperm n)
  let ttt ← renameTrees perm (4 * n) conn.faces.treeToTree
  let count ← conn.corners.cttOffset[conn.corners.numCorners]?
  let ctt ← renameTrees perm count conn.corners.cornerToTree
  let ttv ← match conn.ttv with
    | some ttv => some (some (permuteRows 4 n perm ttv))
    | none => if perm = List.range n then some none else none
  some ⟨⟨n, permuteRows 4 n perm ttt, permuteRows 4 n perm conn.faces.treeToFace⟩,
    { conn.corners with treeToCorner := permuteRows 4 n perm conn.corners.treeToCorner, cornerToTree := ctt }, ttv⟩

/-- `p4est_connectivity_reduce`, src/p4est_connectivity.c:4132-4155: the corner tables are removed.  The array `ctt_offset` keeps
its length; only its first entry is used from then on. -/
def connReduce (conn : TreeConn) : TreeConn := { conn with corners := ⟨0, [], [0], [], []⟩ }

end P4est
