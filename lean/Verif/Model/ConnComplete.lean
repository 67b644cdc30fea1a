import Verif.Model.GhostCorner

/-! # Model of `p4est_connectivity_complete`

The function finds the connections between trees from `tree_to_vertex`.  The faces are modelled in two and three
dimensions, the corners in two.  In the code one loop over the trees treats the faces and then the corners of each
tree; the two parts use different data and are two loops here. -/

namespace P4est

/-- The inner loop of `p4est_topidx_bsort`, src/p4est_base.h:487-493, at an element `a` and the elements after it:
neighbors that are out of order are swapped, from the first to the last. -/
def bubbleFrom (a : ℕ) : List ℕ → List ℕ
  | [] => [a]
  | b :: l => if a > b then b :: bubbleFrom a l else a :: bubbleFrom b l

/-- The inner loop of `p4est_topidx_bsort`, src/p4est_base.h:487-493, over a range. -/
def bubblePass : List ℕ → List ℕ
  | [] => []
  | a :: l => bubbleFrom a l

/-- The outer loop of `p4est_topidx_bsort`, src/p4est_base.h:485-494, with `i` turns left: the turn with `i` orders the
first `i + 1` elements. -/
def topidxBsort : ℕ → List ℕ → List ℕ
  | 0, l => l
  | i + 1, l => topidxBsort i (bubblePass (l.take (i + 2)) ++ l.drop (i + 2))

/-- `p4est_conn_face_key`, src/p4est_connectivity.c:3392-3403: the vertices of a face in order. -/
def faceKey (d : ℕ) (ttv : List ℕ) (tree face : ℕ) : Option (List ℕ) := do
  let key ← (List.range (2 ^ (d - 1))).mapM fun fc => do
    let c ← entry (faceCornersTable d) face fc
    ttv[2 ^ d * tree + c]?
  some (topidxBsort (2 ^ (d - 1) - 1) key)

/-- `p4est_conn_face_info_t`, src/p4est_connectivity.c:3362-3369.  The second tree and face are not read after they are
written, and are left out. -/
structure FaceRecord where
  key : List ℕ
  tree : ℕ
  face : ℕ

/-- The loop that finds the orientation, src/p4est_connectivity.c:3824-3831: the first corner of the secondary face at the
vertex, or the number of corners if there is none. -/
def findOrientation (d : ℕ) (ttv : List ℕ) (nodeid stree sface : ℕ) : ℕ → ℕ → Option ℕ
  | r, 0 => some r
  | r, n + 1 => do
    let c ← entry (faceCornersTable d) sface r
    let v ← ttv[2 ^ d * stree + c]?
    if nodeid = v then some r else findOrientation d ttv nodeid stree sface (r + 1) n

/-- The connection of two faces, src/p4est_connectivity.c:3816-3839. -/
def connectFaces (d : ℕ) (ttv : List ℕ) (conn : FaceConn) (tree0 face0 tree1 face1 : ℕ) : Option FaceConn := do
  let (ptree, pface) := if face0 ≤ face1 then (tree0, face0) else (tree1, face1)
  let (stree, sface) := if face0 ≤ face1 then (tree1, face1) else (tree0, face0)
  let c ← entry (faceCornersTable d) pface 0
  let nodeid ← ttv[2 ^ d * ptree + c]?
  let r ← findOrientation d ttv nodeid stree sface 0 (2 ^ (d - 1))
  some { conn with
    treeToTree := (conn.treeToTree.set (2 * d * tree0 + face0) tree1).set (2 * d * tree1 + face1) tree0
    treeToFace := (conn.treeToFace.set (2 * d * tree0 + face0) (2 * d * r + face1)).set (2 * d * tree1 + face1) (2 * d * r + face0) }

/-- One turn of the loop over the faces, src/p4est_connectivity.c:3797-3841.  The hash array is a list of its entries in
the order of their creation; the hash function has no effect on what is found. -/
def completeFaceStep (d : ℕ) (ttv : List ℕ) (s : FaceConn × List FaceRecord) (x : ℕ × ℕ) : Option (FaceConn × List FaceRecord) := do
  let key ← faceKey d ttv x.1 x.2
  match s.2.find? fun fi => fi.key = key with
  | none => some (s.1, s.2 ++ [⟨key, x.1, x.2⟩])
  | some fi => do
    let conn ← connectFaces d ttv s.1 fi.tree fi.face x.1 x.2
    some (conn, s.2)

/-- The trees and their faces or corners in the order of the loops. -/
def treeLoop (numTrees n : ℕ) : List (ℕ × ℕ) :=
  (List.range numTrees).flatMap fun t => (List.range n).map fun i => (t, i)

/-- The face part of `p4est_connectivity_complete`, src/p4est_connectivity.c:3794-3914.  The entries of faces without a
partner are left as they were. -/
def completeFaces (d : ℕ) (conn : FaceConn) (ttv : List ℕ) : Option FaceConn := do
  let s ← (treeLoop conn.numTrees (2 * d)).foldlM (completeFaceStep d ttv) (conn, [])
  some s.1

/-- One turn of the loop over the corners, src/p4est_connectivity.c:3889-3909: the arrays `tree_to_corner` and `node_trees`
with `node_corners`. -/
def completeNodeStep (ttv : List ℕ) (s : List ℤ × List (List (ℕ × ℕ))) (x : ℕ × ℕ) : Option (List ℤ × List (List (ℕ × ℕ))) := do
  let nodeid ← ttv[4 * x.1 + x.2]?
  let l ← s.2[nodeid]?
  some (s.1.set (4 * x.1 + x.2) nodeid, s.2.set nodeid (l ++ [x]))

/-- The test for a redundant corner, src/p4est_connectivity.c:4072-4087: `true` if some corner of a tree in the list finds
another one that is not met across a face. -/
def cornerNeeded (conn : FaceConn) (l : List (ℕ × ℕ)) : List (ℕ × ℕ) → Option Bool
  | [] => some false
  | x :: rest => do
    let distinct ← cornerDistinct conn x.1 x.2
    if (l.filter fun e => decide (e ∉ distinct)) = [] then cornerNeeded conn l rest else some true

/-- The variables of the loop over the vertices: `tree_to_corner`, `real_corners`, `ctt_offset` up to `ctt_corner`, and
`corner_to_tree` and `corner_to_corner` up to `ctt_offset`.  What the code writes beyond is overwritten by the next
vertex or cut off at the end. -/
structure CompleteState where
  ttc : List ℤ
  realCorners : ℕ
  offsets : List ℕ
  trees : List ℕ
  corners : List ℕ

/-- Sets the entries of the corners in a list to -1, src/p4est_connectivity.c:4045-4053, 4089-4098. -/
def clearCorners (ttc : List ℤ) (l : List (ℕ × ℕ)) : List ℤ :=
  l.foldl (fun ttc x => ttc.set (4 * x.1 + x.2) (-1)) ttc

/-- Subtracts `real_corners` from the entries of the corners in a list, src/p4est_connectivity.c:4057-4070. -/
def shiftCorners (ttc : List ℤ) (real : ℕ) (l : List (ℕ × ℕ)) : Option (List ℤ) :=
  l.foldlM (fun ttc x => (ttc[4 * x.1 + x.2]?).map fun v => ttc.set (4 * x.1 + x.2) (v - real)) ttc

/-- One turn of the loop over the vertices, src/p4est_connectivity.c:4038-4107. -/
def completeCornerStep (conn : FaceConn) (s : CompleteState) (l : List (ℕ × ℕ)) : Option CompleteState :=
  if l.length ≤ 1 then some { s with ttc := clearCorners s.ttc l, realCorners := s.realCorners + 1 }
  else do
    let ttc ← shiftCorners s.ttc s.realCorners l
    if ← cornerNeeded conn l l then
      some { s with ttc := ttc, offsets := s.offsets ++ [s.trees.length],
                    trees := s.trees ++ l.map Prod.fst, corners := s.corners ++ l.map Prod.snd }
    else some { s with ttc := clearCorners ttc l, realCorners := s.realCorners + 1 }

/-- The corner part of `p4est_connectivity_complete`, src/p4est_connectivity.c:3777-3791, 3889-3909 and 4030-4118, in two
dimensions. -/
def completeCorners (conn : FaceConn) (ttv : List ℕ) (numVertices : ℕ) : Option CornerConn := do
  let s ← (treeLoop conn.numTrees 4).foldlM (completeNodeStep ttv)
    (List.replicate (4 * conn.numTrees) (-1), List.replicate numVertices [])
  let e ← s.2.foldlM (completeCornerStep conn) ⟨s.1, 0, [], [], []⟩
  some ⟨numVertices - e.realCorners, e.ttc, e.offsets ++ [e.trees.length], e.trees, e.corners⟩

/-- `p4est_connectivity_complete`, src/p4est_connectivity.c:3724-4131, in two dimensions. -/
def connComplete (conn : FaceConn) (ttv : List ℕ) (numVertices : ℕ) : Option (FaceConn × CornerConn) := do
  let conn' ← completeFaces 2 conn ttv
  let cc ← completeCorners conn' ttv numVertices
  some (conn', cc)

end P4est
