import Verif.Model.Neighbor

/-! # Face connections between trees

Models the face tables and functions of src/p4est_connectivity.c and src/p8est_connectivity.c, the face
transformations of src/p4est_bits.c and `p4est_quadrant_face_neighbor_extra`.  The C source is compiled
with `P4EST_DIM` 2 and 3; where the two differ the model asks for `d = 3`. -/

namespace P4est

variable {d : ℕ}

/-- Access to a two-dimensional C table; `none` is an access out of bounds. -/
def entry {β : Type} (t : List (List β)) (i j : ℕ) : Option β := t[i]?.bind fun r => r[j]?

/-- A table entry used as an index: the entry -1 (meaning "not present") is not a legal one. -/
def index (z : ℤ) : Option ℕ := if 0 ≤ z then some z.toNat else none

/-- `p4est_face_corners`, src/p4est_connectivity.c:40-44, and `p8est_face_corners`,
src/p8est_connectivity.c:31-37. -/
def faceCornersTable (d : ℕ) : List (List ℕ) :=
  if d = 3 then
    [[0, 2, 4, 6],
     [1, 3, 5, 7],
     [0, 1, 4, 5],
     [2, 3, 6, 7],
     [0, 1, 2, 3],
     [4, 5, 6, 7]]
  else
    [[0, 2],
     [1, 3],
     [0, 1],
     [2, 3]]

/-- `p4est_corner_face_corners`, src/p4est_connectivity.c:54-58, and `p8est_corner_face_corners`,
src/p8est_connectivity.c:172-180. -/
def cornerFaceCornersTable (d : ℕ) : List (List ℤ) :=
  if d = 3 then
    [[ 0, -1,  0, -1,  0, -1],
     [-1,  0,  1, -1,  1, -1],
     [ 1, -1, -1,  0,  2, -1],
     [-1,  1, -1,  1,  3, -1],
     [ 2, -1,  2, -1, -1,  0],
     [-1,  2,  3, -1, -1,  1],
     [ 3, -1, -1,  2, -1,  2],
     [-1,  3, -1,  3, -1,  3]]
  else
    [[ 0, -1,  0, -1],
     [-1,  0,  1, -1],
     [ 1, -1, -1,  0],
     [-1,  1, -1,  1]]

/-- `p8est_face_permutations`, src/p8est_connectivity.c:48-56. -/
def facePermutations : List (List ℕ) :=
  [[0, 1, 2, 3],
   [0, 2, 1, 3],
   [1, 0, 3, 2],
   [1, 3, 0, 2],
   [2, 0, 3, 1],
   [2, 3, 0, 1],
   [3, 1, 2, 0],
   [3, 2, 1, 0]]

/-- `p8est_face_permutation_sets`, src/p8est_connectivity.c:57-60. -/
def facePermutationSets : List (List ℕ) :=
  [[1, 2, 5, 6],
   [0, 3, 4, 7],
   [0, 4, 3, 7]]

/-- `p8est_face_permutation_refs`, src/p8est_connectivity.c:61-67. -/
def facePermutationRefs : List (List ℕ) :=
  [[0, 1, 1, 0, 0, 1],
   [2, 0, 0, 1, 1, 0],
   [2, 0, 0, 1, 1, 0],
   [0, 2, 2, 0, 0, 1],
   [0, 2, 2, 0, 0, 1],
   [2, 0, 0, 2, 2, 0]]

/-- `p8est_face_edge_permutations`, src/p8est_connectivity.c:69-77. -/
def faceEdgePermutations : List (List ℕ) :=
  [[0, 1, 2, 3],
   [0, 1, 3, 2],
   [1, 0, 2, 3],
   [1, 0, 3, 2],
   [2, 3, 0, 1],
   [2, 3, 1, 0],
   [3, 2, 0, 1],
   [3, 2, 1, 0]]

/-- `p8est_face_edge_permutation_sets`, src/p8est_connectivity.c:78-81. -/
def faceEdgePermutationSets : List (List ℕ) :=
  [[4, 1, 2, 7],
   [0, 6, 5, 3],
   [0, 5, 6, 3]]

/-- `p8est_face_edges`, src/p8est_connectivity.c:38-44. -/
def faceEdgesTable : List (List ℕ) :=
  [[4, 6,  8, 10],
   [5, 7,  9, 11],
   [0, 2,  8,  9],
   [1, 3, 10, 11],
   [0, 1,  4,  5],
   [2, 3,  6,  7]]

/-- `p8est_edge_face_edges`, src/p8est_connectivity.c:139-151. -/
def edgeFaceEdgesTable : List (List ℤ) :=
  [[-1, -1,  0, -1,  0, -1],
   [-1, -1, -1,  0,  1, -1],
   [-1, -1,  1, -1, -1,  0],
   [-1, -1, -1,  1, -1,  1],
   [ 0, -1, -1, -1,  2, -1],
   [-1,  0, -1, -1,  3, -1],
   [ 1, -1, -1, -1, -1,  2],
   [-1,  1, -1, -1, -1,  3],
   [ 2, -1,  2, -1, -1, -1],
   [-1,  2,  3, -1, -1, -1],
   [ 3, -1, -1,  2, -1, -1],
   [-1,  3, -1,  3, -1, -1]]

/-- `p4est_connectivity_face_neighbor_face_corner`, src/p4est_connectivity.c:82-106. -/
def faceNeighborFaceCorner (d fc f nf o : ℕ) : Option ℕ :=
  if d = 3 then do
    let pref ← entry facePermutationRefs f nf
    let pset ← entry facePermutationSets pref o
    entry facePermutations pset fc
  else some (fc ^^^ o)

/-- `p4est_connectivity_face_neighbor_corner`, src/p4est_connectivity.c:108-126. -/
def faceNeighborCorner (d c f nf o : ℕ) : Option ℕ := do
  let e ← entry (cornerFaceCornersTable d) c f
  let fc ← index e
  let nfc ← faceNeighborFaceCorner d fc f nf o
  entry (faceCornersTable d) nf nfc

/-- `p8est_connectivity_face_neighbor_face_edge`, src/p8est_connectivity.c:1640-1657. -/
def faceNeighborFaceEdge (fe f nf o : ℕ) : Option ℕ := do
  let pref ← entry facePermutationRefs f nf
  let pset ← entry faceEdgePermutationSets pref o
  entry faceEdgePermutations pset fe

/-- `p8est_connectivity_face_neighbor_edge`, src/p8est_connectivity.c:1659-1676. -/
def faceNeighborEdge (e f nf o : ℕ) : Option ℕ := do
  let z ← entry edgeFaceEdgesTable e f
  let fe ← index z
  let nfe ← faceNeighborFaceEdge fe f nf o
  entry faceEdgesTable nf nfe

/-- The array `ftransform[9]`: `my_axis` (entries 0-2), `target_axis` (3-5) and `edge_reverse` (6-8). -/
structure FTransform where
  my0 : ℕ
  my1 : ℕ
  my2 : ℕ
  target0 : ℕ
  target1 : ℕ
  target2 : ℕ
  reverse0 : ℕ
  reverse1 : ℕ
  reverse2 : ℕ
deriving DecidableEq

/-- `p4est_expand_face_transform_internal`, src/p4est_connectivity.c:3448-3503.  In three dimensions `reverse`
(here `swap` and `back`) says to which of two entries a value is written. -/
def expandFaceInternal (d iface target orientation : ℕ) : Option FTransform :=
  if d = 3 then do
    let ri ← entry facePermutationRefs 0 iface
    let rt ← entry facePermutationRefs 0 target
    let rit ← entry facePermutationRefs iface target
    let swap := ri ^^^ rt ^^^ (if orientation = 0 ∨ orientation = 3 then 1 else 0)
    let a := if target < 2 then 1 else 0
    let b := if target < 4 then 2 else 1
    let back := if rit = 1 then 1 else 0
    let u := orientation &&& 1
    let v := orientation >>> 1
    some ⟨if iface < 2 then 1 else 0, if iface < 4 then 2 else 1, iface / 2,
      if swap = 0 then a else b, if swap = 0 then b else a, target / 2,
      if back = 0 then u else v, if back = 0 then v else u, 2 * (iface &&& 1) + (target &&& 1)⟩
  else
    some ⟨1 - iface / 2, 0, iface / 2, 1 - target / 2, 0, target / 2, orientation, 0,
      2 * (iface &&& 1) + (target &&& 1)⟩

/-- `p4est_expand_face_transform`, src/p4est_connectivity.c:3505-3513. -/
def expandFaceTransform (d iface nface : ℕ) : Option FTransform :=
  expandFaceInternal d iface (nface % (2 * d)) (nface / (2 * d))

/-- `*my_xyz[a]`: the coordinate of axis `a`, out of bounds if there is no such axis. -/
def readAxis (x : Fin d → ℤ) (a : ℕ) : Option ℤ := if h : a < d then some (x ⟨a, h⟩) else none

/-- `*target_xyz[a] = v`. -/
def writeAxis (y : Fin d → ℤ) (a : ℕ) (v : ℤ) : Option (Fin d → ℤ) :=
  if h : a < d then some (Function.update y ⟨a, h⟩ v) else none

/-- The assignment along a tangential axis, src/p4est_bits.c:2009-2017 (`top` is `P4EST_ROOT_LEN`) and
2095-2101 (`top` is `Rmh`). -/
def faceTangential (my target reverse : ℕ) (top : ℤ) (x y : Fin d → ℤ) : Option (Fin d → ℤ) := do
  let v ← readAxis x my
  writeAxis y target (if reverse = 0 then v else top - v)

/-- The `switch` for the normal axis, src/p4est_bits.c:2018-2034 (`mh = 0`) and 2102-2117. -/
def faceNormalValue (reverse : ℕ) (mh v : ℤ) : Option ℤ :=
  match reverse with
  | 0 => some (mh - v)
  | 1 => some (v + rootLen)
  | 2 => some (v - rootLen)
  | 3 => some (rootLen + (rootLen + mh) - v)
  | _ => none

/-- The assignments of the coordinates in p4est_coordinates_transform_face and
p4est_quadrant_transform_face.  `mem` is what the output contained before. -/
def faceAssign (mem : Fin d → ℤ) (ft : FTransform) (mh : ℤ) (x : Fin d → ℤ) : Option (Fin d → ℤ) :=
  (faceTangential ft.my0 ft.target0 ft.reverse0 (rootLen + mh) x mem).bind fun y0 =>
  (if d = 3 then faceTangential ft.my1 ft.target1 ft.reverse1 (rootLen + mh) x y0 else some y0).bind fun y1 =>
  (readAxis x ft.my2).bind fun v =>
  (faceNormalValue ft.reverse2 mh v).bind fun w =>
  writeAxis y1 ft.target2 w

/-- `p4est_coordinates_transform_face`, src/p4est_bits.c:1968-2034.  The value in case 3 is
`P4EST_ROOT_LEN + (P4EST_ROOT_LEN - v)`, equal to that of the other function with `mh = 0`. -/
def coordinatesTransformFace (mem : Fin d → ℤ) (x : Fin d → ℤ) (ft : FTransform) : Option (Fin d → ℤ) :=
  faceAssign mem ft 0 x

/-- `p4est_quadrant_transform_face`, src/p4est_bits.c:2035-2156.  At the level `P4EST_MAXLEVEL` of a node
`mh` is zero and the sum `tRmh` is not representable in 32 bits, as the comment in the code says; the model
has unbounded integers. -/
def quadrantTransformFace (mem : Fin d → ℤ) (q : Quad d) (ft : FTransform) : Option (Quad d) :=
  (faceAssign mem ft (if q.level = MAXLEVEL then 0 else -qlen q.level) q.c).map fun c => ⟨c, q.level⟩

/-- The face tables of `p4est_connectivity_t`, src/p4est_connectivity.h:178-235: `tree_to_tree` and
`tree_to_face`.  The other tables are not part of this type. -/
structure FaceConn where
  numTrees : ℕ
  treeToTree : List ℕ
  treeToFace : List ℕ

/-- `p4est_find_face_transform`, src/p4est_connectivity.c:3515-3541.  The result -1 at the boundary of the
domain is `some none`; `none` is an access out of bounds. -/
def findFaceTransform (d : ℕ) (conn : FaceConn) (itree iface : ℕ) : Option (Option (ℕ × FTransform)) := do
  let targetTree ← conn.treeToTree[2 * d * itree + iface]?
  let code ← conn.treeToFace[2 * d * itree + iface]?
  if targetTree = itree ∧ code % (2 * d) = iface then some none
  else (expandFaceInternal d iface (code % (2 * d)) (code / (2 * d))).map fun ft => some (targetTree, ft)

/-- `p4est_quadrant_face_neighbor_extra`, src/p4est_bits.c:1350-1385: tree, quadrant and `*nface`.  The
result -1, with the quadrant itself in `r`, is `some none`. -/
def faceNeighborExtra (mem : Fin d → ℤ) (conn : FaceConn) (q : Quad d) (t face : ℕ) : Option (Option (ℕ × Quad d × ℕ)) :=
  let r := faceNeighbor q face
  if isInsideRoot r then some (some (t, r, face ^^^ 1))
  else (findFaceTransform d conn t face).bind fun flag =>
    match flag with
    | none => some none
    | some (nt, ft) =>
      (quadrantTransformFace mem r ft).bind fun s =>
      (conn.treeToFace[t * (2 * d) + face]?).map fun code => some (nt, s, code)

/-- The face part of `p4est_connectivity_is_valid`, src/p4est_connectivity.c:974-1020: each entry is in
range, a face connected to itself has orientation zero, and all other connections are reciprocal.  The
entries are natural numbers here, so the tests for negative ones are left out. -/
def faceCheck (d : ℕ) (conn : FaceConn) (tree face : ℕ) : Option Bool := do
  let ntree ← conn.treeToTree[tree * (2 * d) + face]?
  let rface ← conn.treeToFace[tree * (2 * d) + face]?
  if ntree ≥ conn.numTrees ∨ rface ≥ 2 * d * 2 ^ (d - 1) then some false
  else if ntree = tree ∧ rface % (2 * d) = face ∧ rface / (2 * d) ≠ 0 then some false
  else if ntree ≠ tree ∨ rface % (2 * d) ≠ face then do
    let back ← conn.treeToTree[ntree * (2 * d) + rface % (2 * d)]?
    let backFace ← conn.treeToFace[ntree * (2 * d) + rface % (2 * d)]?
    some (back = tree ∧ backFace = face + 2 * d * (rface / (2 * d)))
  else some true

end P4est
