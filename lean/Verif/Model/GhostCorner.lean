import Verif.Model.Ghost
import Verif.Model.Neighbor

/-! # Model of the corners of trees and of the ghost layer across corners, in two dimensions -/

namespace P4est

/-- The corner tables of `p4est_connectivity_t`, src/p4est_connectivity.h:162-235: `num_corners`, `tree_to_corner` with -1
for a corner that is not listed, `ctt_offset`, `corner_to_tree` and `corner_to_corner`. -/
structure CornerConn where
  numCorners : ℕ
  treeToCorner : List ℤ
  cttOffset : List ℕ
  cornerToTree : List ℕ
  cornerToCorner : List ℕ

/-- `p4est_corner_faces`, src/p4est_connectivity.c:49-53. -/
def cornerFacesTable : List (List ℕ) := [[0, 2], [1, 2], [0, 3], [1, 3]]

/-- One turn of the loop over the faces in `p4est_find_corner_transform_internal`, src/p4est_connectivity.c:3580-3609: the
corner met across the face is appended to the array `distinct` if it is new. -/
def cornerDistinctStep (conn : FaceConn) (itree icorner : ℕ) (distinct : List (ℕ × ℕ)) (i : ℕ) : Option (List (ℕ × ℕ)) := do
  let iface ← entry cornerFacesTable icorner i
  let ntree ← conn.treeToTree[4 * itree + iface]?
  let ncode ← conn.treeToFace[4 * itree + iface]?
  if ntree ≠ itree ∨ ncode ≠ iface then do
    let nc ← faceNeighborCorner 2 icorner iface (ncode % 4) (ncode / 4)
    some (if (ntree, nc) ∈ distinct then distinct else distinct ++ [(ntree, nc)])
  else some distinct

/-- The array `distinct` of `p4est_find_corner_transform_internal`, src/p4est_connectivity.c:3573-3609: the corner itself
and the corners that it meets across the two faces at it. -/
def cornerDistinct (conn : FaceConn) (itree icorner : ℕ) : Option (List (ℕ × ℕ)) :=
  (List.range 2).foldlM (cornerDistinctStep conn itree icorner) [(itree, icorner)]

/-- `p4est_find_corner_transform`, src/p4est_connectivity.c:3674-3722, with the last loop of
`p4est_find_corner_transform_internal`, 3646-3666: the trees and corners in `corner_transforms`. -/
def findCornerTransform (conn : FaceConn) (cc : CornerConn) (itree icorner : ℕ) : Option (List (ℕ × ℕ)) :=
  if cc.numCorners = 0 then some []
  else do
    let acorner ← cc.treeToCorner[4 * itree + icorner]?
    if acorner = -1 then some []
    else do
      let a ← index acorner
      let cttac ← cc.cttOffset[a]?
      let next ← cc.cttOffset[a + 1]?
      let distinct ← cornerDistinct conn itree icorner
      let l ← (List.range' cttac (next - cttac)).mapM fun j => do
        let nctree ← cc.cornerToTree[j]?
        let ncorner ← cc.cornerToCorner[j]?
        some (nctree, ncorner)
      some (l.filter fun e => decide (e ∉ distinct))

/-- `p4est_quadrant_transform_corner` with `inside`, src/p4est_bits.c:2241-2264, for a level up to 29.  All coordinates
are overwritten. -/
def transformCorner (q : Quad 2) (corner : ℕ) : Quad 2 :=
  ⟨fun i => if corner.testBit i then rootLen - qlen q.level else 0, q.level⟩

/-- `p4est_comm_find_owner` with the test for the own rank, src/p4est_ghost.c:1900-1908, 1928-1935, 1962-1969. -/
def ownerTargets (gfp : List (GPos 2)) (numProcs rank nt : ℕ) (n : Quad 2) : Option (List ℕ) := do
  let n0 ← findOwner gfp numProcs nt n rank
  some (if n0 ≠ rank then [n0.toNat] else [])

/-- The branch for `P4EST_GHOST_UNBALANCED_ALLOW` in the corner loop, src/p4est_ghost.c:1895-1972. -/
def cornerTargets (conn : FaceConn) (cc : CornerConn) (gfp : List (GPos 2)) (numProcs rank nt : ℕ) (q : Quad 2)
    (corner : ℕ) : Option (List ℕ) :=
  let m := cornerDesc q corner QMAXLEVEL
  let n := cornerNeighbor m corner
  if isInsideRoot n then ownerTargets gfp numProcs rank nt n
  else if isOutsideFace n then do
    let face ← entry cornerFacesTable corner (if n.c 0 < 0 ∨ n.c 0 ≥ rootLen then 0 else 1)
    match ← findFaceTransform 2 conn nt face with
    | none => some []
    | some (nnt, ft) => do
      let s ← quadrantTransformFace m.c n ft
      ownerTargets gfp numProcs rank nnt s
  else do
    let cta ← findCornerTransform conn cc nt corner
    let ls ← cta.mapM fun ct => ownerTargets gfp numProcs rank ct.1 (transformCorner n ct.2)
    some ls.flatten

/-- The loops over the faces and corners, src/p4est_ghost.c:1562-1972, in two dimensions. -/
def allTargets (mem : Fin 2 → ℤ) (conn : FaceConn) (cc : CornerConn) (gfp : List (GPos 2)) (numProcs rank : ℕ)
    (x : ℕ × Quad 2) : Option (List ℕ) := do
  let fs ← allFaceTargets mem conn gfp numProcs rank x
  let ls ← (List.range 4).mapM (cornerTargets conn cc gfp numProcs rank x.1 x.2)
  some (fs ++ ls.flatten)

/-- `p4est_ghost_new` with `P4EST_CONNECT_FULL`, src/p4est_ghost.c:2218-2222, in two dimensions on all ranks of a
forest. -/
def ghostNewFull (mem : Fin 2 → ℤ) (conn : FaceConn) (cc : CornerConn) (numProcs : ℕ) (leaves : ℕ → List (ℕ × Quad 2)) :
    Option (List (GhostLayer 2)) :=
  let gfp := globalPartition leaves numProcs conn.numTrees
  ghostNewWith conn gfp numProcs leaves fun r => allTargets mem conn cc gfp numProcs r

end P4est
