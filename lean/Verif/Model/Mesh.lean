import Verif.Model.Connectivity
import Verif.Model.Iterate
import Verif.Model.Search

/-! # Model of the mesh with face neighbors: src/p4est_mesh.c

`p4est_mesh_new_params` with `btype` `P4EST_CONNECT_FACE`, that is without the callbacks for edges and corners, and the functions that
read the mesh: `p4est_mesh_face_neighbor_init2`, `p4est_mesh_face_neighbor_next` and `p4est_mesh_quadrant_cumulative`.  The assertions of the code are part of the model: where one fails, there is no result.
The numbers of quadrants are unbounded (`p4est_locidx_t` is a 32 bit integer). -/

namespace P4est

variable {d : ℕ}

/-- The members of `p4est_mesh_t` for faces, src/p4est_mesh.h:129-163.  `quadToTree` and `quadLevel` are `none` for `NULL`; an entry of
`quadToTree` is `none` before it is written. -/
structure Mesh where
  localNum : ℕ
  ghostNum : ℕ
  quadToTree : Option (List (Option ℕ))
  ghostToProc : List ℕ
  quadToQuad : List ℤ
  quadToFace : List ℤ
  quadToHalf : List (List ℕ)
  quadLevel : Option (List (List ℕ))
deriving DecidableEq

/-- The value of an integer in `int8_t`. -/
def int8 (v : ℤ) : ℤ := (v + 128) % 256 - 128

/-- `tree->quadrants_offset`: the number of the local leaves in the trees before. -/
def quadrantsOffset (rt : RankTrees (Quad d)) (t : ℕ) : ℕ := ((rt.trees.take t).map List.length).sum

/-- The number of a quadrant that the iterator shows, src/p4est_mesh.c:1020-1029, 1030-1039, 1073-1082 and 1093-1102. -/
def slotNumber (m : Mesh) (rt : RankTrees (Quad d)) (t : ℕ) (x : FaceSlot d) : Option ℕ :=
  if x.isGhost then
    if x.quad = none then none else (index x.quadid).map (m.localNum + ·)
  else do
    let j ← index (x.quadid + quadrantsOffset rt t)
    if j < m.localNum then some j else none

/-- Write the entries for face `f` of the local quadrant `j`, src/p4est_mesh.c:1003-1005. -/
def meshPut (d : ℕ) (m : Mesh) (j f : ℕ) (q v : ℤ) : Option Mesh :=
  if 2 * d * j + f < m.quadToQuad.length ∧ 2 * d * j + f < m.quadToFace.length then
    some { m with quadToQuad := m.quadToQuad.set (2 * d * j + f) q, quadToFace := m.quadToFace.set (2 * d * j + f) (int8 v) }
  else none

/-- The same with the check that nothing has been written there, src/p4est_mesh.c:1046-1051, 1054-1059, 1108-1114 and 1126-1132. -/
def meshWrite (d : ℕ) (m : Mesh) (j f : ℕ) (q v : ℤ) : Option Mesh :=
  if m.quadToQuad[2 * d * j + f]? = some (-1) ∧ m.quadToFace[2 * d * j + f]? = some (-25) then meshPut d m j f q v else none

/-- A face on the boundary of the domain, src/p4est_mesh.c:989-1006. -/
def meshOutside (rt : RankTrees (Quad d)) (m : Mesh) (info : FaceInfo d) (s : FaceSide d) : Option Mesh :=
  match s.data with
  | .full x =>
    if info.orientation = 0 ∧ info.treeBoundary = true ∧ x.isGhost = false then do
      let j ← slotNumber m rt s.tree x
      meshPut d m j s.face j s.face
    else none
  | .hanging _ => none

/-- Write only for a local quadrant, src/p4est_mesh.c:1045, 1053 and 1107. -/
def ifLocal (isGhost : Bool) (m : Mesh) (w : Mesh → Option Mesh) : Option Mesh := if isGhost then some m else w m

/-- Two quadrants of the same size, src/p4est_mesh.c:1015-1061. -/
def meshSame (rt : RankTrees (Quad d)) (m : Mesh) (o : ℕ) (s s' : FaceSide d) (x x' : FaceSlot d) : Option Mesh :=
  if x.isGhost && x'.isGhost then none
  else do
    let j ← slotNumber m rt s.tree x
    let j' ← slotNumber m rt s'.tree x'
    let m ← ifLocal x.isGhost m fun m => meshWrite d m j s.face j' (2 * d * o + s'.face)
    ifLocal x'.isGhost m fun m => meshWrite d m j' s'.face j (2 * d * o + s.face)

/-- `jls[h]`, src/p4est_mesh.c:1085-1103: the number of the small quadrant at corner `h` of the face of the large one; the inner `none`
means that the variable is not written. -/
def halfNumber (rt : RankTrees (Quad d)) (m : Mesh) (o : ℕ) (s s' : FaceSide d) (x : FaceSlot d) (xs : List (FaceSlot d)) (h : ℕ) :
    Option (Option ℕ) := do
  let pos ← faceNeighborFaceCorner d h s.face s'.face o
  let y ← xs[pos]?
  if x.isGhost && y.isGhost then some none
  else (slotNumber m rt s'.tree y).map some

/-- The entries for the large quadrant, src/p4est_mesh.c:1107-1119. -/
def meshLarge (m : Mesh) (o : ℕ) (s s' : FaceSide d) (j : ℕ) (jls : List (Option ℕ)) : Option Mesh := do
  let m' ← meshWrite d m j s.face m.quadToHalf.length (2 * d * ((o : ℤ) - 2 ^ (d - 1)) + s'.face)
  let half ← jls.mapM id
  some { m' with quadToHalf := m'.quadToHalf ++ [half] }

/-- The entries for the small quadrant at corner `h` of the face of the large one, src/p4est_mesh.c:1120-1134. -/
def meshSmall (o : ℕ) (s s' : FaceSide d) (j : ℕ) (xs : List (FaceSlot d)) (jls : List (Option ℕ)) (m : Mesh) (h : ℕ) : Option Mesh := do
  let pos ← faceNeighborFaceCorner d h s.face s'.face o
  let y ← xs[pos]?
  if y.isGhost then some m
  else do
    let j' ← jls[h]?
    let j' ← j'
    meshWrite d m j' s'.face j (2 * d * (o + (h + 1) * 2 ^ (d - 1)) + s.face)

/-- One large quadrant (side `s`) and the small ones (side `s'`), src/p4est_mesh.c:1062-1135. -/
def meshHang (rt : RankTrees (Quad d)) (m : Mesh) (o : ℕ) (s s' : FaceSide d) (x : FaceSlot d) (xs : List (FaceSlot d)) : Option Mesh := do
  let j ← slotNumber m rt s.tree x
  let jls ← (List.range (2 ^ (d - 1))).mapM (halfNumber rt m o s s' x xs)
  let m ← ifLocal x.isGhost m fun m => meshLarge m o s s' j jls
  (List.range (2 ^ (d - 1))).foldlM (meshSmall o s s' j xs jls) m

/-- `mesh_iter_face`, src/p4est_mesh.c:977-1137. -/
def meshFace (rt : RankTrees (Quad d)) (m : Mesh) (info : FaceInfo d) : Option Mesh :=
  match info.sides with
  | [s] => meshOutside rt m info s
  | [s, s'] =>
    match s.data, s'.data with
    | .full x, .full x' => meshSame rt m info.orientation s s' x x'
    | .full x, .hanging xs => meshHang rt m info.orientation s s' x xs
    | .hanging xs, .full x' => meshHang rt m info.orientation s' s x' xs
    | .hanging _, .hanging _ => none
  | _ => none

/-- The entry of `quad_to_tree`, src/p4est_mesh.c:1152-1154. -/
def meshTree (a : Option (List (Option ℕ))) (j t : ℕ) : Option (Option (List (Option ℕ))) :=
  match a with
  | none => some none
  | some l => if j < l.length then some (some (l.set j (some t))) else none

/-- The entry of `quad_level`, src/p4est_mesh.c:1156-1160. -/
def meshLevel (a : Option (List (List ℕ))) (j level : ℕ) : Option (Option (List (List ℕ))) :=
  match a with
  | none => some none
  | some l => (l[level]?).map fun x => some (l.set level (x ++ [j]))

/-- `mesh_iter_volume`, src/p4est_mesh.c:1139-1161. -/
def meshVolume (rt : RankTrees (Quad d)) (m : Mesh) (t : ℕ) (q : Quad d) (n : ℕ) : Option Mesh := do
  let a ← meshTree m.quadToTree (quadrantsOffset rt t + n) t
  let b ← meshLevel m.quadLevel (quadrantsOffset rt t + n) q.level
  some { m with quadToTree := a, quadLevel := b }

/-- A call of one of the two callbacks. -/
def meshCall (rt : RankTrees (Quad d)) (m : Mesh) : IterCall d → Option Mesh
  | .volume t q n => meshVolume rt m t q n
  | .face info => meshFace rt m info

/-- The inner loop src/p4est_mesh.c:1321-1324, from the given rank. -/
def procOf (procOffsets : List ℕ) (jl : ℕ) : ℕ → ℕ → Option ℕ
  | 0, _ => none
  | fuel + 1, rank => do
    let b ← procOffsets[rank + 1]?
    if b ≤ jl then procOf procOffsets jl fuel (rank + 1) else some rank

/-- One turn of the loop src/p4est_mesh.c:1320-1326: `rank` and the entries so far. -/
def ghostProc (procOffsets : List ℕ) (s : ℕ × List ℕ) (jl : ℕ) : Option (ℕ × List ℕ) := do
  let r ← procOf procOffsets jl procOffsets.length s.1
  some (r, s.2 ++ [r])

/-- The mesh before the iteration, src/p4est_mesh.c:1282-1331. -/
def meshInit (rt : RankTrees (Quad d)) (ghost : GhostLayer d) (treeIndex levelLists : Bool) : Option Mesh := do
  let lq := (rt.trees.map List.length).sum
  let p ← (List.range ghost.ghosts.length).foldlM (ghostProc ghost.procOffsets) (0, [])
  some {
    localNum := lq
    ghostNum := ghost.ghosts.length
    quadToTree := if treeIndex then some (List.replicate lq none) else none
    ghostToProc := p.2
    quadToQuad := List.replicate (2 * d * lq) (-1)
    quadToFace := List.replicate (2 * d * lq) (-25)
    quadToHalf := []
    quadLevel := if levelLists then some (List.replicate 30 []) else none }

/-- `p4est_mesh_new_params`, src/p4est_mesh.c:1254-1373, on rank `rank` with `btype` `P4EST_CONNECT_FACE`.  The assertion that the
forest is balanced is not part of the model. -/
def meshNew (conn : FaceConn) (gfp : List (GPos d)) (rank : ℕ) (rt : RankTrees (Quad d)) (ghost : GhostLayer d)
    (treeIndex levelLists : Bool) : Option Mesh := do
  let m ← meshInit rt ghost treeIndex levelLists
  let calls ← iterate conn gfp rank rt (some ghost) (treeIndex || levelLists) true
  calls.foldlM (meshCall rt) m

/-! ### Reading the mesh -/

/-- The trees as `p4est_find_quadrant_cumulative` reads them: `quadrants_offset` and the number of the local quadrants. -/
def cumulativeTrees (rt : RankTrees (Quad d)) : List (ℤ × ℕ) :=
  (List.range rt.trees.length).map fun t => ((quadrantsOffset rt t : ℤ), (rt.trees.getD t []).length)

/-- The tree of a quadrant and its number there, src/p4est_mesh.c:2183-2213. -/
def cumulativePlace (rt : RankTrees (Quad d)) (m : Mesh) (id : ℕ) (hint : Option ℤ) : Option (ℕ × ℕ) :=
  match m.quadToTree with
  | some l => do
    let t ← l[id]?
    let t ← t
    if quadrantsOffset rt t ≤ id then some (t, id - quadrantsOffset rt t) else none
  | none => do
    let r ← findCumulative (cumulativeTrees rt) rt.first rt.last id hint
    let t ← index r.1
    let n ← index r.2
    some (t, n)

/-- `p4est_mesh_quadrant_cumulative`, src/p4est_mesh.c:2157-2216: the quadrant with its tree and its number in the tree.  `hint` is
`*pwhich_tree` if it is given and not -1.  The check in debug mode of one search by the other is left out. -/
def meshCumulative (rt : RankTrees (Quad d)) (m : Mesh) (id : ℕ) (hint : Option ℤ) : Option ((ℕ × Quad d) × ℕ) :=
  if id < m.localNum then do
    let p ← cumulativePlace rt m id hint
    let l ← rt.trees[p.1]?
    let q ← l[p.2]?
    some ((p.1, q), p.2)
  else none

/-- `p4est_mesh_face_neighbor_t`, src/p4est_mesh.h:168-188, without the pointers to the forest. -/
structure FaceNeighbor where
  whichTree : ℕ
  quadrantCode : ℕ
  face : ℕ
  subface : ℕ
deriving DecidableEq

/-- `p4est_mesh_face_neighbor_init2`, src/p4est_mesh.c:2219-2245. -/
def faceNeighborInit (rt : RankTrees (Quad d)) (t n : ℕ) : FaceNeighbor := ⟨t, 2 * d * (quadrantsOffset rt t + n), 0, 0⟩

/-- What `p4est_mesh_face_neighbor_next` returns: the quadrant with its tree, and `nquad`, `nface` and `nrank`. -/
structure NextResult (d : ℕ) where
  quad : ℕ × Quad d
  nquad : ℕ
  nface : ℤ
  nrank : ℕ
deriving DecidableEq

/-- The quadrant with number `qtq`, src/p4est_mesh.c:2333-2363. -/
def nextQuad (rank : ℕ) (rt : RankTrees (Quad d)) (ghost : GhostLayer d) (m : Mesh) (t qtq : ℕ) (qtf : ℤ) : Option (NextResult d) :=
  if qtq < m.localNum then do
    let r ← meshCumulative rt m qtq (some t)
    some ⟨r.1, r.2, qtf, rank⟩
  else do
    let g ← ghost.ghosts[qtq - m.localNum]?
    let p ← m.ghostToProc[qtq - m.localNum]?
    some ⟨g.1, qtq - m.localNum, qtf, p⟩

/-- `p4est_mesh_face_neighbor_next`, src/p4est_mesh.c:2275-2366.  The inner `none` is `NULL`. -/
def faceNeighborNext (d : ℕ) (rank : ℕ) (rt : RankTrees (Quad d)) (ghost : GhostLayer d) (m : Mesh) (s : FaceNeighbor) :
    Option (FaceNeighbor × Option (NextResult d)) :=
  if s.face = 2 * d then some (s, none)
  else do
    let q ← m.quadToQuad[s.quadrantCode + s.face]?
    let qtf ← m.quadToFace[s.quadrantCode + s.face]?
    let q ← index q
    if qtf ≥ 0 then do
      let r ← nextQuad rank rt ghost m s.whichTree q qtf
      some ({ s with face := s.face + 1 }, some r)
    else do
      let half ← m.quadToHalf[q]?
      let q ← half[s.subface]?
      let r ← nextQuad rank rt ghost m s.whichTree q qtf
      some (if s.subface + 1 = 2 ^ (d - 1) then { s with subface := 0, face := s.face + 1 } else { s with subface := s.subface + 1 },
        some r)

/-- The results of repeated calls until `NULL` is returned; `fuel` bounds their number. -/
def faceNeighbors (d : ℕ) (rank : ℕ) (rt : RankTrees (Quad d)) (ghost : GhostLayer d) (m : Mesh) :
    ℕ → FaceNeighbor → Option (List (NextResult d))
  | 0, _ => none
  | fuel + 1, s => do
    let r ← faceNeighborNext d rank rt ghost m s
    match r.2 with
    | none => some []
    | some x => do
      let rest ← faceNeighbors d rank rt ghost m fuel r.1
      some (x :: rest)

end P4est
