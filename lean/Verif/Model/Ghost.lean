import Verif.Model.Connectivity
import Verif.Model.Partition
import Verif.Model.RangeBoundaries
import Verif.Model.Search

/-! # Model of the ghost layer: src/p4est_ghost.c

`p4est_ghost_new` calls `p4est_ghost_new_check` with the tolerance `P4EST_GHOST_UNBALANCED_ALLOW`; only this
tolerance is modelled.  A quadrant in the ghost or mirror array is modelled by its tree and its coordinates
with level (`p.piggy3.which_tree` and the quadrant), and its number among the leaves of its owner
(`p.piggy3.local_num`).  Rank numbers are natural numbers. -/

namespace P4est

variable {d : ℕ}

/-- A quadrant in the ghost or mirror array. -/
abbrev GhostQuad (d : ℕ) := (ℕ × Quad d) × ℕ

/-- The temporary mirror data and the send buffers, src/p4est_ghost.c:1194-1203 (`p4est_ghost_mirror_t`). -/
structure MirrorState (d : ℕ) where
  known : Bool
  mirrors : List (GhostQuad d)
  bufs : ℕ → List (GhostQuad d)
  offsets : ℕ → List ℕ

/-- `p4est_add_ghost_to_buf`, src/p4est_ghost.c:1170-1192: the new buffer, or `none` if the quadrant is already
the last one. -/
def addGhostToBuf (buf : List (GhostQuad d)) (x : GhostQuad d) : Option (List (GhostQuad d)) :=
  match buf.getLast? with
  | some old =>
    if x.1.1 = old.1.1 ∧ isEqual x.1.2 old.1.2 = true then none else some (buf ++ [x])
  | none => some (buf ++ [x])

/-- `p4est_ghost_mirror_add`, src/p4est_ghost.c:1240-1269. -/
def mirrorAdd (x : GhostQuad d) (m : MirrorState d) (p : ℕ) : MirrorState d :=
  let m := if m.known then m else { m with mirrors := m.mirrors ++ [x], known := true }
  match addGhostToBuf (m.bufs p) x with
  | none => m
  | some buf =>
    { m with
      bufs := Function.update m.bufs p buf
      offsets := Function.update m.offsets p (m.offsets p ++ [m.mirrors.length - 1]) }

/-- One turn of the loop of `p4est_ghost_test_add`, src/p4est_ghost.c:1353-1419: is the quadrant added for the
rank `proc`? -/
def testProc (gfp : List (GPos d)) (n0 n1 level touch rank proc : ℕ) : Option Bool :=
  if proc = rank then some false
  else do
    let lq ← gfp[proc]?
    let uq ← gfp[proc + 1]?
    if lq = uq then some false
    else
      let l : Option (Quad d) := if proc = n0 then none else some lq.quad
      (if proc = n1 then some none else (predecessor uq.quad).map some).bind fun u =>
        some (decide (findRangeBoundaries l u level &&& touch ≠ 0))

/-- `p4est_ghost_test_add`, src/p4est_ghost.c:1309-1420, for a leaf of the level `level`: the ranks for which
`p4est_ghost_mirror_add` is called, in order. -/
def testAdd (gfp : List (GPos d)) (numProcs level : ℕ) (nq : Quad d) (nt touch rank : ℕ) : Option (List ℕ) := do
  let n0 ← findOwner gfp numProcs nt nq rank
  if level = QMAXLEVEL then some (if n0 ≠ rank then [n0.toNat] else [])
  else do
    let n1 ← findOwner gfp numProcs nt (lastDesc nq QMAXLEVEL) n0
    if n0 = n1 then some (if n0 ≠ rank then [n0.toNat] else [])
    else (List.range' n0.toNat (n1.toNat + 1 - n0.toNat)).filterM (testProc gfp n0.toNat n1.toNat level touch rank)

/-- The branch for `P4EST_GHOST_UNBALANCED_ALLOW` in the face loop, src/p4est_ghost.c:1601-1624.  `mem` is what
`n[1]` contained before. -/
def faceTargets (mem : Fin d → ℤ) (conn : FaceConn) (gfp : List (GPos d)) (numProcs rank nt : ℕ) (q : Quad d)
    (face : ℕ) : Option (List ℕ) :=
  let n := faceNeighbor q face
  if isInsideRoot n then testAdd gfp numProcs q.level n nt (1 <<< (face ^^^ 1)) rank
  else do
    match ← findFaceTransform d conn nt face with
    | none => some []
    | some (nnt, ft) => do
      let nface ← conn.treeToFace[nt * (2 * d) + face]?
      let s ← quadrantTransformFace mem n ft
      testAdd gfp numProcs q.level s nnt (1 <<< (nface % (2 * d))) rank

/-- The face loop, src/p4est_ghost.c:1562-1625, which is all there is for `P4EST_CONNECT_FACE` (1627). -/
def allFaceTargets (mem : Fin d → ℤ) (conn : FaceConn) (gfp : List (GPos d)) (numProcs rank : ℕ) (x : ℕ × Quad d) :
    Option (List ℕ) := do
  let ls ← (List.range (2 * d)).mapM (faceTargets mem conn gfp numProcs rank x.1 x.2)
  some ls.flatten

/-- One leaf, src/p4est_ghost.c:1550-1916.  `targets` yields the ranks for which `p4est_ghost_mirror_add` is
called. -/
def ghostLeaf (owned : ℕ × Quad d → Option Bool) (targets : ℕ × Quad d → Option (List ℕ)) (m : MirrorState d)
    (x : GhostQuad d) : Option (MirrorState d) := do
  let m := { m with known := false }
  if ← owned x.1 then some m
  else do
    let ps ← targets x.1
    some (ps.foldl (mirrorAdd x) m)

/-- One local tree, src/p4est_ghost.c:1541-1917.  The entry of `mirror_tree_offsets` is the second component.  The
counter `local_num` runs through the leaves of all local trees in order. -/
def ghostTree (conn : FaceConn) (gfp : List (GPos d)) (numProcs rank first last : ℕ) (mine : List (ℕ × Quad d))
    (targets : ℕ × Quad d → Option (List ℕ)) (s : MirrorState d × (ℕ → ℕ)) (nt : ℕ) :
    Option (MirrorState d × (ℕ → ℕ)) := do
  let full ← fullTree gfp rank first last nt
  let contact := treeContact (fun t f => conn.treeToTree.getD (2 * d * t + f) 0)
    (fun t f => conn.treeToFace.getD (2 * d * t + f) 0) nt
  let m ← (mine.zipIdx.filter fun x => decide (x.1.1 = nt)).foldlM
    (ghostLeaf (fun x => neighborhoodOwned gfp numProcs rank nt full contact x.2) targets) s.1
  some (m, Function.update s.2 nt s.1.mirrors.length)

/-- The loops over the trees, src/p4est_ghost.c:1532-1925: the mirrors with the send buffers, and
`mirror_tree_offsets`.  The first and last local tree are those of the first and last leaf; an empty rank has
none. -/
def ghostLocal (conn : FaceConn) (gfp : List (GPos d)) (numProcs rank : ℕ) (mine : List (ℕ × Quad d))
    (targets : ℕ × Quad d → Option (List ℕ)) : Option (MirrorState d × (ℕ → ℕ)) :=
  let init : MirrorState d × (ℕ → ℕ) := (⟨false, [], fun _ => [], fun _ => []⟩, fun _ => 0)
  match mine.head?, mine.getLast? with
  | some x0, some xl => do
    let s ← (List.range' x0.1 (xl.1 + 1 - x0.1)).foldlM
      (ghostTree conn gfp numProcs rank x0.1 xl.1 mine targets) init
    some (s.1, fun nt => if nt ≤ xl.1 then s.2 nt else s.1.mirrors.length)
  | _, _ => some init

/-- The members of `p4est_ghost_t` computed here, src/p4est_ghost.h:44-113. -/
structure GhostLayer (d : ℕ) where
  ghosts : List (GhostQuad d)
  treeOffsets : List ℕ
  procOffsets : List ℕ
  mirrors : List (GhostQuad d)
  mirrorTreeOffsets : List ℕ
  mirrorProcMirrors : List ℕ
  mirrorProcOffsets : List ℕ

/-- `p4est_ghost_mirror_reset` with `populate`, src/p4est_ghost.c:1273-1307: `mirror_proc_mirrors` and
`mirror_proc_offsets`. -/
def mirrorReset (numProcs : ℕ) (offsets : ℕ → List ℕ) : List ℕ × List ℕ :=
  let r := (List.range numProcs).foldl
    (fun (s : List ℕ × List ℕ) p => (s.1 ++ offsets p, s.2 ++ [s.1.length])) ([], [])
  (r.1, r.2 ++ [r.1.length])

/-- The exchange of messages, src/p4est_ghost.c:1950-2091, on the rank `rank`: the ghosts and `proc_offsets`.
`bufs p r` is the send buffer for `r` on rank `p`.  Each rank sends its count and its buffer to every rank for
which the buffer is not empty, and posts receives from the same ranks.  `none` means that this rank waits
forever for a message that is never sent. -/
def ghostExchange (bufs : ℕ → ℕ → List (GhostQuad d)) (numProcs rank : ℕ) : Option (List (GhostQuad d) × List ℕ) :=
  (List.range numProcs).foldlM (fun s i =>
    if (bufs rank i).length > 0 then
      if (bufs i rank).length > 0 then some (s.1 ++ bufs i rank, s.2 ++ [s.1.length + (bufs i rank).length])
      else none
    else some (s.1, s.2 ++ [s.1.length])) ([], [0])

/-- `p4est_ghost_new_check`, src/p4est_ghost.c:1425-2216, on all ranks.  The tables of ghosts and mirrors of each rank, or
`none` if a rank fails or waits forever. -/
def ghostNewWith (conn : FaceConn) (gfp : List (GPos d)) (numProcs : ℕ) (leaves : ℕ → List (ℕ × Quad d))
    (targets : ℕ → ℕ × Quad d → Option (List ℕ)) : Option (List (GhostLayer d)) := do
  let loc ← (List.range numProcs).mapM fun r => ghostLocal conn gfp numProcs r (leaves r) (targets r)
  let bufs : ℕ → ℕ → List (GhostQuad d) := fun p r => match loc[p]? with
    | some s => s.1.bufs r
    | none => []
  loc.zipIdx.mapM fun x => do
    let r ← ghostExchange bufs numProcs x.2
    let pm := mirrorReset numProcs x.1.1.offsets
    some ⟨r.1, scArraySplit (r.1.map fun g => g.1.1) conn.numTrees, r.2, x.1.1.mirrors,
      (List.range (conn.numTrees + 1)).map x.1.2, pm.1, pm.2⟩

/-- `p4est_ghost_new` with `P4EST_CONNECT_FACE`, src/p4est_ghost.c:2218-2222, on all ranks of a forest. -/
def ghostNewFace (mem : Fin d → ℤ) (conn : FaceConn) (numProcs : ℕ) (leaves : ℕ → List (ℕ × Quad d)) :
    Option (List (GhostLayer d)) :=
  let gfp := globalPartition leaves numProcs conn.numTrees
  ghostNewWith conn gfp numProcs leaves fun r => allFaceTargets mem conn gfp numProcs r

end P4est
