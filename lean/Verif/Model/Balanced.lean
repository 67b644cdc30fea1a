import Verif.Model.Ghost
import Verif.Model.Neighbor

/-! # Model of the test for face balance: `p4est_is_balanced`, src/p4est_ghost.c

Only `P4EST_CONNECT_FACE` is modelled.  The test builds a ghost layer by `p4est_ghost_new_check` with the tolerance
`P4EST_GHOST_UNBALANCED_FAIL`, which differs from the one of `p4est_ghost_new` in the ranks a leaf is sent to and
in a check that may end it early.  `bs` is `sc_array_bsearch` of libsc and `bsr` is `sc_bsearch_range` of libsc;
both get the comparison with the key. -/

namespace P4est

variable {d : ℕ}

/-! ### Search in the ghost array -/

/-- `p4est_ghost_check_range`, src/p4est_ghost.c:270-297: start and end of the part of the ghost array that belongs
to a rank and a tree.  A rank or tree of -1 is `none` here.  The result 0 is `some none`; `none` is an access out
of bounds. -/
def ghostCheckRange (g : GhostLayer d) (proc tree : Option ℕ) : Option (Option (ℕ × ℕ)) :=
  if g.ghosts.length = 0 then some none
  else do
    let w1 ← match proc with
      | none => some (0, g.ghosts.length)
      | some p => do
        let a ← g.procOffsets[p]?
        let b ← g.procOffsets[p + 1]?
        some (max 0 a, min g.ghosts.length b)
    let w2 ← match tree with
      | none => some w1
      | some t => do
        let a ← g.treeOffsets[t]?
        let b ← g.treeOffsets[t + 1]?
        some (max w1.1 a, min w1.2 b)
    some (if w2.1 < w2.2 then some w2 else none)

/-- `p4est_ghost_bsearch`, src/p4est_ghost.c:299-321: the position in the ghost array; the result -1 is
`some none`. -/
def ghostBsearch (bs : (Quad d → ℤ) → List (Quad d) → Option ℕ) (g : GhostLayer d) (proc tree : Option ℕ) (q : Quad d) :
    Option (Option ℕ) := do
  match ← ghostCheckRange g proc tree with
  | none => some none
  | some (start, ended) =>
    some ((bs (compare q) (((g.ghosts.drop start).take (ended - start)).map fun x => x.1.2)).map (· + start))

/-- `p4est_ghost_contains`, src/p4est_ghost.c:323-351. -/
def ghostContains (bsr : (Quad d → ℤ) → List (Quad d) → ℕ → ℕ) (g : GhostLayer d) (proc tree : Option ℕ) (q : Quad d) :
    Option (Option ℕ) := do
  match ← ghostCheckRange g proc tree with
  | none => some none
  | some (start, ended) => do
    let view := ((g.ghosts.drop start).take (ended - start)).map fun x => x.1.2
    let result := bsr (compare q) view (ended - start - 1)
    let qr ← view[result]?
    some (if isEqual qr q || isAncestor qr q then some (result + start) else none)

/-! ### The ghost layer with the check -/

/-- `p4est_quadrant_find_owner` for a face number that is not -1, src/p4est_ghost.c:119-147 and 188-193. -/
def quadrantFindOwner (mem : Fin d → ℤ) (conn : FaceConn) (gfp : List (GPos d)) (numProcs rank t face : ℕ) (q : Quad d) :
    Option ℤ :=
  if isInsideRoot q then findOwner gfp numProcs t q rank
  else do
    let ntree ← conn.treeToTree[2 * d * t + face]?
    let code ← conn.treeToFace[2 * d * t + face]?
    if ntree = t ∧ code = face then some (-1)
    else do
      match ← findFaceTransform d conn t face with
      | none => none
      | some (_, ft) => do
        let nq ← quadrantTransformFace mem q ft
        findOwner gfp numProcs ntree nq rank

/-- One turn of the loop over the small neighbors, src/p4est_ghost.c:1583-1608.  The state is `n1_proc` and the
ranks for which `p4est_ghost_mirror_add` has been called; `n.2` is `nur[i]` if `i < ncheck`.  A failed check is
`some none`. -/
def smallStep (owner : Quad d → Option ℤ) (rank : ℕ) (s : Option (ℤ × List ℕ)) (n : Quad d × Option (Quad d)) :
    Option (Option (ℤ × List ℕ)) :=
  match s with
  | none => some none
  | some (n1, ps) => do
    let n0 ← owner n.1
    let ur ← match n.2 with
      | none => some n0
      | some nur => owner nur
    if n0 ≠ ur then some none
    else some (some (if n0 ≠ rank ∧ n0 ≥ 0 ∧ n0 ≠ n1 then (n0, ps ++ [n0.toNat]) else (n1, ps)))

/-- The small neighbors across a face with the quadrants to check, src/p4est_ghost.c:1572-1580. -/
def smallNeighbors (q : Quad d) (face : ℕ) : List (Quad d × Option (Quad d)) :=
  if q.level = QMAXLEVEL then [(faceNeighbor q face, none)]
  else (halfFaceNeighbors q face).zip ((halfFaceNeighborsUpperRight q face).map some)

/-- The face loop for a tolerance below `P4EST_GHOST_UNBALANCED_ALLOW`, src/p4est_ghost.c:1570-1609: the ranks for
which `p4est_ghost_mirror_add` is called, or `some none` if a check fails. -/
def smallTargets (mem : Fin d → ℤ) (conn : FaceConn) (gfp : List (GPos d)) (numProcs rank : ℕ) (x : ℕ × Quad d) :
    Option (Option (List ℕ)) :=
  (List.range (2 * d)).foldlM (fun acc face => match acc with
    | none => some none
    | some ps => do
      let r ← (smallNeighbors x.2 face).foldlM (smallStep (quadrantFindOwner mem conn gfp numProcs rank x.1 face) rank)
        (some (-1, []))
      some (r.map fun s => ps ++ s.2)) (some [])

/-- Does a check fail on this rank?  The loop over the leaves, src/p4est_ghost.c:1541-1609, which is left at the first
failure. -/
def smallFails (conn : FaceConn) (gfp : List (GPos d)) (numProcs rank : ℕ) (mine : List (ℕ × Quad d))
    (targets : ℕ × Quad d → Option (Option (List ℕ))) : Option Bool :=
  match mine.head?, mine.getLast? with
  | some x0, some xl => mine.foldlM (fun failed x =>
      if failed then some true
      else do
        let full ← fullTree gfp rank x0.1 xl.1 x.1
        let contact := treeContact (fun t f => conn.treeToTree.getD (2 * d * t + f) 0)
          (fun t f => conn.treeToFace.getD (2 * d * t + f) 0) x.1
        if ← neighborhoodOwned gfp numProcs rank x.1 full contact x.2 then some false
        else do
          let r ← targets x
          some r.isNone) false
  | _, _ => some false

/-- `p4est_ghost_new_check` with `P4EST_GHOST_UNBALANCED_FAIL` and `P4EST_CONNECT_FACE`, src/p4est_ghost.c:1425-2216, on
all ranks.  If a check fails on some rank then `NULL` is returned on all of them, which is `some none`.  What a rank
has gathered before a failure is thrown away, so the model looks for failures first. -/
def ghostNewSmall (mem : Fin d → ℤ) (conn : FaceConn) (numProcs : ℕ) (leaves : ℕ → List (ℕ × Quad d)) :
    Option (Option (List (GhostLayer d))) := do
  let gfp := globalPartition leaves numProcs conn.numTrees
  let targets := fun r => smallTargets mem conn gfp numProcs r
  let fails ← (List.range numProcs).mapM fun r => smallFails conn gfp numProcs r (leaves r) (targets r)
  if fails.any id then some none
  else (ghostNewWith conn gfp numProcs leaves fun r x => (targets r x).map fun o => o.getD []).map some

/-! ### The test -/

/-- The search for a quadrant that is inside the tree, src/p4est_ghost.c:402-411 and 558-567. -/
def lookUp (bs : (Quad d → ℤ) → List (Quad d) → Option ℕ) (gfp : List (GPos d)) (numProcs rank : ℕ)
    (mine : List (ℕ × Quad d)) (g : GhostLayer d) (t : ℕ) (q : Quad d) : Option Bool := do
  let qproc ← findOwner gfp numProcs t q rank
  if qproc = rank then
    some (bs (compare q) ((mine.filter fun x => decide (x.1 = t)).map Prod.snd)).isSome
  else do
    let lnid ← ghostBsearch bs g (some qproc.toNat) (some t) q
    some lnid.isSome

/-- The face of the tree across which a quadrant lies, src/p4est_ghost.c:423-474; `none` if it lies across an edge
or a corner. -/
def faceBeyond (q : Quad d) : Option ℕ :=
  match (List.finRange d).filter fun i => decide (q.c i < 0) || decide (q.c i ≥ rootLen) with
  | [i] => some (2 * (i : ℕ) + if q.c i ≥ rootLen then 1 else 0)
  | _ => none

/-- `p4est_quadrant_exists` without the arrays, src/p4est_ghost.c:354-577, for a quadrant that is not across an edge
or a corner.  The argument `none` is a quadrant as initialized by `P4EST_QUADRANT_INIT`. -/
def quadrantExists (bs : (Quad d → ℤ) → List (Quad d) → Option ℕ) (mem : Fin d → ℤ) (conn : FaceConn)
    (gfp : List (GPos d)) (numProcs rank : ℕ) (mine : List (ℕ × Quad d)) (g : GhostLayer d) (t : ℕ) (q : Option (Quad d)) :
    Option Bool :=
  match q with
  | none => some false
  | some q =>
    if isInsideRoot q then lookUp bs gfp numProcs rank mine g t q
    else do
      let face ← faceBeyond q
      match ← findFaceTransform d conn t face with
      | none => some false
      | some (nt, ft) => do
        let tq ← quadrantTransformFace mem q ft
        lookUp bs gfp numProcs rank mine g nt tq

/-- `p4est_quadrant_on_face_boundary`, src/p4est_algorithms.c:3705-3738. -/
def onFaceBoundary (conn : FaceConn) (t face : ℕ) (q : Quad d) : Option Bool := do
  let nt ← conn.treeToTree[2 * d * t + face]?
  let code ← conn.treeToFace[2 * d * t + face]?
  if nt ≠ t ∨ code ≠ face then some false
  else
    let dh := rootLen - qlen q.level
    some (decide (∀ i : Fin d, (i : ℕ) = face / 2 → q.c i = if face % 2 = 1 then dh else 0))

/-- The entries `n[0]` to `n[P4EST_HALF - 1]` that `p4est_quadrant_all_face_neighbors` sets. -/
def smallEntries : Option (List (Quad d)) → List (Option (Quad d))
  | none => List.replicate (2 ^ (d - 1)) none
  | some l => l.map some

/-- The test of one face, src/p4est_ghost.c:904-936.  `ex` is `p4est_quadrant_exists`; the result is the value of
`failed`. -/
def faceFails (ex : Option (Quad d) → Option Bool) (conn : FaceConn) (t : ℕ) (q : Quad d) (face : ℕ) : Option Bool := do
  if ← onFaceBoundary conn t face q then some false
  else do
    let n := allFaceNeighbors q face
    let es ← (smallEntries n.1).mapM ex
    let e0 ← es.head?
    if es.any (fun e => e != e0) then some true
    else do
      let e2 ← ex (some n.2.1)
      let e3 ← ex n.2.2
      some (decide (e0.toNat + e2.toNat + e3.toNat ≠ 1))

/-- The loops of `p4est_is_balanced` over the leaves and the faces, src/p4est_ghost.c:890-936, left at the first
failure. -/
def rankFails (ex : ℕ → Option (Quad d) → Option Bool) (conn : FaceConn) (mine : List (ℕ × Quad d)) : Option Bool :=
  mine.foldlM (fun failed x =>
    if failed then some true
    else (List.range (2 * d)).foldlM (fun failed face => if failed then some true else faceFails (ex x.1) conn x.1 x.2 face)
      false) false

/-- `p4est_is_balanced` with `P4EST_CONNECT_FACE`, src/p4est_ghost.c:845-1129: the result on each rank, or `none` if a
rank waits forever. -/
def isBalancedFace (bs : (Quad d → ℤ) → List (Quad d) → Option ℕ) (mem : Fin d → ℤ) (conn : FaceConn) (numProcs : ℕ)
    (leaves : ℕ → List (ℕ × Quad d)) : Option (List Bool) := do
  match ← ghostNewSmall mem conn numProcs leaves with
  | none => some (List.replicate numProcs false)
  | some gs => do
    let gfp := globalPartition leaves numProcs conn.numTrees
    let fails ← gs.zipIdx.mapM fun g =>
      rankFails (fun t => quadrantExists bs mem conn gfp numProcs g.2 (leaves g.2) g.1 t) conn (leaves g.2)
    some (List.replicate numProcs (!fails.any id))

end P4est
