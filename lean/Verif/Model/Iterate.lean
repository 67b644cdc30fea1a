import Verif.Model.Ghost
import Verif.Model.Repartition

/-! # Model of the iteration over volumes and faces: src/p4est_iterate.c

`p4est_iterate` with a volume and a face callback; the callbacks for corners and (in three dimensions) edges are `NULL`.  A
run is the list of the calls of callbacks, with what the callback finds in `info`.  The C code walks through the levels
with counters (`level_num`, `Level`) and keeps the bounds of the search areas of all levels in `zindex`; here the walk
is a recursion and the bounds of an area are its arguments.  The cache `tier_rings` of the results of
`p4est_split_array` is left out: an entry is the result for the same area. -/

namespace P4est

variable {d : ℕ}

/-- A search area in one array: `first_index[st]` and `count[st]`, src/p4est_iterate.c:2217-2221. -/
structure Window where
  first : ℕ
  count : ℕ
deriving DecidableEq

/-- `p4est_iter_tier_insert` and `p4est_iter_tier_update`, src/p4est_iterate.c:102-163, without the cache: the bounds of the
areas of the children.  The quadrant `q` is `NULL` if and only if the area is empty. -/
def iterTier (arr : List (Quad d)) (level : ℕ) (w : Window) : List ℕ :=
  if w.count = 0 then List.replicate (2 ^ d + 1) w.first
  else (splitArray ((arr.drop w.first).take w.count) level).map (· + w.first)

/-- The area of child `k`, src/p4est_iterate.c:2417-2418, 2351-2352 and 2855-2857. -/
def tierWindow (tier : List ℕ) (k : ℕ) : Option Window := do
  let a ← tier[k]?
  let b ← tier[k + 1]?
  some ⟨a, b - a⟩

/-- `test[st]`: the first quadrant in the area, src/p4est_iterate.c:2251-2260 and 2747-2749.  The inner `none` is `NULL`. -/
def testQuad (arr : List (Quad d)) (w : Window) : Option (Option (Quad d)) :=
  if w.count = 0 then some none else (arr[w.first]?).map some

/-- `p4est_iter_face_side_full_t`, src/p4est_iterate.h:66-73, and one entry of `p4est_iter_face_side_hanging_t`, 76-82. -/
structure FaceSlot (d : ℕ) where
  quad : Option (Quad d)
  quadid : ℤ
  isGhost : Bool
deriving DecidableEq

/-- A quadrant that is not available, src/p4est_iterate.h:89-91. -/
def noSlot : FaceSlot d := ⟨none, -1, true⟩

/-- `is_hanging` and the union `is`, src/p4est_iterate.h:98-109. -/
inductive SideData (d : ℕ) where
  | full (x : FaceSlot d)
  | hanging (xs : List (FaceSlot d))
deriving DecidableEq

/-- `p4est_iter_face_side_t`, src/p4est_iterate.h:93-111. -/
structure FaceSide (d : ℕ) where
  tree : ℕ
  face : ℕ
  data : SideData d
deriving DecidableEq

/-- `p4est_iter_face_info_t`, src/p4est_iterate.h:124-136.  `treeBoundary` is true for the value `P4EST_CONNECT_FACE`. -/
structure FaceInfo (d : ℕ) where
  orientation : ℕ
  treeBoundary : Bool
  sides : List (FaceSide d)
deriving DecidableEq

/-- A call of the volume callback (`p4est_iter_volume_info_t`, src/p4est_iterate.h:46-55) or of the face callback. -/
inductive IterCall (d : ℕ) where
  | volume (tree : ℕ) (quad : Quad d) (quadid : ℕ)
  | face (info : FaceInfo d)
deriving DecidableEq

/-- One side of a face search: `treeid` and `face` of the side, its part of `num_to_child`, the local quadrants of its tree, and
the search areas among these and among the ghosts, src/p4est_iterate.c:1849-1868. -/
structure IterSide (d : ℕ) where
  tree : ℕ
  face : ℕ
  toChild : List ℕ
  quads : List (Quad d)
  loc : Window
  gho : Window

/-- Is the first quadrant of the same size as the search area?  src/p4est_iterate.c:2275 and 2293-2299. -/
def areaSlot (level : ℕ) (w : Window) (isGhost : Bool) (q : Option (Quad d)) : Option (FaceSlot d) :=
  match q with
  | some q => if q.level = level then some ⟨some q, w.first, isGhost⟩ else none
  | none => none

/-- The turns for one side of the loop src/p4est_iterate.c:2269-2302: the quadrant that fills the search area, with the update of
`has_local`; `some none` if the side is to be refined. -/
def sideFull (ghosts : List (Quad d)) (level : ℕ) (s : IterSide d) : Option (Option (FaceSlot d × Bool)) := do
  let a ← testQuad s.quads s.loc
  let b ← testQuad ghosts s.gho
  match areaSlot level s.loc false a, areaSlot level s.gho true b with
  | none, none => some none
  | some x, none => some (some (x, true))
  | none, some y => some (some (y, false))
  | some _, some y => some (some (y, true))

/-- One hanging quadrant with the update of `has_local`, src/p4est_iterate.c:2343-2368; `k` is its child number. -/
def hangSlot (ghosts : List (Quad d)) (s : IterSide d) (tl tg : List ℕ) (k : ℕ) : Option (FaceSlot d × Bool) := do
  let wl ← tierWindow tl k
  let wg ← tierWindow tg k
  let a ← testQuad s.quads wl
  let b ← testQuad ghosts wg
  match a, b with
  | none, none => some (noSlot, false)
  | some q, none => some (⟨some q, wl.first, false⟩, true)
  | none, some q => some (⟨some q, wg.first, true⟩, false)
  | some _, some q => some (⟨some q, wg.first, true⟩, true)

/-- One turn of the loop over the hanging quadrants, src/p4est_iterate.c:2337-2368: the entry with number
`p4est_corner_face_corners[child_corner][face]` is written. -/
def hangStep (ghosts : List (Quad d)) (s : IterSide d) (tl tg : List ℕ) (m : List (Option (FaceSlot d)) × Bool) (i : ℕ) :
    Option (List (Option (FaceSlot d)) × Bool) := do
  let k ← s.toChild[i]?
  let z ← entry (cornerFaceCornersTable d) k s.face
  let j ← index z
  let x ← hangSlot ghosts s tl tg k
  some (m.1.set j (some x.1), m.2 || x.2)

/-- A refined side next to a full one, src/p4est_iterate.c:2314-2369.  An entry that is not written has no value. -/
def sideHanging (ghosts : List (Quad d)) (level : ℕ) (s : IterSide d) : Option (SideData d × Bool) := do
  let r ← (List.range (2 ^ (d - 1))).foldlM
    (hangStep ghosts s (iterTier s.quads level s.loc) (iterTier ghosts level s.gho))
    (List.replicate (2 ^ (d - 1)) none, false)
  let xs ← r.1.mapM id
  some (.hanging xs, r.2)

/-- One side for the callback, src/p4est_iterate.c:2275-2371 with `stop_refine`. -/
def faceSide (ghosts : List (Quad d)) (level : ℕ) (s : IterSide d) : Option (FaceSide d × Bool) := do
  let r ← sideFull ghosts level s
  match r with
  | some x => some (⟨s.tree, s.face, .full x.1⟩, x.2)
  | none =>
    if s.loc.count = 0 ∧ s.gho.count = 0 then some (⟨s.tree, s.face, .full noSlot⟩, false)
    else do
      let h ← sideHanging ghosts level s
      some (⟨s.tree, s.face, h.1⟩, h.2)

/-- The search areas of one side for branch `i`, src/p4est_iterate.c:2314-2324 and 2408-2421. -/
def childSide (ghosts : List (Quad d)) (level i : ℕ) (s : IterSide d) : Option (IterSide d) := do
  let k ← s.toChild[i]?
  let wl ← tierWindow (iterTier s.quads level s.loc) k
  let wg ← tierWindow (iterTier ghosts level s.gho) k
  some { s with loc := wl, gho := wg }

/-- `p4est_face_iterate`, src/p4est_iterate.c:2152-2445, for a search area of the given level on each side: the calls of
`iter_face`.  `fuel` bounds the depth (0 is `none`, and the theorems show that it is never reached). -/
def faceIterate (ghosts : List (Quad d)) (orientation : ℕ) (boundary : Bool) :
    ℕ → ℕ → List (IterSide d) → Option (List (FaceInfo d))
  | 0, _, _ => none
  | fuel + 1, level, sides =>
    if sides.all (fun s => s.loc.count = 0) then some []
    else do
      let fulls ← sides.mapM (sideFull ghosts level)
      if fulls.any (fun x => x.isSome) then do
        let ds ← sides.mapM (faceSide ghosts level)
        some (if ds.any (fun x => x.2) then [⟨orientation, boundary, ds.map (fun x => x.1)⟩] else [])
      else do
        let parts ← (List.range (2 ^ (d - 1))).mapM fun i => do
          let subs ← sides.mapM (childSide ghosts level i)
          faceIterate ghosts orientation boundary fuel (level + 1) subs
        some parts.flatten

/-- One face search between children of a volume: `p4est_iter_init_face_from_volume`, src/p4est_iterate.c:2468-2516, with the
copy of the bounds and the search, 2803-2811.  `lower` and `upper` are the corners of the faces `2 dir` and `2 dir + 1`. -/
def volumeFace (ghosts : List (Quad d)) (tree : ℕ) (quads : List (Quad d)) (level : ℕ) (tl tg : List ℕ) (dir pos : ℕ) :
    Option (List (FaceInfo d)) := do
  let lower ← (faceCornersTable d)[2 * dir]?
  let upper ← (faceCornersTable d)[2 * dir + 1]?
  let k0 ← lower[pos]?
  let k1 ← upper[pos]?
  let l0 ← tierWindow tl k0
  let g0 ← tierWindow tg k0
  let l1 ← tierWindow tl k1
  let g1 ← tierWindow tg k1
  faceIterate ghosts 0 false 31 level
    [⟨tree, 2 * dir + 1, upper, quads, l0, g0⟩, ⟨tree, 2 * dir, lower, quads, l1, g1⟩]

/-- The faces between the children of a volume, src/p4est_iterate.c:2801-2813. -/
def volumeFaces (ghosts : List (Quad d)) (tree : ℕ) (quads : List (Quad d)) (level : ℕ) (tl tg : List ℕ) :
    Option (List (FaceInfo d)) := do
  let parts ← (List.range d).mapM fun dir => do
    let ls ← (List.range (2 ^ (d - 1))).mapM (volumeFace ghosts tree quads level tl tg dir)
    some ls.flatten
  some parts.flatten

/-- `p4est_volume_iterate`, src/p4est_iterate.c:2697-2876, for a search area of the given level. -/
def volumeIterate (iterVolume : Bool) (ghosts : List (Quad d)) (tree : ℕ) (quads : List (Quad d)) :
    ℕ → ℕ → Window → Window → Option (List (IterCall d))
  | 0, _, _, _ => none
  | fuel + 1, level, loc, gho =>
    if loc.count = 0 then some []
    else do
      let a ← testQuad quads loc
      let b ← testQuad ghosts gho
      match areaSlot level loc false a, areaSlot level gho true b with
      | none, none => do
        let tl := iterTier quads level loc
        let tg := iterTier ghosts level gho
        let parts ← (List.range (2 ^ d)).mapM fun k => do
          let l ← tierWindow tl k
          let g ← tierWindow tg k
          volumeIterate iterVolume ghosts tree quads fuel (level + 1) l g
        let faces ← volumeFaces ghosts tree quads (level + 1) tl tg
        some (parts.flatten ++ faces.map .face)
      | some x, _ => some (if iterVolume then (x.quad.map fun q => IterCall.volume tree q loc.first).toList else [])
      | none, some _ => some []

/-- `p4est_volume_iterate_simple`, src/p4est_iterate.c:2668-2695, for one tree. -/
def volumeSimple (tree : ℕ) (quads : List (Quad d)) : List (IterCall d) :=
  quads.zipIdx.map fun x => .volume tree x.1 x.2

/-- The bits for faces in the arrays `init` and `owned`, and `last_run_tree`, src/p4est_iterate.c:2878-2890. -/
structure RunState where
  init : ℕ → ℕ → Bool
  owned : ℕ → ℕ → Bool
  lastRun : ℤ

/-- `m[t] |= 1 << f`. -/
def setFace (m : ℕ → ℕ → Bool) (t f : ℕ) : ℕ → ℕ → Bool := fun t' f' => decide (t' = t ∧ f' = f) || m t' f'

/-- The body of the loop over the faces, src/p4est_iterate.c:2976-2999. -/
def boundaryFace (d : ℕ) (conn : FaceConn) (t touch : ℕ) (s : RunState) (f : ℕ) : Option RunState :=
  if touch.testBit f && !s.init t f then do
    let nt ← conn.treeToTree[2 * d * t + f]?
    let code ← conn.treeToFace[2 * d * t + f]?
    let nf := code % (2 * d)
    let init := setFace (setFace s.init t f) nt nf
    if t > nt ∨ (t = nt ∧ f ≥ nf) then some ⟨init, setFace s.owned t f, if (t : ℤ) > s.lastRun then t else s.lastRun⟩
    else some ⟨init, setFace s.owned nt nf, if (nt : ℤ) > s.lastRun then nt else s.lastRun⟩
  else some s

/-- The range of cells of this rank in tree `t` and the parts of the boundary of the tree that it touches,
src/p4est_iterate.c:2956-2974 without `remote`. -/
def treeTouch (lq : Quad d) (uq : Option (Quad d)) (first last t : ℕ) : ℕ :=
  findRangeBoundaries (if t = first then some lq else none) (if t = last then uq else none) 0

/-- `p4est_iter_get_boundaries`, src/p4est_iterate.c:2878-3149 without `remote`; only the bits for faces are modelled, the others
are not used without callbacks for edges and corners. -/
def iterBoundaries (conn : FaceConn) (gfp : List (GPos d)) (rank first last : ℕ) : Option RunState := do
  let lq ← gfp[rank]?
  let up ← gfp[rank + 1]?
  let uq ← if up.tree > last then some none else (predecessor up.quad).map some
  (List.range' first (last + 1 - first)).foldlM
    (fun s t => (List.range (2 * d)).foldlM (boundaryFace d conn t (treeTouch lq.quad uq first last t)) s)
    ⟨fun _ _ => false, fun _ _ => false, -1⟩

/-- The corner on the other tree that touches corner `i` of the face, src/p4est_iterate.c:2104-2109. -/
def touchingCorner (d i f nf o : ℕ) : Option ℕ :=
  if d = 3 then do
    let ref ← entry facePermutationRefs f nf
    let set ← entry facePermutationSets ref o
    let p ← entry facePermutations set i
    entry (faceCornersTable d) nf p
  else entry (faceCornersTable d) nf (if o = 0 then i else 1 - i)

/-- `p4est_iter_init_face`, src/p4est_iterate.c:2040-2133: for each side its tree, face and part of `num_to_child`, and the
orientation.  The function calls itself for the other side if that comes first; the number is the depth. -/
def initFace (d : ℕ) (conn : FaceConn) : ℕ → ℕ → ℕ → Option (List (ℕ × ℕ × List ℕ) × ℕ)
  | 0, _, _ => none
  | n + 1, t, f => do
    let nt ← conn.treeToTree[2 * d * t + f]?
    let code ← conn.treeToFace[2 * d * t + f]?
    let nf := code % (2 * d)
    if nt < t ∨ (nt = t ∧ nf < f) then initFace d conn n nt nf
    else do
      let mine ← (List.range (2 ^ (d - 1))).mapM (entry (faceCornersTable d) f)
      if t = nt ∧ nf = f then some ([(t, f, mine)], 0)
      else do
        let other ← (List.range (2 ^ (d - 1))).mapM fun i => touchingCorner d i f nf (code / (2 * d))
        some ([(t, f, mine), (nt, nf, other)], code / (2 * d))

/-- The ghosts of tree `t`, src/p4est_iterate.c:340-343. -/
def ghostWindow (treeOffsets : List ℕ) (t : ℕ) : Option Window := tierWindow treeOffsets t

/-- A side of a search on faces of trees, src/p4est_iterate.c:378-438 and 441-485. -/
def treeSide (trees : List (List (Quad d))) (treeOffsets : List ℕ) (x : ℕ × ℕ × List ℕ) : Option (IterSide d) := do
  let quads ← trees[x.1]?
  let w ← ghostWindow treeOffsets x.1
  some ⟨x.1, x.2.1, x.2.2, quads, ⟨0, quads.length⟩, w⟩

/-- A face between trees or on the boundary of the domain, src/p4est_iterate.c:3262-3270. -/
def treeFace (conn : FaceConn) (trees : List (List (Quad d))) (ghosts : List (Quad d)) (treeOffsets : List ℕ) (t f : ℕ) :
    Option (List (FaceInfo d)) := do
  let r ← initFace d conn 2 t f
  let sides ← r.1.mapM (treeSide trees treeOffsets)
  faceIterate ghosts r.2 true 31 0 sides

/-- The volumes of one tree, src/p4est_iterate.c:3242-3252. -/
def iterTreeVolume (iterVolume : Bool) (rt : RankTrees (Quad d)) (ghosts : List (Quad d)) (treeOffsets : List ℕ) (t : ℕ) :
    Option (List (IterCall d)) :=
  if (t : ℤ) ≤ rt.last then do
    let quads ← rt.trees[t]?
    let w ← ghostWindow treeOffsets t
    volumeIterate iterVolume ghosts t quads 31 0 ⟨0, quads.length⟩ w
  else some []

/-- One turn of the loop over the trees, src/p4est_iterate.c:3241-3271. -/
def iterTree (iterVolume : Bool) (conn : FaceConn) (rt : RankTrees (Quad d)) (ghosts : List (Quad d)) (treeOffsets : List ℕ)
    (owned : ℕ → ℕ → Bool) (t : ℕ) : Option (List (IterCall d)) := do
  let vs ← iterTreeVolume iterVolume rt ghosts treeOffsets t
  let fs ← ((List.range (2 * d)).filter (owned t)).mapM (treeFace conn rt.trees ghosts treeOffsets t)
  some (vs ++ fs.flatten.map .face)

/-- The array of ghosts, src/p4est_iterate.c:3192-3204; without a layer an empty one. -/
def iterGhosts : Option (GhostLayer d) → List (Quad d)
  | some g => g.ghosts.map fun x => x.1.2
  | none => []

/-- The offsets of the trees in it, src/p4est_iterate.c:3192-3204. -/
def iterOffsets (numTrees : ℕ) : Option (GhostLayer d) → List ℕ
  | some g => g.treeOffsets
  | none => List.replicate (numTrees + 1) 0

/-- `p4est_iterate`, src/p4est_iterate.c:3151-3328, on one rank with the callbacks that are given; those for edges and corners
are not.  `ghost` is `none` for `NULL`. -/
def iterate (conn : FaceConn) (gfp : List (GPos d)) (rank : ℕ) (rt : RankTrees (Quad d)) (ghost : Option (GhostLayer d))
    (iterVolume iterFace : Bool) : Option (List (IterCall d)) :=
  if rt.first < 0 ∨ (iterVolume = false ∧ iterFace = false) then some []
  else
    if iterFace = false then do
      let parts ← (List.range' rt.first.toNat (rt.last + 1 - rt.first).toNat).mapM fun t =>
        (rt.trees[t]?).map (volumeSimple t)
      some parts.flatten
    else do
      let b ← iterBoundaries conn gfp rank rt.first.toNat rt.last.toNat
      let lastRun := if b.lastRun < rt.last then rt.last else b.lastRun
      let parts ← (List.range' rt.first.toNat (lastRun + 1 - rt.first).toNat).mapM
        (iterTree iterVolume conn rt (iterGhosts ghost) (iterOffsets rt.trees.length ghost) b.owned)
      some parts.flatten

end P4est
