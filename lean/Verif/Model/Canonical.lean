import Verif.Model.GhostCorner

/-! # Model of `p4est_connectivity_coordinates_canonicalize` and of the neighbor transforms: src/p4est_connectivity.c:5435-5947

Edges of trees in three dimensions are not modelled. -/

namespace P4est

variable {d : ℕ}

/-! ### Canonical coordinates -/

/-- A candidate with a tree number that is not above that of the best so far, src/p4est_connectivity.c:5835-5848, 5879-5892 and
5923-5935. -/
def takeLower (s : ℕ × (Fin d → ℤ)) (n : ℕ) (y : Fin d → ℤ) : ℕ × (Fin d → ℤ) :=
  if n < s.1 then (n, y) else if coordsCompare y s.2 < 0 then (s.1, y) else s

/-- `quad_contact[face]`, src/p4est_connectivity.c:5794-5806. -/
def contact (x : Fin d → ℤ) (f : ℕ) : Bool := readAxis x (f / 2) == some (if f % 2 = 1 then rootLen else 0)

/-- `contacts`, src/p4est_connectivity.c:5794-5807: the number of axes with a contact. -/
def contacts (d : ℕ) (x : Fin d → ℤ) : ℕ := ((List.range d).filter fun i => contact x (2 * i) || contact x (2 * i + 1)).length

/-- One turn of the loop over the faces, src/p4est_connectivity.c:5818-5850.  `mem` is the content of `ncoords`. -/
def canonFace (mem : Fin d → ℤ) (conn : FaceConn) (t : ℕ) (x : Fin d → ℤ) (s : ℕ × (Fin d → ℤ)) (f : ℕ) :
    Option (ℕ × (Fin d → ℤ)) :=
  if contact x f = false then some s
  else do
    let nt ← conn.treeToTree[2 * d * t + f]?
    let code ← conn.treeToFace[2 * d * t + f]?
    if nt = t ∧ code = f then some s
    else if s.1 < nt then some s
    else do
      let r ← findFaceTransform d conn t f
      let r ← r
      if r.1 ≠ nt then none
      else do
        let y ← coordinatesTransformFace mem x r.2
        some (takeLower s nt y)

/-- `p4est_connectivity_coordinates_canonicalize`, src/p4est_connectivity.c:5745-5947.  `rest` is the part for edges and corners,
5856-5938. -/
def canonicalizeWith (mem : Fin d → ℤ) (conn : FaceConn) (rest : ℕ × (Fin d → ℤ) → Option (ℕ × (Fin d → ℤ))) (t : ℕ) (x : Fin d → ℤ) :
    Option (ℕ × (Fin d → ℤ)) :=
  if contacts d x = 0 then some (t, x)
  else do
    let s ← (List.range (2 * d)).foldlM (canonFace mem conn t x) (t, x)
    if contacts d x = 1 then some s else rest s

/-- `p4est_coordinates_transform_corner`, src/p4est_bits.c:2208-2227. -/
def cornerCoords (corner : ℕ) : Fin 2 → ℤ := fun i => if corner.testBit i then rootLen else 0

/-- The loop over the transforms of a corner, src/p4est_connectivity.c:5915-5936. -/
def canonTake (s : ℕ × (Fin 2 → ℤ)) (ct : ℕ × ℕ) : ℕ × (Fin 2 → ℤ) := if s.1 < ct.1 then s else takeLower s ct.1 (cornerCoords ct.2)

/-- One turn of the loop over the corners, src/p4est_connectivity.c:5905-5936, in two dimensions. -/
def canonCorner (conn : FaceConn) (cc : CornerConn) (t : ℕ) (x : Fin 2 → ℤ) (s : ℕ × (Fin 2 → ℤ)) (c : ℕ) : Option (ℕ × (Fin 2 → ℤ)) := do
  let f ← entry cornerFacesTable c 0
  let f' ← entry cornerFacesTable c 1
  if contact x f && contact x f' then do
    let cta ← findCornerTransform conn cc t c
    some (cta.foldl canonTake s)
  else some s

/-- The function in two dimensions. -/
def canonicalize (mem : Fin 2 → ℤ) (conn : FaceConn) (cc : CornerConn) (t : ℕ) (x : Fin 2 → ℤ) : Option (ℕ × (Fin 2 → ℤ)) :=
  canonicalizeWith mem conn (fun s => (List.range 4).foldlM (canonCorner conn cc t x) s) t x

/-! ### Neighbor transforms -/

/-- `p4est_neighbor_transform_t`, src/p4est_connectivity.h:264-284.  `neighborType` is 0 for the tree itself, 1 for a face and 2 for a
corner. -/
structure NeighborTransform (d : ℕ) where
  neighborType : ℕ
  neighbor : ℕ
  indexSelf : ℕ
  indexNeighbor : ℕ
  perm : Fin d → Fin d
  sign : Fin d → ℤ
  originSelf : Fin d → ℤ
  originNeighbor : Fin d → ℤ

/-- `*my_xyz` and the like: an axis number that is in range. -/
def axisOf (d a : ℕ) : Option (Fin d) := if h : a < d then some ⟨a, h⟩ else none

/-- The `switch`, src/p4est_connectivity.c:5460-5484: `sign2`, `o_self2` and `o_neigh2`. -/
def normalPart (r : ℕ) : Option (ℤ × ℤ × ℤ) :=
  match r with
  | 0 => some (-1, 0, 0)
  | 1 => some (1, 0, rootLen)
  | 2 => some (1, rootLen, 0)
  | 3 => some (-1, rootLen, rootLen)
  | _ => none

/-- The loops for the tangential axis `k`, src/p4est_connectivity.c:5450-5459. -/
def tangentPart (nt : NeighborTransform d) (my target reverse : ℕ) : Option (NeighborTransform d) := do
  let m ← axisOf d my
  let a ← axisOf d target
  some { nt with
    perm := Function.update nt.perm a m
    sign := Function.update nt.sign a (if reverse ≠ 0 then -1 else 1)
    originNeighbor := Function.update nt.originNeighbor a (rootLen / 2)
    originSelf := Function.update nt.originSelf m (rootLen / 2) }

/-- The second tangential axis, which exists in three dimensions only. -/
def tangentSecond (ft : FTransform) (nt : NeighborTransform d) : Option (NeighborTransform d) :=
  if d = 3 then tangentPart nt ft.my1 ft.target1 ft.reverse1 else some nt

/-- `p4est_face_transform_to_neighbor_transform`, src/p4est_connectivity.c:5433-5489.  The loop over `perm` and that over the
tangential axes write to different members and are done together. -/
def faceToNeighbor (ft : FTransform) (nt : NeighborTransform d) : Option (NeighborTransform d) := do
  let nt ← tangentPart nt ft.my0 ft.target0 ft.reverse0
  let nt ← tangentSecond ft nt
  let m ← axisOf d ft.my2
  let a ← axisOf d ft.target2
  let n ← normalPart ft.reverse2
  some { nt with
    perm := Function.update nt.perm a m
    sign := Function.update nt.sign a n.1
    originSelf := Function.update nt.originSelf m n.2.1
    originNeighbor := Function.update nt.originNeighbor a n.2.2 }

/-- `p4est_corner_transform_to_neighbor_transform`, src/p4est_connectivity.c:5520-5531, with the entries set in 5680-5683. -/
def cornerToNeighbor (ct : ℕ × ℕ) (corner : ℕ) : NeighborTransform 2 where
  neighborType := 2
  neighbor := ct.1
  indexSelf := corner
  indexNeighbor := ct.2
  perm := id
  sign := fun i => if (corner ^^^ ct.2).testBit i then 1 else -1
  originSelf := fun i => if corner.testBit i then rootLen else 0
  originNeighbor := fun i => if ct.2.testBit i then rootLen else 0

/-- The transformation to the tree itself, src/p4est_connectivity.c:5586-5600. -/
def selfTransform (d t : ℕ) : NeighborTransform d := ⟨0, t, 0, 0, id, fun _ => 1, fun _ => 0, fun _ => 0⟩

/-- One turn of the loop over the faces, src/p4est_connectivity.c:5618-5634.  `mem` is the new element of the array. -/
def faceNeighborTransform (mem : NeighborTransform d) (conn : FaceConn) (t f : ℕ) : Option (List (NeighborTransform d)) := do
  let r ← findFaceTransform d conn t f
  match r with
  | none => some []
  | some (nt, ft) => do
    let code ← conn.treeToFace[2 * d * t + f]?
    let n ← faceToNeighbor ft { mem with neighborType := 1, neighbor := nt, indexSelf := f, indexNeighbor := code % (2 * d) }
    some [n]

/-- `p4est_connectivity_get_neighbor_transforms`, src/p4est_connectivity.c:5533-5689, for `P4EST_CONNECT_SELF`. -/
def neighborTransformsSelf (d t : ℕ) : List (NeighborTransform d) := [selfTransform d t]

/-- The same for `P4EST_CONNECT_FACE`. -/
def neighborTransformsFace (mem : NeighborTransform d) (conn : FaceConn) (t f : ℕ) : Option (List (NeighborTransform d)) := do
  let l ← faceNeighborTransform mem conn t f
  some (selfTransform d t :: l)

/-- The same for `P4EST_CONNECT_CORNER` in two dimensions. -/
def neighborTransformsCorner (mem : NeighborTransform 2) (conn : FaceConn) (cc : CornerConn) (t c : ℕ) :
    Option (List (NeighborTransform 2)) := do
  let f ← entry cornerFacesTable c 0
  let f' ← entry cornerFacesTable c 1
  let l ← faceNeighborTransform mem conn t f
  let l' ← faceNeighborTransform mem conn t f'
  let cta ← findCornerTransform conn cc t c
  some (selfTransform 2 t :: l ++ l' ++ cta.map fun ct => cornerToNeighbor ct c)

/-- `p4est_neighbor_transform_coordinates`, src/p4est_connectivity.c:5691-5706. -/
def neighborCoordinates (nt : NeighborTransform d) (x : Fin d → ℤ) : Fin d → ℤ :=
  fun i => nt.sign i * (x (nt.perm i) - nt.originSelf (nt.perm i)) + nt.originNeighbor i

/-- `p4est_neighbor_transform_coordinates_reverse`, src/p4est_connectivity.c:5708-5727: the loop over the axes; `mem` is the content of
the output. -/
def neighborCoordinatesReverse (mem : Fin d → ℤ) (nt : NeighborTransform d) (y : Fin d → ℤ) : Fin d → ℤ :=
  (List.finRange d).foldl (fun z i =>
    Function.update z (nt.perm i) (nt.sign i * (y i - nt.originNeighbor i) + nt.originSelf (nt.perm i))) mem

end P4est
