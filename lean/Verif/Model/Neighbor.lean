import Verif.Model.Linear

/-! # Neighbors, corner/face/edge points and nodes

Models parts of src/p4est_bits.c and src/p8est_bits.c. -/

namespace P4est

variable {d : ℕ}

/-- `p4est_quadrant_face_neighbor`, src/p4est_bits.c:1332-1349: axis `i` belongs to the faces
`2 i` and `2 i + 1`. -/
def faceNeighbor (q : Quad d) (face : ℕ) : Quad d :=
  ⟨fun i => q.c i + (if face = 2 * (i : ℕ) then -qlen q.level
                     else if face = 2 * (i : ℕ) + 1 then qlen q.level else 0), q.level⟩

/-- Entry `i` of the array `n` of `p4est_quadrant_half_face_neighbors`,
src/p4est_bits.c:1387-1439.  The three cases of the `switch` enumerate the axes parallel to the
face in increasing order; the parallel axis number `t` is moved by bit `t` of `i`. -/
def halfFaceNeighbor (q : Quad d) (face i : ℕ) : Quad d :=
  ⟨fun a => q.c a + (if face = 2 * (a : ℕ) then -qlen (q.level + 1)
                     else if face = 2 * (a : ℕ) + 1 then qlen q.level else 0)
      + (if (a : ℕ) = face / 2 then 0
         else if i.testBit (if (a : ℕ) < face / 2 then a else a - 1) then qlen (q.level + 1) else 0),
    q.level + 1⟩

/-- `p4est_quadrant_half_face_neighbors`, array `n`. -/
def halfFaceNeighbors (q : Quad d) (face : ℕ) : List (Quad d) :=
  (List.range (2 ^ (d - 1))).map (halfFaceNeighbor q face)

/-- `p4est_quadrant_half_face_neighbors`, array `nur`, src/p4est_bits.c:1441-1454. -/
def halfFaceNeighborsUpperRight (q : Quad d) (face : ℕ) : List (Quad d) :=
  (List.range (2 ^ (d - 1))).map (fun i =>
    ⟨fun a => (halfFaceNeighbor q face i).c a + (qlen (q.level + 1) - qlen QMAXLEVEL), QMAXLEVEL⟩)

/-- `p4est_quadrant_all_face_neighbors`, src/p4est_bits.c:1457-1488: the half size neighbors
(none at the maximum level), the neighbor of equal size and the one of double size (if it
exists). -/
def allFaceNeighbors (q : Quad d) (face : ℕ) :
    Option (List (Quad d)) × Quad d × Option (Quad d) :=
  (if q.level = QMAXLEVEL then none else some (halfFaceNeighbors q face),
   faceNeighbor q face,
   if (childId q >>> (face / 2)) % 2 ≠ face % 2 ∨ q.level = 0 then none
   else some (faceNeighbor (parent q) face))

/-- `p4est_quadrant_corner_neighbor`, src/p4est_bits.c:1515-1532. -/
def cornerNeighbor (q : Quad d) (corner : ℕ) : Quad d :=
  ⟨fun i => q.c i + (if corner.testBit i then 1 else -1) * qlen q.level, q.level⟩

/-- `p4est_quadrant_half_corner_neighbor`, src/p4est_bits.c:1694-1712. -/
def halfCornerNeighbor (q : Quad d) (corner : ℕ) : Quad d :=
  ⟨fun i => q.c i + (if corner.testBit i then qlen q.level else -qlen (q.level + 1)), q.level + 1⟩

/-- `p4est_quadrant_corner_node`, src/p4est_bits.c:1714-1730. -/
def cornerNode (q : Quad d) (corner : ℕ) : Quad d :=
  ⟨fun i => q.c i + (if corner.testBit i then 1 else 0) * qlen q.level, MAXLEVEL⟩

/-- `p4est_quadrant_corner_coordinates`, src/p4est_bits.c:1732-1747. -/
def cornerCoordinates (q : Quad d) (corner : ℕ) : Fin d → ℤ :=
  fun i => q.c i + (if corner.testBit i then qlen q.level else 0)

/-- `p4est_quadrant_face_coordinates`, src/p4est_bits.c:1490-1513: the midpoint of a face. -/
def faceCoordinates (q : Quad d) (face : ℕ) : Fin d → ℤ :=
  fun i => q.c i + (if face / 2 = (i : ℕ) then (if face.testBit 0 then qlen q.level else 0)
                    else qlen q.level >>> 1)

/-- `p4est_quadrant_volume_coordinates`, src/p4est_bits.c:1312-1330: the midpoint. -/
def volumeCoordinates (q : Quad d) : Fin d → ℤ := fun i => q.c i + qlen (q.level + 1)

/-- `p8est_quadrant_edge_neighbor`, src/p8est_bits.c:120-156. -/
def edgeNeighbor (q : Quad 3) (edge : ℕ) : Quad 3 :=
  let s0 : ℤ := 2 * (edge &&& 1 : ℕ) - 1
  let s1 : ℤ := (edge &&& 2 : ℕ) - 1
  match edge / 4 with
  | 0 => ⟨![q.c 0, q.c 1 + s0 * qlen q.level, q.c 2 + s1 * qlen q.level], q.level⟩
  | 1 => ⟨![q.c 0 + s0 * qlen q.level, q.c 1, q.c 2 + s1 * qlen q.level], q.level⟩
  | _ => ⟨![q.c 0 + s0 * qlen q.level, q.c 1 + s1 * qlen q.level, q.c 2], q.level⟩

/-- `p8est_quadrant_edge_coordinates`, src/p8est_bits.c:690-717: the midpoint of an edge. -/
def edgeCoordinates (q : Quad 3) (edge : ℕ) : Fin 3 → ℤ :=
  let qh := qlen q.level
  let qhh := qh >>> 1
  let s := if edge / 4 = 0 then 1 else 2
  ![q.c 0 + (if edge / 4 = 0 then qhh else if edge &&& 1 ≠ 0 then qh else 0),
    q.c 1 + (if edge / 4 = 1 then qhh else if edge &&& s ≠ 0 then qh else 0),
    q.c 2 + (if edge / 4 = 2 then qhh else if edge &&& 2 ≠ 0 then qh else 0)]

/-- `p4est_node_clamp_inside`, src/p4est_bits.c:565-577. -/
def nodeClampInside (n : Quad d) : Quad d :=
  ⟨fun i => if n.c i = rootLen then rootLen - 1 else n.c i, MAXLEVEL⟩

/-- `p4est_node_unclamp`, src/p4est_bits.c:579-593. -/
def nodeUnclamp (n : Quad d) : Quad d :=
  ⟨fun i => if n.c i = rootLen - 1 then rootLen else n.c i, n.level⟩

/-- `p4est_node_to_quadrant`, src/p4est_bits.c:595-611. -/
def nodeToQuadrant (n : Quad d) (level : ℕ) : Quad d :=
  ⟨fun i => Int.land (n.c i) (Int.lnot (2 ^ (MAXLEVEL - level) - 1)), level⟩

end P4est
