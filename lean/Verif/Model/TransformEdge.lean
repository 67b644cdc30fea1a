import Verif.Model.ShiftEdge

/-! # Octants across an edge between two trees

Models p8est_quadrant_transform_edge of src/p8est_bits.c and the record it takes. -/

namespace P4est

/-- `p8est_edge_transform_t`, src/p8est_connectivity.h:287-295, without `ntree`. -/
structure EdgeTransform where
  nedge : ℕ
  naxis : Fin 3 → ℕ
  nflip : Bool
  corners : ℕ

/-- How `p8est_find_edge_transform_internal` fills the record for a neighbor at its edge `nedge`,
src/p8est_connectivity.c:1627-1634. -/
def edgeTransformOf (nedge : ℕ) (nflip : Bool) : EdgeTransform where
  nedge := nedge
  naxis := ![nedge / 4, if nedge < 4 then 1 else 0, if nedge < 8 then 2 else 1]
  nflip := nflip
  corners := nedge % 4

/-- The result of `p8est_quadrant_transform_edge`, src/p8est_bits.c:426-521, before its last assertion.  The
repeated computation for debugging (505-519) is left out.  `iedge`
is the member of that name of `ei`.  An assignment to `*target_xyz[naxis]` gives the coordinate number `naxis`;
the assertions about `naxis` at 437-441, which hold for `edgeTransformOf`, make these three distinct. -/
def edgeImage (q : Quad 3) (iedge : ℕ) (et : EdgeTransform) (inside : Bool) : Quad 3 :=
  let mh : ℤ := if q.level = MAXLEVEL then 0 else -qlen q.level
  let rmh : ℤ := rootLen + mh
  let lshift : ℤ := if q.level = MAXLEVEL then 0 else if inside then 0 else mh
  let rshift : ℤ := if q.level = MAXLEVEL then rootLen else if inside then rmh else rootLen
  let my : ℤ := if iedge / 4 = 0 then q.c 0 else if iedge / 4 = 1 then q.c 1 else q.c 2
  ⟨fun j =>
    if (j : ℕ) = et.naxis 0 then (if et.nflip then rmh - my else my)
    else if (j : ℕ) = et.naxis 1 then (if et.corners = 1 ∨ et.corners = 3 then rshift else lshift)
    else (if et.corners = 2 ∨ et.corners = 3 then rshift else lshift), q.level⟩

/-- `p8est_quadrant_transform_edge`, src/p8est_bits.c:426-523.  `none` means that one of the assertions about
touching the edge fails (446-447, 452 and 522). -/
def transformEdge (q : Quad 3) (iedge : ℕ) (et : EdgeTransform) (inside : Bool) : Option (Quad 3) :=
  if (if q.level = MAXLEVEL then !inside && touchesEdge q iedge inside else touchesEdge q iedge (!inside)) then
    if touchesEdge (edgeImage q iedge et inside) et.nedge inside then some (edgeImage q iedge et inside) else none
  else none

/-- `p8est_coordinates_transform_edge`, src/p8est_bits.c:372-423, with assignments as for `edgeImage`. -/
def coordinatesTransformEdge (p : Fin 3 → ℤ) (iedge : ℕ) (et : EdgeTransform) : Fin 3 → ℤ :=
  let my : ℤ := if iedge / 4 = 0 then p 0 else if iedge / 4 = 1 then p 1 else p 2
  fun j =>
    if (j : ℕ) = et.naxis 0 then (if et.nflip then rootLen - my else my)
    else if (j : ℕ) = et.naxis 1 then (if et.corners = 1 ∨ et.corners = 3 then rootLen else 0)
    else (if et.corners = 2 ∨ et.corners = 3 then rootLen else 0)

end P4est
