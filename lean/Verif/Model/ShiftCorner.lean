import Verif.Model.Neighbor

/-! # Quadrants at the corners of a tree

Models p4est_quadrant_touches_corner and p4est_quadrant_shift_corner of src/p4est_bits.c, for 2D and 3D
at once: axis `i` belongs to the faces `2 i` and `2 i + 1` and to bit `i` of the corner number. -/

namespace P4est

variable {d : ℕ}

/-- `P4EST_LAST_OFFSET`, src/p4est.h:71-72. -/
def lastOffsetAt (level : ℕ) : ℤ := rootLen - qlen level

/-- `p4est_quadrant_touches_corner`, src/p4est_bits.c:2158-2206.  The sum `incount` of the `d` flags
`quad_contact[2 i + side]` is compared with `d`. -/
def touchesCorner (q : Quad d) (corner : ℕ) (inside : Bool) : Bool :=
  let lower : ℤ := if q.level = MAXLEVEL then 0 else if inside then 0 else -qlen q.level
  let upper : ℤ := if q.level = MAXLEVEL then rootLen - (if inside then 1 else 0)
    else if inside then lastOffsetAt q.level else rootLen
  decide ((∑ i : Fin d, if q.c i = (if corner.testBit i then upper else lower) then 1 else 0) = d)

/-- The comparison `outface == contact[corner]`, src/p4est_bits.c:2306-2316.  Bit `2 i` of `outface` says
that coordinate `i` of `r` is at most 0, bit `2 i + 1` that it is at least `th`; the entries of `contact`
have exactly one bit of each pair, the one named by bit `i` of the corner. -/
def atCorner (r : Quad d) (th : ℤ) (corner : ℕ) : Bool :=
  decide (∀ i : Fin d, decide (r.c i ≤ 0) = !corner.testBit i ∧ decide (r.c i ≥ th) = corner.testBit i)

/-- The two clamps per axis after the loop, src/p4est_bits.c:2327-2340. -/
def clampToTree (r : Quad d) (th : ℤ) : Quad d :=
  ⟨fun i => let z := if r.c i < 0 then 0 else r.c i; if z ≥ rootLen then th else z, r.level⟩

/-- The loop of `p4est_quadrant_shift_corner`, src/p4est_bits.c:2291-2325, with the clamps after it.  The
first argument is the level of `quad`.  `none` means that an assertion fails: there is no sibling of a
quadrant of level 0 (src/p4est_bits.c:1281), or the moved quadrant is not extended (line 2324). -/
def shiftCornerLoop (corner : ℕ) : ℕ → Quad d → Option (Quad d)
  | 0, _ => none
  | l + 1, quad =>
    let th := lastOffsetAt quad.level
    let r := sibling quad corner
    if atCorner r th corner then some (clampToTree r th)
    else
      let p := cornerNeighbor (parent quad) corner
      if isExtended p then shiftCornerLoop corner l p else none

/-- `p4est_quadrant_shift_corner`, src/p4est_bits.c:2266-2344. -/
def shiftCorner (q : Quad d) (corner : ℕ) : Option (Quad d) := shiftCornerLoop corner q.level q

end P4est
