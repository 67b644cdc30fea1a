import Verif.Model.ShiftCorner

/-! # Octants at the edges of a tree

Models p8est_quadrant_touches_edge and p8est_quadrant_shift_edge of src/p8est_bits.c. -/

namespace P4est

/-- Whether the edge is at the upper end of axis `i`: bit 0 of the edge number for the first, bit 1 for the
second of the two axes other than `edge / 4`.  This is `side` in src/p8est_bits.c:348-359; for the axis of the
edge itself the value is not used there and `false` here. -/
def edgeEnd (edge : ℕ) (i : Fin 3) : Bool :=
  if (i : ℕ) = edge / 4 then false
  else if (i : ℕ) = 0 then edge.testBit 0
  else if (i : ℕ) = 1 then (if edge / 4 = 0 then edge.testBit 0 else edge.testBit 1)
  else edge.testBit 1

/-- `p8est_quadrant_touches_edge`, src/p8est_bits.c:313-369, without the assertions.  `incount` counts the two
axes other than that of the edge. -/
def touchesEdge (q : Quad 3) (edge : ℕ) (inside : Bool) : Bool :=
  let lower : ℤ := if q.level = MAXLEVEL then 0 else if inside then 0 else -qlen q.level
  let upper : ℤ := if q.level = MAXLEVEL then rootLen - (if inside then 1 else 0)
    else if inside then lastOffsetAt q.level else rootLen
  decide ((∑ i : Fin 3, if (i : ℕ) ≠ edge / 4 ∧ q.c i = (if edgeEnd edge i then upper else lower) then 1 else 0) = 2)

/-- `sid[0]`, src/p8est_bits.c:561, 569 and 577: the lower child at the edge. -/
def edgeLower (edge : ℕ) : ℕ :=
  if edge / 4 = 0 then 2 * edge
  else if edge / 4 = 1 then 2 * (edge &&& 2) + (edge &&& 1)
  else edge - 8

/-- The array `step`, src/p8est_bits.c:564-566, 572-574 and 580-582. -/
def edgeStep (edge : ℕ) (i : Fin 3) : ℤ := if (i : ℕ) = edge / 4 then 0 else if edgeEnd edge i then 1 else -1

/-- The comparison `outface == contact[edge]`, src/p8est_bits.c:598-613: as `atCorner`, for the axes whose step
is not zero. -/
def atEdge (r : Quad 3) (th : ℤ) (edge : ℕ) : Bool :=
  decide (∀ i : Fin 3, edgeStep edge i ≠ 0 →
    decide (r.c i ≤ 0) = !edgeEnd edge i ∧ decide (r.c i ≥ th) = edgeEnd edge i)

/-- The clamps of `r`, src/p8est_bits.c:643-648 and alike. -/
def clampLateral (r : Quad 3) (th : ℤ) (edge : ℕ) : Quad 3 :=
  ⟨fun i => if edgeStep edge i ≠ 0 then (clampToTree r th).c i else r.c i, r.level⟩

/-- The parent moved by `step`, and by `along` lengths along the edge, src/p8est_bits.c:614-636. -/
def edgeMove (quad : Quad 3) (edge : ℕ) (along : ℤ) : Quad 3 :=
  ⟨fun i => (parent quad).c i + edgeStep edge i * qlen (quad.level - 1)
      + (if (i : ℕ) = edge / 4 then along * qlen (quad.level - 1) else 0), quad.level - 1⟩

/-- The loop of `p8est_quadrant_shift_edge`, src/p8est_bits.c:556-641, with the clamps after it (643-684).  The
first argument is the level of the three quadrants.  The result is `r`, `rup` and `rdown`; the last two are
computed always, although the pointers may be NULL.  `none` means that an assertion fails, see
`shiftCornerLoop`. -/
def shiftEdgeLoop (edge : ℕ) : ℕ → Quad 3 → Quad 3 → Quad 3 → Option (Quad 3 × Quad 3 × Quad 3)
  | 0, _, _, _ => none
  | l + 1, q0, q1, q2 =>
    let th := lastOffsetAt q0.level
    let r := sibling q1 (edgeLower edge + (childId q1 &&& 2 ^ (edge / 4)))
    let rup := sibling q0 (edgeLower edge)
    let rdown := sibling q2 (edgeLower edge + 2 ^ (edge / 4))
    if atEdge r th edge then some (clampLateral r th edge, clampToTree rup th, clampToTree rdown th)
    else
      let p0 := edgeMove q0 edge 1
      let p1 := edgeMove q1 edge 0
      let p2 := edgeMove q2 edge (-1)
      if isExtended p0 && isExtended p1 && isExtended p2 then shiftEdgeLoop edge l p0 p1 p2 else none

/-- `p8est_quadrant_shift_edge`, src/p8est_bits.c:525-689. -/
def shiftEdge (q : Quad 3) (edge : ℕ) : Option (Quad 3 × Quad 3 × Quad 3) := shiftEdgeLoop edge q.level q q q

end P4est
