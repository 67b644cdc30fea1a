import Verif.Spec.Tree

/-! # Specification of the boundary search: which parts of the boundary of a quadrant a range of
cells touches -/

namespace P4est.Spec

variable {d : ℕ}

/-- The number of boundary parts: 4 faces and 4 corners, or 6 faces, 12 edges and 8 corners. -/
def boundaryParts (d : ℕ) : ℕ := if d = 3 then 26 else 8

/-- The boundary part with a given number: for each axis `some false` (the lower side), `some true`
(the upper side), or `none` (the part extends along this axis).  Faces come first, two for each
axis.  In three dimensions edges follow, four along each axis, numbered by the sides on the other two
axes, lowest axis first.  Corners are last. -/
def boundaryPart (d : ℕ) (n : ℕ) (i : ℕ) : Option Bool :=
  if n < 2 * d then if i = n / 2 then some (n.testBit 0) else none
  else if d = 3 then
    if n < 18 then
      let e := n - 6
      if i = e / 4 then none
      else some ((e % 4).testBit (if i < e / 4 then i else i - 1))
    else some ((n - 18).testBit i)
  else some ((n - 2 * d).testBit i)

/-- The quadrant `u` inside `a` reaches the boundary part `b` of `a`. -/
def TouchesPart (a : Quad d) (b : ℕ → Option Bool) (u : Quad d) : Prop :=
  ∀ i : Fin d, match b i with
    | none => True
    | some false => u.c i = a.c i
    | some true => u.c i + side u = a.c i + side a

/-- A smallest quadrant: the cells a range consists of. -/
def IsCell (u : Quad d) : Prop := Valid u ∧ u.level = 29

/-- Some cell of the quadrant `a`, no earlier than `lq` and no later than `uq` where these are given,
reaches the boundary part number `n` of `a`. -/
def RangeTouches (a : Quad d) (lq uq : Option (Quad d)) (n : ℕ) : Prop :=
  ∃ u : Quad d, IsCell u ∧ Cells u ⊆ Cells a ∧ (∀ l, lq = some l → start l ≤ start u) ∧
    (∀ r, uq = some r → start u ≤ start r) ∧ TouchesPart a (boundaryPart d n) u

end P4est.Spec
