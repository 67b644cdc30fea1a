import Verif.Model.Brick
import Verif.Spec.Canonical

/-! # What a rectangular grid of trees is -/

namespace P4est.Spec

/-- The next coordinate to the lower side (`up` false) or the upper one in a row of `m` trees, which may be periodic. -/
def nextInRow (m : ℕ) (per : Bool) (up : Bool) (x : ℕ) : Option ℕ :=
  if up then if x + 1 < m then some (x + 1) else if per then some 0 else none
  else if 0 < x then some (x - 1) else if per then some (m - 1) else none

/-- The position across face `f`. -/
def nextInGrid (m n : ℕ) (pa pb : Bool) (p : ℕ × ℕ) (f : ℕ) : Option (ℕ × ℕ) :=
  if f / 2 = 0 then (nextInRow m pa (f.testBit 0) p.1).map fun x => (x, p.2)
  else (nextInRow n pb (f.testBit 0) p.2).map fun y => (p.1, y)

/-- Corner `c` of the unit square at a position. -/
def cornerOf (p : ℕ × ℕ) (c : ℕ) : ℕ × ℕ := (p.1 + if c.testBit 0 then 1 else 0, p.2 + if c.testBit 1 then 1 else 0)

/-- The number of a point in a row of `m` intervals: in a periodic row the last point is the first one. -/
def pointInRow (m : ℕ) (per : Bool) (x : ℕ) : ℕ := if per then x % m else x

/-- The number of a point of the grid. -/
def pointInGrid (m n : ℕ) (pa pb : Bool) (v : ℕ × ℕ) : ℕ × ℕ := (pointInRow m pa v.1, pointInRow n pb v.2)

/-- A point that is not on the boundary of the grid. -/
def InnerPoint (m n : ℕ) (pa pb : Bool) (v : ℕ × ℕ) : Prop := (pa ∨ 0 < v.1 ∧ v.1 < m) ∧ (pb ∨ 0 < v.2 ∧ v.2 < n)

/-- The tables describe a grid of `m` by `n` unit squares, and `pos` tells where each tree is.  Trees that are next to each other are
connected by opposite faces without a turn, the other faces are the boundary.  The corner tables list the corners that are the same
inner point of the grid.  Each point of the grid is a vertex once, and the corners of the trees have the vertices at their positions. -/
structure BrickLayout (m n : ℕ) (pa pb : Bool) (b : Brick) (pos : ℕ → ℕ × ℕ) : Prop where
  trees : b.conn.numTrees = m * n
  positions : Set.BijOn pos {t | t < m * n} {p | p.1 < m ∧ p.2 < n}
  inner : ∀ t f p, t < m * n → f < 4 → nextInGrid m n pa pb (pos t) f = some p → ∃ t' < m * n, pos t' = p ∧
    b.conn.treeToTree[4 * t + f]? = some t' ∧ b.conn.treeToFace[4 * t + f]? = some (if f.testBit 0 then f - 1 else f + 1)
  outer : ∀ t f, t < m * n → f < 4 → nextInGrid m n pa pb (pos t) f = none →
    b.conn.treeToTree[4 * t + f]? = some t ∧ b.conn.treeToFace[4 * t + f]? = some f
  corners : ∀ t t' c c', t < m * n → t' < m * n → c < 4 → c' < 4 →
    (SameCorner b.corners (t, c) (t', c') ↔ InnerPoint m n pa pb (cornerOf (pos t) c) ∧
      pointInGrid m n pa pb (cornerOf (pos t) c) = pointInGrid m n pa pb (cornerOf (pos t') c'))
  vertices : b.points.vertices.length = (m + 1) * (n + 1) ∧ b.points.vertices.Nodup
  treeVertices : ∀ t c, t < m * n → c < 4 → ∃ v : ℕ, b.points.treeToVertex[4 * t + c]? = some (v : ℤ) ∧
    b.points.vertices[v]? = some (cornerOf (pos t) c)

end P4est.Spec
