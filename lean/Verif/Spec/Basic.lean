import Mathlib.Data.Set.Basic
import Verif.Model.Quadrant

/-! # Specification vocabulary

Regions are sets of unit cells of the finest grid, the space-filling curve is the interleaving of
the binary digits.  Nothing here refers to functions of the model; only the record type
`Quad` (corner and level) is used. -/

namespace P4est.Spec

variable {d : ℕ}

/-- Side length of a quadrant: the root has side `2^30` and each level halves it. -/
def side (q : Quad d) : ℤ := 2 ^ (30 - q.level)

/-- The unit cells covered by a quadrant. -/
def Cells (q : Quad d) : Set (Fin d → ℤ) := {p | ∀ i, q.c i ≤ p i ∧ p i < q.c i + side q}

/-- The corner is a multiple of the side length. -/
def Aligned (q : Quad d) : Prop := q.level ≤ 30 ∧ ∀ i, side q ∣ q.c i

/-- The corner lies in the root `[0, 2^30)^d`. -/
def InRoot (q : Quad d) : Prop := ∀ i, 0 ≤ q.c i ∧ q.c i < 2 ^ 30

/-- A legal quadrant inside the tree. -/
def Valid (q : Quad d) : Prop := q.level ≤ 29 ∧ Aligned q ∧ InRoot q

/-- A legal quadrant in the 3 x 3 (x 3) neighborhood of the tree. -/
def Extended (q : Quad d) : Prop :=
  q.level ≤ 29 ∧ Aligned q ∧ ∀ i, -2 ^ 30 ≤ q.c i ∧ q.c i < 2 ^ 31

/-- All coordinates are representable as `int32_t`. -/
def Int32 (v : Fin d → ℤ) : Prop := ∀ i, -2 ^ 31 ≤ v i ∧ v i < 2 ^ 31

/-- The base `2^d` digit made of the lowest bits of all coordinates (axis 0 least significant). -/
def digit (c : Fin d → ℕ) : ℕ := ∑ i : Fin d, 2 ^ (i : ℕ) * (c i % 2)

/-- Interleave the lowest `n` binary digits of all coordinates. -/
def interleave : (n : ℕ) → (Fin d → ℕ) → ℕ
  | 0, _ => 0
  | n + 1, c => 2 ^ d * interleave n (fun i => c i / 2) + digit c

/-- Position along the space-filling curve of a unit cell; negative coordinates are read as
32 bit unsigned numbers (so they come after all nonnegative ones). -/
def curve (p : Fin d → ℤ) : ℕ := interleave 32 (fun i => (p i % 2 ^ 32).toNat)

/-- Number of unit cells in a quadrant. -/
def volume (q : Quad d) : ℕ := 2 ^ (d * (30 - q.level))

/-- First curve position covered by a quadrant. -/
def start (q : Quad d) : ℕ := curve q.c

/-- First curve position after a quadrant. -/
def stop (q : Quad d) : ℕ := curve q.c + volume q

/-- Position of a cell counted in quadrants of the given level: the curve is cut into blocks of
`2^(d*(30-level))` cells, numbered from 0. -/
def blockIndex (level : ℕ) (p : Fin d → ℤ) : ℕ := curve p / 2 ^ (d * (30 - level))

/-- `q` precedes `r`: by curve position of the corner, coarser first at equal corners. -/
def Before (q r : Quad d) : Prop :=
  curve q.c < curve r.c ∨ (curve q.c = curve r.c ∧ q.level < r.level)

end P4est.Spec
