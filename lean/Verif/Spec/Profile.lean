import Mathlib.Data.List.Chain
import Mathlib.Data.Nat.Notation

/-! # Columns of layers

A column of layers stacked over one another is given by the levels of its layers, from bottom to top.  A layer
of level `l` has the height `2 ^ (30 - l)`.  Heights are counted in units of the smallest layer. -/

namespace P4est.Spec

/-- The layers fill the interval from `z` to `e`, and each one is a dyadic interval: its height divides
the position of its bottom. -/
def Column : ℕ → List ℕ → ℕ → Prop
  | z, [], e => z = e
  | z, l :: ls, e => l ≤ 30 ∧ 2 ^ (30 - l) ∣ z ∧ Column (z + 2 ^ (30 - l)) ls e

/-- The level of the layer that holds the unit number `x`, counted from the bottom of the column; 0 above
its top. -/
def levelAt : List ℕ → ℕ → ℕ
  | [], _ => 0
  | l :: ls, x => if x < 2 ^ (30 - l) then l else levelAt ls (x - 2 ^ (30 - l))

/-- The column `b` is nowhere coarser than `a`. -/
def Finer (a b : List ℕ) : Prop := ∀ x, levelAt a x ≤ levelAt b x

/-- The levels of layers on top of each other differ by at most one. -/
def Graded (ls : List ℕ) : Prop := List.IsChain (fun p q => p ≤ q + 1 ∧ q ≤ p + 1) ls

/-- No layer of `b` is more than one level coarser than a layer of `a` at the same height. -/
def FaceBalanced (a b : List ℕ) : Prop := ∀ x, levelAt a x ≤ levelAt b x + 1

/-- No layer of `b` is more than one level coarser than a layer of `a` that overlaps it in height
or begins at the height where it ends. -/
def EdgeBalanced (a b : List ℕ) : Prop :=
  FaceBalanced a b ∧ ∀ x < (b.map fun l => 2 ^ (30 - l)).sum - 1,
    levelAt a x ≤ levelAt b (x + 1) + 1 ∧ levelAt a (x + 1) ≤ levelAt b x + 1

end P4est.Spec
