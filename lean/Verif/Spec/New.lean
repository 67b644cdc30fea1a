import Verif.Spec.Forest
import Verif.Model.Quadrant

/-! # Specification of the creation of a forest -/

namespace P4est.Spec

variable {d : ℕ} {α σ : Type}

/-- `l` is the smallest level that is at least `minLevel` and at which `T` uniform trees have at least
`minQuadrants` quadrants for each of the `P` processes. -/
structure StartLevel (d P T : ℕ) (minQuadrants minLevel : ℤ) (l : ℕ) : Prop where
  level : minLevel ≤ l
  enough : P * minQuadrants ≤ T * 2 ^ (d * l)
  least : ∀ k : ℕ, minLevel ≤ k → P * minQuadrants ≤ T * 2 ^ (d * k) → l ≤ k

/-- New leaves are given to a callback one after the other, which returns their data: the leaves with
their data and the final state of the callback. -/
def createAll (init : ℕ → Quad d → σ → α × σ) : List (ℕ × Quad d) → σ → List (ℕ × (Quad d × α)) × σ
  | [], s => ([], s)
  | (t, q) :: rest, s =>
    ((t, (q, (init t q s).1)) :: (createAll init rest (init t q s).2).1, (createAll init rest (init t q s).2).2)

end P4est.Spec
