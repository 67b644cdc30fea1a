import Verif.Spec.Forest

/-! # Weights of leaves -/

namespace P4est.Spec

variable {β σ : Type}

/-- A callback with its own state is called for all leaves of a list in this order: the returned values
and the final state. -/
def callAll (f : ℕ → β → σ → ℤ × σ) : List (ℕ × β) → σ → List ℤ × σ
  | [], s => ([], s)
  | (t, q) :: rest, s => ((f t q s).1 :: (callAll f rest (f t q s).2).1, (callAll f rest (f t q s).2).2)

/-- The leaves `[first p, first (p + 1))` of rank `p` are determined by weights `ws` of all leaves: the
first leaf of each rank `p < P` is the lowest one before which there is at least the share
`⌊W p / P⌋` of the total weight `W`; the last rank ends with the last leaf. -/
structure WeightedCuts (ws : List ℤ) (numProcs : ℕ) (first : ℕ → ℕ) : Prop where
  cut : ∀ p, p < numProcs → ∀ k, k ≤ ws.length → (first p ≤ k ↔ ws.sum * p / numProcs ≤ (ws.take k).sum)
  last : first numProcs = ws.length

end P4est.Spec
