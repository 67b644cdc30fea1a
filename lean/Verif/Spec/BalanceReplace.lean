import Verif.Spec.Balance
import Verif.Spec.Refine
import Mathlib.Algebra.BigOperators.Group.List.Basic

/-! # Specification of the calls of the replace callback in balance -/

namespace P4est.Spec

variable {d : ℕ} {α σ : Type}

/-- One call of the replace callback: the outgoing leaves, the incoming leaves when the callback is called, and the
incoming leaves with the data that the callback has written. -/
structure ReplaceCall (d : ℕ) (α : Type) where
  outgoing : List (Leaf d α)
  incoming : List (Leaf d α)
  after : List (Leaf d α)

/-- The same callback; the calls of the replace callback are recorded beside the user state. -/
def watchInit (init : Quad d → σ → α × σ) (q : Quad d) (s : σ × List (ReplaceCall d α)) :
    α × σ × List (ReplaceCall d α) := ((init q s.1).1, (init q s.1).2, s.2)

/-- The same callback; each call is recorded. -/
def watchReplace (replace : List (Leaf d α) → List (Leaf d α) → σ → (ℕ → α) × σ) (out inc : List (Leaf d α))
    (s : σ × List (ReplaceCall d α)) : (ℕ → α) × σ × List (ReplaceCall d α) :=
  ((replace out inc s.1).1, (replace out inc s.1).2,
    s.2 ++ [⟨out, inc, inc.mapIdx fun k x => ⟨x.q, (replace out inc s.1).1 k⟩⟩])

/-- The calls `T` tell how the leaf `p` becomes the leaves `out`. -/
structure Narrates (init : Quad d → σ → α × σ) (p : Leaf d α) (out : List (Leaf d α)) (T : List (ReplaceCall d α)) :
    Prop where
  /-- each call replaces one quadrant by all of its children in order, -/
  family : ∀ c ∈ T, ∃ x, c.outgoing = [x] ∧ c.incoming.map Leaf.q = kids x.q ∧ c.after.map Leaf.q = kids x.q
  /-- no quadrant twice, -/
  once : (T.map fun c => c.outgoing.map Leaf.q).Nodup
  /-- and exactly the quadrants that are divided; -/
  which : ∀ r, (∃ c ∈ T, c.outgoing.map Leaf.q = [r]) ↔ Valid r ∧ Cells r ⊆ Cells p.q ∧ ∃ u ∈ out, Cells u.q ⊂ Cells r
  /-- the outgoing quadrant is `p` with its data, or one that came in before with the data written then; -/
  given : ∀ T1 c T2, T = T1 ++ c :: T2 → c.outgoing = [p] ∨ ∃ b ∈ T1, ∃ x ∈ b.after, c.outgoing = [x]
  /-- the incoming quadrants are initialized; -/
  fresh : ∀ c ∈ T, ∀ x ∈ c.incoming, ∃ s, x.data = (init x.q s).1
  /-- and each new leaf came in and has the data written then. -/
  result : ∀ x ∈ out, ∃ c ∈ T, x ∈ c.after

/-- Whenever the callback replaces a leaf by its children, the weights of the children add up to that of the leaf. -/
def Conserves {M : Type} [AddCommMonoid M] (replace : List (Leaf d α) → List (Leaf d α) → σ → (ℕ → α) × σ)
    (w : Leaf d α → M) : Prop :=
  ∀ (x : Leaf d α) (inc : List (Leaf d α)) (s : σ), inc.map Leaf.q = kids x.q →
    ((inc.mapIdx fun k y => (⟨y.q, (replace [x] inc s).1 k⟩ : Leaf d α)).map w).sum = w x

/-- What becomes of a leaf `x`: the leaves `O` by the calls `T`, when `ps` are all leaves afterwards. -/
structure Becomes (init : Quad d → σ → α × σ) (replace : List (Leaf d α) → List (Leaf d α) → σ → (ℕ → α) × σ)
    (ps : List (Quad d)) (x : Leaf d α) (O : List (Leaf d α)) (T : List (ReplaceCall d α)) : Prop where
  /-- if it is still a leaf then it has its data, and the callback is not called, -/
  kept : x.q ∈ ps → O = [x] ∧ T = []
  /-- otherwise the callback is called for its division; -/
  divided : x.q ∉ ps → Narrates init x O T
  inside : ∀ u ∈ O, Cells u.q ⊆ Cells x.q
  /-- what the callback conserves is conserved. -/
  conserve : ∀ (M : Type) [AddCommMonoid M] (w : Leaf d α → M), Conserves replace w → (O.map w).sum = w x

end P4est.Spec
