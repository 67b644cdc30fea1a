import Verif.Model.Refine
import Verif.Spec.Tree

/-! # Specification of refinement

What refinement should do, as a recursion over the leaves, with no array, list or in-place update.
Only the record types `Quad`, `Leaf` and `RefineCb` of the model are used. -/

namespace P4est.Spec

variable {d : ℕ} {α β γ σ : Type}

/-- Run a state-passing function over a list from left to right and concatenate the results. -/
def runAll (f : β → σ → List γ × σ) : List β → σ → List γ × σ
  | [], s => ([], s)
  | x :: xs, s => ((f x s).1 ++ (runAll f xs (f x s).2).1, (runAll f xs (f x s).2).2)

/-- The `k`-th child of a quadrant: half the side, shifted by half the side along the axes whose
bit is set in `k`. -/
def kid (q : Quad d) (k : ℕ) : Quad d :=
  ⟨fun i => q.c i + (if k.testBit i then 2 ^ (30 - (q.level + 1)) else 0), q.level + 1⟩

/-- The `2^d` children in curve order. -/
def kids (q : Quad d) : List (Quad d) := (List.range (2 ^ d)).map (kid q)

/-- Split a leaf with the two user actions `ask` (refine this leaf?) and `make` (produce the child
leaves).  `n` is the number of levels the leaf may still be refined. -/
def splitLeaf (ask : Leaf d α → σ → Bool × σ) (make : Leaf d α → σ → List (Leaf d α) × σ)
    (recursive : Bool) : ℕ → Leaf d α → σ → List (Leaf d α) × σ
  | 0, x, s => ([x], (ask x s).2)
  | n + 1, x, s =>
    if (ask x s).1 then
      if recursive then
        runAll (splitLeaf ask make recursive n) (make x (ask x s).2).1 (make x (ask x s).2).2
      else make x (ask x s).2
    else ([x], (ask x s).2)

/-- The same for a decision that depends on the quadrant only and without user data. -/
def splitQuad (ask : Quad d → Bool) (recursive : Bool) : ℕ → Quad d → List (Quad d)
  | 0, q => [q]
  | n + 1, q =>
    if ask q then
      if recursive then (kids q).flatMap (splitQuad ask recursive n) else kids q
    else [q]

end P4est.Spec
