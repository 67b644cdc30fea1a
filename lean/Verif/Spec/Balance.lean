import Mathlib.Data.Finset.Card
import Verif.Spec.Tree
import Verif.Model.Tree

/-! # Specification of 2:1 balance -/

namespace P4est.Spec

variable {d : ℕ} {α σ : Type}

/-- The extents of two quadrants along one axis have a common interval. -/
def OverlapOn (q r : Quad d) (i : Fin d) : Prop := q.c i < r.c i + side r ∧ r.c i < q.c i + side q

/-- Along one axis one quadrant ends where the other begins. -/
def MeetOn (q r : Quad d) (i : Fin d) : Prop := q.c i + side q = r.c i ∨ r.c i + side r = q.c i

/-- The quadrants share a piece of their boundaries of codimension at most `k`: they meet along some
(at least one, at most `k`) axes and overlap along all others.  For `k = 1` they share a piece of a
face, for `k = 2` of a face or (3D) of an edge or (2D) a corner, for `k = 3` (3D) of a face, an edge
or a corner. -/
def Touch (k : ℕ) (q r : Quad d) : Prop :=
  ∃ A : Finset (Fin d), 1 ≤ A.card ∧ A.card ≤ k ∧ (∀ i ∈ A, MeetOn q r i) ∧ ∀ i, i ∉ A → OverlapOn q r i

/-- Quadrants that touch differ by at most one level. -/
def Balanced (k : ℕ) (ls : List (Quad d)) : Prop :=
  ∀ q ∈ ls, ∀ r ∈ ls, Touch k q r → q.level ≤ r.level + 1

/-- No quadrant of `ls` properly contains a quadrant of `ms`. -/
def AsFineAs (ls ms : List (Quad d)) : Prop := ∀ q ∈ ls, ∀ r ∈ ms, ¬ Cells r ⊂ Cells q

/-- The part of the tree from the beginning of `f` to the end of `l` along the curve. -/
def Section (f l : Quad d) : Set (Fin d → ℤ) := {p | Int32 p ∧ start f ≤ curve p ∧ curve p < stop l}

/-- Legal quadrants in curve order that cover exactly the part of the tree from `f` to `l`, without
overlap. -/
structure Tiles (f l : Quad d) (ls : List (Quad d)) : Prop where
  valid : ∀ q ∈ ls, Valid q
  linear : Linear ls
  cover : Cover ls = Section f l

/-- What is required of `sc_array_bsearch` (libsc): the entry returned is in the array and compares
equal to the key.  (That an entry is found whenever there is one is not needed.) -/
def Finds (bs : (Quad d → ℤ) → List (Quad d) → Option ℕ) : Prop :=
  ∀ f l i, bs f l = some i → ∃ h : i < l.length, f l[i] = 0

/-- The leaves `ps` with their data, when `old` are the leaves before: a leaf that was there before
keeps its data, every other leaf is initialized by the callback, in the order of the leaves. -/
def carried (init : Quad d → σ → α × σ) (old : List (Leaf d α)) : List (Quad d) → σ → List (Leaf d α) × σ
  | [], s => ([], s)
  | p :: ps, s =>
    match old.find? (fun x => x.q = p) with
    | some x => (x :: (carried init old ps s).1, (carried init old ps s).2)
    | none => (⟨p, (init p s).1⟩ :: (carried init old ps (init p s).2).1, (carried init old ps (init p s).2).2)

/-- The leaves of `old` that are not in `ps`. -/
def dropped (old : List (Leaf d α)) (ps : List (Quad d)) : List (Leaf d α) := old.filter fun x => x.q ∉ ps

end P4est.Spec
