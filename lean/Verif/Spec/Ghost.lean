import Verif.Spec.Forest
import Verif.Spec.Glue
import Mathlib.Data.List.Infix

/-! # Specification of the ghost layer -/

namespace P4est.Spec

variable {d : ℕ}

/-- The points of a unit cell, with its boundary. -/
def UnitBox (a : Fin d → ℤ) : Set (Fin d → ℤ) := {x | ∀ i, a i ≤ x i ∧ x i ≤ a i + 1}

/-- A unit cell of a tree lies at face `f` of the tree. -/
def AtFace (f : ℕ) (a : Fin d → ℤ) : Prop :=
  ∀ i : Fin d, (i : ℕ) = f / 2 → a i = if f % 2 = 1 then 2 ^ 30 - 1 else 0

/-- The points of a unit cell that lie on face `f` of the tree. -/
def Facet (f : ℕ) (a : Fin d → ℤ) : Set (Fin d → ℤ) := {x | x ∈ UnitBox a ∧ OnFace f x}

/-- Two unit cells, each given with its tree, have a common side: they are next to each other in the same
tree, or they lie at faces of trees that are connected, and their sides on these faces are the same set of
points under the map of the coordinates. -/
def SharesFacet (conn : FaceConn) (x y : ℕ × (Fin d → ℤ)) : Prop :=
  InTree x.2 ∧ InTree y.2 ∧
  ((x.1 = y.1 ∧ ∃ i, (∀ j, j ≠ i → y.2 j = x.2 j) ∧ (y.2 i = x.2 i + 1 ∨ y.2 i = x.2 i - 1)) ∨
   ∃ f nf o T, f < 2 * d ∧ nf < 2 * d ∧ conn.treeToTree[2 * d * x.1 + f]? = some y.1 ∧
    conn.treeToFace[2 * d * x.1 + f]? = some (nf + 2 * d * o) ∧ (y.1 ≠ x.1 ∨ nf ≠ f) ∧ Glues f nf o T ∧
    AtFace f x.2 ∧ AtFace nf y.2 ∧ T '' Facet f x.2 = Facet nf y.2)

/-- Two leaves have a common part of a face. -/
def ShareFace (conn : FaceConn) (x y : ℕ × Quad d) : Prop :=
  ∃ a ∈ Cells x.2, ∃ b ∈ Cells y.2, SharesFacet conn (x.1, a) (y.1, b)

open Classical in
/-- The leaves of rank `p`, numbered, that have a given relation to some leaf of rank `r`. -/
noncomputable def seenBy (rel : ℕ × Quad d → ℕ × Quad d → Prop) (leaves : ℕ → List (ℕ × Quad d)) (p r : ℕ) :
    List ((ℕ × Quad d) × ℕ) :=
  (leaves p).zipIdx.filter fun x => decide (p ≠ r ∧ ∃ y ∈ leaves r, rel x.1 y)

/-- Ghosts of rank `r`: the related leaves of all ranks, in the order of the ranks. -/
noncomputable def ghostsOf (rel : ℕ × Quad d → ℕ × Quad d → Prop) (leaves : ℕ → List (ℕ × Quad d)) (P r : ℕ) :
    List ((ℕ × Quad d) × ℕ) :=
  (List.range P).flatMap fun p => seenBy rel leaves p r

open Classical in
/-- Mirrors of rank `r`: its leaves, numbered, that are related to a leaf of another rank. -/
noncomputable def mirrorsOf (rel : ℕ × Quad d → ℕ × Quad d → Prop) (leaves : ℕ → List (ℕ × Quad d)) (P r : ℕ) :
    List ((ℕ × Quad d) × ℕ) :=
  (leaves r).zipIdx.filter fun x => decide (∃ p < P, p ≠ r ∧ ∃ y ∈ leaves p, rel x.1 y)

/-- `offs` are the offsets that cut a list into `n` consecutive pieces. -/
def CutInto {β : Type} (l : List β) (offs : List ℕ) (n : ℕ) (piece : ℕ → List β) : Prop :=
  offs.length = n + 1 ∧ offs[0]? = some 0 ∧ offs[n]? = some l.length ∧
  ∀ i < n, ∃ a b, offs[i]? = some a ∧ offs[i + 1]? = some b ∧ a ≤ b ∧ (l.drop a).take (b - a) = piece i

end P4est.Spec
