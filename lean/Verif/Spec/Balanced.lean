import Verif.Spec.Balance
import Verif.Spec.Iterate

/-! # Specification of the test for face balance -/

namespace P4est.Spec

variable {d : ℕ}

/-- What is required of `sc_array_bsearch` (libsc), which gets the comparison of the key with an entry: what it finds
compares equal to the key, and it finds something if the array is sorted and has such an entry. -/
def Searches (bs : (Quad d → ℤ) → List (Quad d) → Option ℕ) : Prop :=
  Finds bs ∧ ∀ (f : Quad d → ℤ) (l : List (Quad d)), l.Pairwise (fun a b => (f a ≤ 0 → f b ≤ 0) ∧ (f b ≥ 0 → f a ≥ 0)) →
    (∃ x ∈ l, f x = 0) → bs f l ≠ none

/-- What is required of `sc_bsearch_range` (libsc), which gets the comparison of the key with an entry and `n` for an
array of `n + 1` entries: the position of the last entry that is not above the key if this is not the last one
of all, and `n` otherwise. -/
def SearchesRange (bsr : (Quad d → ℤ) → List (Quad d) → ℕ → ℕ) : Prop :=
  ∀ (f : Quad d → ℤ) (l : List (Quad d)) (n : ℕ), l.length = n + 1 → l.Pairwise (fun a b => (f a ≤ 0 → f b ≤ 0) ∧ (f b ≥ 0 → f a ≥ 0)) →
    (∃ a b, l[bsr f l n]? = some a ∧ l[bsr f l n + 1]? = some b ∧ f a ≥ 0 ∧ f b < 0) ∨
    (bsr f l n = n ∧ ((∃ a, l[0]? = some a ∧ f a < 0) ∨ ∃ a, l[n]? = some a ∧ f a ≥ 0))

/-- The tables of a ghost layer that a search uses: leaves in the order of the forest, with the offsets of the trees
and of the ranks. -/
structure GhostTable (trees : List (List (Quad d))) (P : ℕ) (leaves : ℕ → List (ℕ × Quad d)) (g : GhostLayer d) : Prop where
  order : (g.ghosts.map Prod.fst).Sublist (forestLeaves trees)
  byTree : ∃ piece, CutInto g.ghosts g.treeOffsets trees.length piece ∧ ∀ t < trees.length, ∀ x ∈ piece t, x.1.1 = t
  byRank : ∃ piece, CutInto g.ghosts g.procOffsets P piece ∧ ∀ p < P, ∀ x ∈ piece p, x.1 ∈ leaves p

/-- All trees lie side by side without rotation, as in a brick: each face is at the boundary or is connected to the
opposite face of some tree with orientation zero. -/
def SideBySide (d : ℕ) (conn : FaceConn) : Prop :=
  ∀ t < conn.numTrees, ∀ f < 2 * d,
    (conn.treeToTree[2 * d * t + f]? = some t ∧ conn.treeToFace[2 * d * t + f]? = some f) ∨
    conn.treeToFace[2 * d * t + f]? = some (if f % 2 = 0 then f + 1 else f - 1)

end P4est.Spec
