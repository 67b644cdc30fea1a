import Verif.Spec.Tree

/-! # Specification vocabulary for forests distributed among ranks -/

namespace P4est.Spec

variable {d : ℕ}

/-- A unit cell of the tree. -/
def InTree (p : Fin d → ℤ) : Prop := ∀ i, 0 ≤ p i ∧ p i < 2 ^ 30

/-- The leaves of one complete tree: legal quadrants, in curve order without overlap, that
together cover the tree. -/
structure TreeComplete (ls : List (Quad d)) : Prop where
  valid : ∀ q ∈ ls, Valid q
  linear : Linear ls
  cover : ∀ p, InTree p → ∃ q ∈ ls, p ∈ Cells q

/-- The leaves of trees number `n, n + 1, ...`, each with its tree number. -/
def tagFrom {β : Type} : ℕ → List (List β) → List (ℕ × β)
  | _, [] => []
  | n, l :: ls => l.map (fun q => (n, q)) ++ tagFrom (n + 1) ls

/-- The global sequence of all leaves of a forest. -/
def forestLeaves {β : Type} (trees : List (List β)) : List (ℕ × β) := tagFrom 0 trees

/-- The leaves of a forest of complete trees are distributed among `numProcs` ranks: their leaves
in the order of the ranks are the global sequence. -/
structure Distributed (trees : List (List (Quad d))) (numProcs : ℕ) (leaves : ℕ → List (ℕ × Quad d)) :
    Prop where
  complete : ∀ l ∈ trees, TreeComplete l
  someTree : trees ≠ []
  split : (List.range numProcs).flatMap leaves = forestLeaves trees

/-- Curve position in the whole forest: tree after tree. -/
def forestPos (tree : ℤ) (p : Fin d → ℤ) : ℤ := tree * 2 ^ (d * 30) + curve p

end P4est.Spec
