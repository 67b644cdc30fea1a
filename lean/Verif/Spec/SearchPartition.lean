import Verif.Spec.SearchLocal
import Verif.Spec.Forest
import Verif.Model.SearchPartition

/-! # What the searches of the partition and of the whole forest may be observed to do -/

namespace P4est.Spec

variable {d : ℕ} {σ ι : Type}

/-- The number of leaves on the ranks before each rank, with the total at the end. -/
def rankCounts (leaves : ℕ → List (ℕ × Quad d)) (P : ℕ) : List ℤ :=
  (List.range (P + 1)).map fun p => (((List.range p).map fun r => (leaves r).length).sum : ℕ)

/-- Rank `r` owns part of quadrant `q` of tree `t`: one of its leaves meets it. -/
def Owns (leaves : ℕ → List (ℕ × Quad d)) (t : ℕ) (q : Quad d) (r : ℕ) : Prop :=
  ∃ x ∈ leaves r, x.1 = t ∧ (Cells x.2 ∩ Cells q).Nonempty

/-- Several ranks own part of the quadrant. -/
def Shared (P : ℕ) (leaves : ℕ → List (ℕ × Quad d)) (t : ℕ) (q : Quad d) : Prop :=
  ∃ r r', r < P ∧ r' < P ∧ r ≠ r' ∧ Owns leaves t q r ∧ Owns leaves t q r'

/-- The lowest and the highest rank that own part of the quadrant. -/
def OwnerRange (P : ℕ) (leaves : ℕ → List (ℕ × Quad d)) (t : ℕ) (q : Quad d) (ab : ℕ × ℕ) : Prop :=
  ab.1 < P ∧ ab.2 < P ∧ Owns leaves t q ab.1 ∧ Owns leaves t q ab.2 ∧
    ∀ r, r < P → Owns leaves t q r → ab.1 ≤ r ∧ r ≤ ab.2

/-- The quadrants a search of the partition goes through: all quadrants above are shared. -/
def PartitionNode (P : ℕ) (leaves : ℕ → List (ℕ × Quad d)) (t : ℕ) (q : Quad d) : Prop :=
  Valid q ∧ ∀ b, Valid b → Cells q ⊂ Cells b → Shared P leaves t b

/-- The quadrants a search of the whole forest goes through on rank `me`: all quadrants above are
shared, or else belong to this rank and are not leaves. -/
def AllNode (P : ℕ) (leaves : ℕ → List (ℕ × Quad d)) (me t : ℕ) (q : Quad d) : Prop :=
  Valid q ∧ ∀ b, Valid b → Cells q ⊂ Cells b → Shared P leaves t b ∨ (Owns leaves t b me ∧ (t, b) ∉ leaves me)

/-- The local number passed for a quadrant: the number of a leaf in the local forest, -1 for others. -/
def LocalNumber (mine : List (ℕ × Quad d)) (t : ℕ) (q : Quad d) (num : ℤ) : Prop :=
  (∃ i : ℕ, mine[i]? = some (t, q) ∧ num = i) ∨ ((t, q) ∉ mine ∧ num = -1)

/-- Every tree of the forest is searched, in depth-first order. -/
structure GloballySearched (numTrees : ℕ) (node : ℕ → Quad d → Prop) (arg : ℕ → Quad d → ι → Prop)
    (hasFn callPost : Bool) (points : Option ℕ) (E : List (Event d ι)) : Prop where
  order : E.Pairwise Earlier
  inside : ∀ e ∈ E, e.tree < numTrees
  trees : ∀ t, t < numTrees → TreeSearched hasFn callPost t (node t) (arg t) (targets points) E

/-- The local part of a forest, as stored: all trees, with the number of local leaves in earlier
trees and the local leaves; those with local leaves are the trees from `first` to `last`. -/
structure LocalPart (numTrees : ℕ) (mine : List (ℕ × Quad d)) (f : SearchForest d) : Prop where
  length : f.trees.length = numTrees
  tree : ∀ t tree, f.trees[t]? = some tree →
    tree.1 = ((mine.filter fun x => x.1 < t).length : ℤ) ∧ tree.2 = (mine.filter fun x => x.1 = t).map Prod.snd
  local_iff : ∀ t : ℕ, (f.first ≤ t ∧ (t : ℤ) ≤ f.last) ↔ ∃ x ∈ mine, x.1 = t

end P4est.Spec
