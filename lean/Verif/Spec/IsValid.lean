import Verif.Spec.Forest
import Verif.Model.IsValid

/-! # Specification of legal forests with all their members -/

namespace P4est.Spec

variable {d : ℕ} {α : Type}

/-- The leaves of a rank, each with the number of its tree, in order of storage. -/
def rankLeaves (f : ForestMembers d α) : List (ℕ × Quad d) := forestLeaves (f.trees.map fun t => t.quads.map Prod.fst)

/-- The members of a tree with leaves `qs` that follow `before` leaves of the same rank: the number of leaves of each level and
the largest level, and the smallest possible quadrants at the beginning and at the end. -/
structure TreeLegal (before : ℕ) (t : TreeMembers d α) : Prop where
  offset : t.offset = before
  perLevel : ∀ l ≤ 29, t.perLevel l = ((t.quads.filter fun q => q.1.level = l).length : ℤ)
  unused : t.perLevel 30 = -1
  maxlevel : (t.quads = [] → t.maxlevel = 0) ∧
    (t.quads ≠ [] → (∃ q ∈ t.quads, (q.1.level : ℤ) = t.maxlevel) ∧ ∀ q ∈ t.quads, (q.1.level : ℤ) ≤ t.maxlevel)
  firstDesc : t.firstDesc = t.quads.head?.map fun q => ⟨q.1.c, 29⟩
  lastDesc : t.lastDesc = t.quads.getLast?.map fun q => ⟨fun i => q.1.c i + 2 ^ (30 - q.1.level) - 2, 29⟩

/-- The members of rank `r` that describe its own leaves. -/
structure RankLegal (f : ForestMembers d α) : Prop where
  env : f.envNull = false
  revision : 0 ≤ f.revision
  connTrees : f.conn.numTrees = f.trees.length
  trees : ∀ t tr, f.trees[t]? = some tr → TreeLegal ((f.trees.take t).flatMap (·.quads)).length tr
  empty : rankLeaves f = [] → f.first = -1 ∧ f.last = -2
  first : ∀ x, (rankLeaves f).head? = some x → f.first = x.1
  last : ∀ x, (rankLeaves f).getLast? = some x → f.last = x.1
  localNum : f.localNum = (rankLeaves f).length

/-- Tree and corner of the first leaf of the ranks from `p` on; after all leaves, the beginning of the tree after the last one. -/
def firstPosition (P T : ℕ) (leaves : ℕ → List (ℕ × Quad d)) (p : ℕ) : GPos d :=
  match (List.range' p (P - p)).flatMap leaves with
  | [] => ⟨T, fun _ => 0⟩
  | x :: _ => ⟨x.1, x.2.c⟩

/-- A legal forest on `P` ranks: its trees are complete and distributed in their order, and the members of all ranks say how. -/
structure LegalForest (P : ℕ) (fs : ℕ → ForestMembers d α) (trees : List (List (Quad d))) : Prop where
  distributed : Distributed trees P fun r => rankLeaves (fs r)
  ranks : ∀ r < P, (fs r).mpisize = P ∧ (fs r).mpirank = r ∧ (fs r).trees.length = trees.length ∧ RankLegal (fs r)
  globalNum : ∀ r < P, (fs r).globalNum = (forestLeaves trees).length
  gfq : ∀ r < P, (fs r).gfq = (List.range (P + 1)).map fun p => (((List.range p).flatMap fun r => rankLeaves (fs r)).length : ℤ)
  gfp : ∀ r < P, (fs r).gfp = (List.range (P + 1)).map fun p => (29, firstPosition P trees.length (fun r => rankLeaves (fs r)) p)

end P4est.Spec
