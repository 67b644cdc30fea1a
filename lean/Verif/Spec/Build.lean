import Verif.Model.Build
import Verif.Spec.Balance
import Verif.Props.Refine

/-! # What building a forest leaf by leaf should do -/

namespace P4est.Spec

variable {d : ℕ} {α β σ : Type}

/-- `o` may be followed by `p` in a sequence of added quadrants: it goes to an earlier tree, or it is the
same quadrant of the same tree, or it is a quadrant of the same tree that comes before and does not
overlap. -/
def AddOrder (o p : AddOp d α σ) : Prop :=
  o.tree < p.tree ∨ o.tree = p.tree ∧ (o.q = p.q ∨ Before o.q p.q ∧ Cells o.q ∩ Cells p.q = ∅)

/-- The calls that add a quadrant which was not added before, and for each call whether it is one. -/
def newAdds (done : List (AddOp d α σ)) : List (AddOp d α σ) → List (AddOp d α σ) × List Bool
  | [] => ([], [])
  | o :: ops =>
    let r := newAdds (done ++ [o]) ops
    if ∃ p ∈ done, p.tree = o.tree ∧ p.q = o.q then (r.1, false :: r.2) else (o :: r.1, true :: r.2)

/-- The quadrants of a list of calls as leaves: each is initialized by the callback in force. -/
def initEach : List (AddOp d α σ) → σ → List (Leaf d α) × σ
  | [], s => ([], s)
  | o :: ops, s => (⟨o.q, (o.init o.q s).1⟩ :: (initEach ops (o.init o.q s).2).1, (initEach ops (o.init o.q s).2).2)

/-- The tree `t'` between the ends `f` and `l` is complete and consists of the leaves `L` and as few
further leaves as possible: its leaves cover the part of the tree between the ends, in order and without
overlap; the leaves `L` are among them, with their data; the others are initialized by the callback, in
their order; every legal quadrant of this part that does not properly contain one of `L` lies in a leaf.
The counters are right.  `s` and `s'` are the states before and after. -/
structure BuiltTree (init : Quad d → σ → α × σ) (f l : Quad d) (L : List (Leaf d α)) (s : σ) (t' : Tree d α)
    (s' : σ) : Prop where
  tiles : Tiles f l (quadsOf t')
  keeps : ∀ x ∈ L, x ∈ t'.quads.toList
  data : (t'.quads.toList, s') = carried init L (quadsOf t') s
  coarse : ∀ v, Valid v → Cells v ⊆ Section f l → (∀ x ∈ L, ¬ Cells x.q ⊂ Cells v) →
    ∃ u ∈ quadsOf t', Cells v ⊆ Cells u
  counters : CountersOk t'

/-- The template: the local trees have leaves that cover the part between their ends, which are legal
quadrants of the deepest level; the other trees have no leaves; the counters of all trees are right. -/
structure TemplateOk (p : LocalForest d β) : Prop where
  first : 0 ≤ p.firstLocal → p.firstLocal ≤ p.lastLocal ∧ p.lastLocal < p.numTrees
  empty : p.firstLocal < 0 → p.lastLocal < p.firstLocal
  fdesc : ∀ jt : ℕ, p.firstLocal ≤ jt → jt ≤ p.lastLocal → Valid (p.fdesc jt) ∧ (p.fdesc jt).level = 29
  ldesc : ∀ jt : ℕ, p.firstLocal ≤ jt → jt ≤ p.lastLocal → Valid (p.ldesc jt) ∧ (p.ldesc jt).level = 29
  leaves : ∀ jt : ℕ, p.firstLocal ≤ jt → jt ≤ p.lastLocal →
    quadsOf (p.trees jt) ≠ [] ∧ Tiles (p.fdesc jt) (p.ldesc jt) (quadsOf (p.trees jt)) ∧ CountersOk (p.trees jt)
  others : ∀ jt < p.numTrees, ¬ (p.firstLocal ≤ jt ∧ jt ≤ p.lastLocal) →
    quadsOf (p.trees jt) = [] ∧ CountersOk (p.trees jt)

end P4est.Spec
