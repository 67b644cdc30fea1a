import Verif.Model.Coarsen
import Verif.Spec.Refine

/-! # Specification of coarsening -/

namespace P4est.Spec

variable {d : ℕ} {α σ : Type}

/-- All children of the legal quadrant `p` are in the list. -/
def HasFamily (ls : List (Quad d)) (p : Quad d) : Prop := Valid p ∧ ∀ k, k < 2 ^ d → kid p k ∈ ls

/-- The answer of the coarsen callback for a complete family is `f` of the parent. -/
def Decides (cb : CoarsenCb d α σ) (f : Quad d → Bool) : Prop :=
  ∀ fam p s, fam.map Leaf.q = kids p → (cb.coarsen fam s).1 = f p

/-- Quadrants that can be obtained from the leaves `old` by replacing approved families again and
again. -/
inductive Reach (f : Quad d → Bool) (old : List (Quad d)) : Quad d → Prop
  | leaf {q : Quad d} : q ∈ old → Reach f old q
  | merge {p : Quad d} : Valid p → f p = true → (∀ k, k < 2 ^ d → Reach f old (kid p k)) →
      Reach f old p

end P4est.Spec
