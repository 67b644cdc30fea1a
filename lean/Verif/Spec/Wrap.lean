import Verif.Model.Wrap
import Verif.Spec.Coarsen

/-! # Specification of adaptation with flags -/

namespace P4est.Spec

variable {d : ℕ}

/-- A call of `p4est_wrap_mark_refine` or `p4est_wrap_mark_coarsen`. -/
inductive MarkKind
  | refine
  | coarsen
deriving DecidableEq

/-- A call with the number of the local tree and the number of the leaf in this tree. -/
structure MarkCall where
  kind : MarkKind
  tree : ℕ
  quad : ℕ

/-- The last call for leaf `j` of tree `i`. -/
def lastMark (calls : List MarkCall) (i j : ℕ) : Option MarkKind :=
  (calls.reverse.find? fun c => decide (c.tree = i ∧ c.quad = j)).map MarkCall.kind

/-- The leaf `q` of tree `i` with the leaves `old` is marked: this was the last call for it. -/
def IsMarked (calls : List MarkCall) (kind : MarkKind) (i : ℕ) (old : List (Quad d)) (q : Quad d) : Prop :=
  ∃ j, old[j]? = some q ∧ lastMark calls i j = some kind

/-- The leaves after the adaptation: children of the leaves marked for refinement (unless they are on the finest
level), parents of the families whose members are all marked for coarsening, and all other old leaves. -/
def AdaptedLeaf (old : List (Quad d)) (refineMark coarsenMark : Quad d → Prop) (r : Quad d) : Prop :=
  (∃ q, refineMark q ∧ q.level < 29 ∧ r ∈ kids q) ∨
  (Valid r ∧ ∀ k, k < 2 ^ d → coarsenMark (kid r k)) ∨
  (r ∈ old ∧ ¬ (refineMark r ∧ r.level < 29) ∧
    ¬ ∃ p, Valid p ∧ (∀ k, k < 2 ^ d → coarsenMark (kid p k)) ∧ r ∈ kids p)

/-- The calls of the user one after the other. -/
def markAll (trees : List (Tree d Unit)) : List MarkCall → WrapMarks → Option WrapMarks
  | [], m => some m
  | c :: cs, m => do
    let m' ← match c.kind with
      | .refine => wrapMarkRefine trees m c.tree c.quad
      | .coarsen => wrapMarkCoarsen trees m c.tree c.quad
    markAll trees cs m'

/-- All calls are for existing leaves. -/
def LegalCalls (trees : List (Tree d Unit)) (calls : List MarkCall) : Prop :=
  ∀ c ∈ calls, ∃ t, trees[c.tree]? = some t ∧ c.quad < t.quads.toList.length

/-- The flag of a leaf with the given last call. -/
def flagOf : Option MarkKind → WrapFlag
  | none => ⟨false, false⟩
  | some .refine => ⟨true, false⟩
  | some .coarsen => ⟨false, true⟩

end P4est.Spec
