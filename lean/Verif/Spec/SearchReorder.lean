import Verif.Model.SearchReorder
import Verif.Spec.SearchLocal

/-! # What a search in a user-defined order may be observed to do -/

namespace P4est.Spec

variable {d : ℕ} {σ : Type}

/-- The quadrants of the search: with skipped levels the leaves and the quadrants at which leaves divide, otherwise all
quadrants that contain a leaf. -/
def ReorderNode (skip : Bool) (leaves : List (Quad d)) (q : Quad d) : Prop :=
  if skip then Node leaves q else Valid q ∧ ∃ a ∈ leaves, Cells a ⊆ Cells q

/-- The local number passed for a quadrant: that of a leaf, otherwise -1. -/
def ReorderNumber (offset : ℤ) (leaves : List (Quad d)) (q : Quad d) (num : ℤ) : Prop :=
  (∃ i : ℕ, leaves[i]? = some q ∧ num = offset + i) ∨ (q ∉ leaves ∧ num = -1)

/-- Several leaves lie in `q`, and these are the children of `q` that contain some, in order. -/
def Fork (leaves : List (Quad d)) (q : Quad d) (given : List ℕ) : Prop :=
  (∃ a ∈ leaves, ∃ b ∈ leaves, a ≠ b ∧ Cells a ⊆ Cells q ∧ Cells b ⊆ Cells q) ∧
  given.Pairwise (· < ·) ∧ ∀ k, k ∈ given ↔ k < 2 ^ d ∧ ∃ a ∈ leaves, Cells a ⊆ Cells (kid q k)

/-- The callback was called for this quadrant of this tree. -/
def RCalled (E : List (REvent d)) (t : ℕ) (q : Quad d) (c : RCall) : Prop :=
  ∃ e ∈ E, e.tree = t ∧ e.quad = q ∧ e.call = c

/-- The callback was called for this quadrant of this tree and answered so. -/
def RAnswered (E : List (REvent d)) (t : ℕ) (q : Quad d) (c : RCall) (b : Bool) : Prop :=
  ∃ e ∈ E, e.tree = t ∧ e.quad = q ∧ e.call = c ∧ e.answer = b

/-- The target `x` (`none` for a search without points) got past quadrant `q`: the quadrant callback did not object, and
the point callback agreed to the point. -/
def RPassed (E : List (REvent d)) (t : ℕ) (q : Quad d) (x : Option ℕ) : Prop :=
  ¬ RAnswered E t q .pre false ∧ ∀ i, x = some i → RAnswered E t q (.point i) true

/-- The reorder callback, if it was called for the children of `q`, returned true and left the child `k` in the list. -/
def Chosen (E : List (REvent d)) (t : ℕ) (q : Quad d) (k : ℕ) : Prop :=
  ∀ given kept, RCalled E t q (.order given kept) → RAnswered E t q (.order given kept) true ∧ k ∈ kept

/-- The target `x` arrived at quadrant `q`: at all search quadrants strictly above it got past, and the child on the way
was chosen. -/
def RReached (E : List (REvent d)) (t : ℕ) (node : Quad d → Prop) (q : Quad d) (x : Option ℕ) : Prop :=
  ∀ b, node b → Cells q ⊂ Cells b → RPassed E t b x ∧ ∀ k < 2 ^ d, Cells q ⊆ Cells (kid b k) → Chosen E t b k

/-- The calls made for the tree `t` with these search quadrants and these targets: exactly which callbacks are called for
which quadrants and points. -/
structure TreeReordered (fns : ReorderFns d σ) (t : ℕ) (node : Quad d → Prop) (arg : Quad d → ℤ → Prop)
    (fork : Quad d → List ℕ → Prop) (xs : List (Option ℕ)) (E : List (REvent d)) : Prop where
  /-- only for search quadrants, with the right number -/
  only : ∀ e ∈ E, e.tree = t → node e.quad ∧ arg e.quad e.num
  /-- the first call, if some target arrives -/
  pre : ∀ q, node q → (RCalled E t q .pre ↔ fns.preFn.isSome = true ∧ ∃ x ∈ xs, RReached E t node q x)
  /-- unless the quadrant is rejected then, the points that arrive are shown -/
  point : ∀ q, node q → ∀ i,
    (RCalled E t q (.point i) ↔ some i ∈ xs ∧ RReached E t node q (some i) ∧ ¬ RAnswered E t q .pre false)
  /-- if some target is left and there are several leaves below, the children are put in order -/
  order : ∀ q, node q → ∀ given,
    ((∃ kept, RCalled E t q (.order given kept)) ↔ fns.reorderFn.isSome = true ∧ fork q given ∧
      ∃ x ∈ xs, RReached E t node q x ∧ RPassed E t q x)
  /-- the last call is made unless the first one rejected the quadrant -/
  post : ∀ q, node q → (RCalled E t q .post ↔ fns.postFn.isSome = true ∧ (∃ x ∈ xs, RReached E t node q x) ∧
    ¬ RAnswered E t q .pre false)

/-- The order of calls for one quadrant. -/
def RCallBefore : RCall → RCall → Prop
  | .pre, .pre => False
  | .pre, _ => True
  | .point x, .point y => x < y
  | .point _, .order _ _ => True
  | .point _, .post => True
  | .order _ _, .post => True
  | _, _ => False

/-- Child `j` of `q` is visited before child `k`: by the result of the reorder callback, or without one by number. -/
def ChildBefore (hasReorder : Bool) (E : List (REvent d)) (t : ℕ) (q : Quad d) (j k : ℕ) : Prop :=
  (hasReorder = false ∧ j < k) ∨ ∃ given kept, RCalled E t q (.order given kept) ∧ [j, k].Sublist kept

/-- The order of calls in one tree: for the same quadrant by kind; all calls for quadrants inside another come before its
last call and after the others; otherwise by the order of the children at the quadrant where the ways part. -/
def Sooner (hasReorder : Bool) (E : List (REvent d)) (e f : REvent d) : Prop :=
  (e.quad = f.quad ∧ RCallBefore e.call f.call) ∨
  (Cells f.quad ⊂ Cells e.quad ∧ e.call ≠ .post) ∨
  (Cells e.quad ⊂ Cells f.quad ∧ f.call = .post) ∨
  ∃ q j k, Valid q ∧ j < 2 ^ d ∧ k < 2 ^ d ∧ j ≠ k ∧ Cells e.quad ⊆ Cells (kid q j) ∧ Cells f.quad ⊆ Cells (kid q k) ∧
    ChildBefore hasReorder E e.tree q j k

/-- The state runs through the callbacks in the order of the events, whose answers are the values returned. -/
def RReplays (fns : ReorderFns d σ) : List (REvent d) → σ → σ → Prop
  | [], s, s' => s = s'
  | e :: es, s, s' => ∃ s1, RReplays fns es s1 s' ∧
    match e.call with
    | .point x => ∃ f, fns.pointFn = some f ∧ f e.tree e.quad e.num x s = (e.answer, s1)
    | .pre => ∃ f, fns.preFn = some f ∧ f e.tree e.quad e.num s = (e.answer, s1)
    | .post => ∃ f, fns.postFn = some f ∧ f e.tree e.quad e.num s = (e.answer, s1)
    | .order given kept => ∃ f, fns.reorderFn = some f ∧
        f ((kids e.quad).map fun c => (e.tree, c)) given s = ((e.answer, kept), s1)

/-- The reorder callback follows its rules: of indices without repetition it leaves some, each once. -/
def Reorders (fns : ReorderFns d σ) : Prop :=
  ∀ f, fns.reorderFn = some f → ∀ qs given s, given.Nodup → (f qs given s).1.2.Nodup ∧ (f qs given s).1.2 ⊆ given

/-- What a search does that visits the trees in the order of the list. -/
structure ReorderSearched (f : SearchForest d) (skip : Bool) (fns : ReorderFns d σ) (points : Option ℕ) (trees : List ℕ)
    (E : List (REvent d)) : Prop where
  order : E.Pairwise fun e e' => (e.tree ≠ e'.tree ∧ [e.tree, e'.tree].Sublist trees) ∨
    (e.tree = e'.tree ∧ Sooner fns.reorderFn.isSome E e e')
  inside : ∀ e ∈ E, e.tree ∈ trees
  trees : ∀ t ∈ trees, ∀ tree, f.trees[t]? = some tree →
    TreeReordered fns t (ReorderNode skip tree.2) (ReorderNumber tree.1 tree.2) (Fork tree.2) (targets points) E

/-- The numbers of the local trees. -/
def treeNumbers (f : SearchForest d) : List ℕ := (List.range (f.last + 1 - f.first).toNat).map (f.first.toNat + ·)

/-- The first step of the search: which trees are searched in which order, and the state `s0` the search of the trees starts
with.  Without any callback but the reorder callback nothing happens.  The reorder callback is given the roots of the
local trees and the indices of this array, and the trees with the indices it leaves are searched, if it returns true. -/
def RootsOrdered (f : SearchForest d) (fns : ReorderFns d σ) (s s0 : σ) (trees : List ℕ) : Prop :=
  if (fns.preFn = none ∧ fns.postFn = none ∧ fns.pointFn = none) ∨ treeNumbers f = [] then s0 = s ∧ trees = []
  else match fns.reorderFn with
  | none => s0 = s ∧ trees = treeNumbers f
  | some g => ∃ b kept, g ((treeNumbers f).map fun t => (t, root d)) (List.range (treeNumbers f).length) s = ((b, kept), s0) ∧
      trees = if b then kept.map (f.first.toNat + ·) else []

/-- The callback was called for this quadrant of this tree exactly once, with the local number `num`. -/
def RCalledOnce (E : List (REvent d)) (t : ℕ) (q : Quad d) (num : ℤ) (c : RCall) : Prop :=
  ∃ E1 E2 b, E = E1 ++ ⟨t, q, num, c, b⟩ :: E2 ∧ ∀ e ∈ E1 ++ E2, ¬ (e.tree = t ∧ e.quad = q ∧ e.call = c)

end P4est.Spec
