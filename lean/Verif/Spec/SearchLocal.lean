import Verif.Model.SearchLocal
import Verif.Spec.Refine
import Verif.Spec.Tree

/-! # What a search of the local forest may be observed to do -/

namespace P4est.Spec

variable {d : ℕ} {σ ι : Type}

/-- Two leaves lie in different children of `q`. -/
def Branch (leaves : List (Quad d)) (q : Quad d) : Prop :=
  Valid q ∧ ∃ a ∈ leaves, ∃ b ∈ leaves, ∃ j k, j < 2 ^ d ∧ k < 2 ^ d ∧ j ≠ k ∧
    Cells a ⊆ Cells (kid q j) ∧ Cells b ⊆ Cells (kid q k)

/-- The quadrants a search of these leaves goes through: the leaves and the branch points. -/
def Node (leaves : List (Quad d)) (q : Quad d) : Prop := q ∈ leaves ∨ Branch leaves q

/-- The callback was called for this quadrant of this tree. -/
def Called (E : List (Event d ι)) (t : ℕ) (q : Quad d) (c : Call) : Prop :=
  ∃ e ∈ E, e.tree = t ∧ e.quad = q ∧ e.call = c

/-- The callback was called for this quadrant of this tree and answered so. -/
def Answered (E : List (Event d ι)) (t : ℕ) (q : Quad d) (c : Call) (b : Bool) : Prop :=
  ∃ e ∈ E, e.tree = t ∧ e.quad = q ∧ e.call = c ∧ e.answer = b

/-- The target `x` (`none` for a search without points) got past quadrant `q`: the quadrant callback
did not object, first or second time, and the point callback agreed to the point. -/
def Passed (E : List (Event d ι)) (t : ℕ) (q : Quad d) (x : Option ℕ) : Prop :=
  ¬ Answered E t q .enter false ∧ ¬ Answered E t q .leave false ∧
    ∀ i, x = some i → Answered E t q (.point i) true

/-- The target `x` arrived at quadrant `q`: it got past all search quadrants strictly above. -/
def Reached (E : List (Event d ι)) (t : ℕ) (node : Quad d → Prop) (q : Quad d) (x : Option ℕ) : Prop :=
  ∀ b, node b → Cells q ⊂ Cells b → Passed E t b x

/-- The targets of a search. -/
def targets : Option ℕ → List (Option ℕ)
  | none => [none]
  | some n => (List.range n).map some

/-- The calls made for the tree `t` with these search quadrants and these targets: exactly which
quadrants and points the callbacks are called for.  `arg` tells the further arguments. -/
structure TreeSearched (hasFn callPost : Bool) (t : ℕ) (node : Quad d → Prop) (arg : Quad d → ι → Prop)
    (xs : List (Option ℕ)) (E : List (Event d ι)) : Prop where
  /-- only for search quadrants, with the right arguments -/
  only : ∀ e ∈ E, e.tree = t → node e.quad ∧ arg e.quad e.num
  /-- a search quadrant is entered if some target arrives -/
  enter : ∀ q, node q → (Called E t q .enter ↔ hasFn = true ∧ ∃ x ∈ xs, Reached E t node q x)
  /-- and unless the quadrant is rejected then, the points that arrive are shown -/
  point : ∀ q, node q → ∀ i,
    (Called E t q (.point i) ↔ some i ∈ xs ∧ Reached E t node q (some i) ∧ ¬ Answered E t q .enter false)
  /-- followed, if so requested, by the second call for the quadrant -/
  leave : ∀ q, node q →
    (Called E t q .leave ↔ hasFn = true ∧ callPost = true ∧ (∃ i, some i ∈ xs ∧ Reached E t node q (some i)) ∧
      ¬ Answered E t q .enter false)

/-- The local number passed for a quadrant: that of a leaf, -1 for a branch. -/
def LeafNumber (offset : ℤ) (leaves : List (Quad d)) (q : Quad d) (num : ℤ) : Prop :=
  (∃ i : ℕ, leaves[i]? = some q ∧ num = offset + i) ∨ (Branch leaves q ∧ num = -1)

/-- The order of calls for one quadrant. -/
def CallBefore : Call → Call → Prop
  | .enter, .point _ => True
  | .enter, .leave => True
  | .point x, .point y => x < y
  | .point _, .leave => True
  | _, _ => False

/-- The order of calls: by tree, then depth-first along the curve with ancestors first, then by kind. -/
def Earlier (e f : Event d ι) : Prop :=
  e.tree < f.tree ∨ (e.tree = f.tree ∧ (Before e.quad f.quad ∨ (e.quad = f.quad ∧ CallBefore e.call f.call)))

/-- The state runs through the callbacks in the order of the events, whose answers are the values
returned. -/
def Replays (quadrantFn : Option (ℕ → Quad d → ι → σ → Bool × σ))
    (pointFn : ℕ → Quad d → ι → ℕ → σ → Bool × σ) : List (Event d ι) → σ → σ → Prop
  | [], s, s' => s = s'
  | e :: es, s, s' => ∃ s1, Replays quadrantFn pointFn es s1 s' ∧
    match e.call with
    | .point x => pointFn e.tree e.quad e.num x s = (e.answer, s1)
    | _ => ∃ f, quadrantFn = some f ∧ f e.tree e.quad e.num s = (e.answer, s1)

/-- What every search does: the calls are made in depth-first order, for local trees only, each
tree is searched. -/
structure Searched (f : SearchForest d) (hasFn callPost : Bool) (points : Option ℕ) (E : List (Event d)) : Prop where
  order : E.Pairwise Earlier
  inside : ∀ e ∈ E, f.first ≤ e.tree ∧ (e.tree : ℤ) ≤ f.last
  trees : ∀ (t : ℕ) tree, f.first ≤ t → (t : ℤ) ≤ f.last → f.trees[t]? = some tree →
    TreeSearched hasFn callPost t (Node tree.2) (LeafNumber tree.1 tree.2) (targets points) E

/-- A local forest: the local trees exist, their leaves are legal, disjoint and in curve order. -/
structure Searchable (f : SearchForest d) : Prop where
  first : 0 ≤ f.first ∨ f.last < f.first
  last : f.last < f.trees.length
  trees : ∀ tree ∈ f.trees, (∀ q ∈ tree.2, Valid q) ∧ Linear tree.2

end P4est.Spec

namespace P4est.Spec

variable {d : ℕ} {ι : Type}

/-- The callback was called for this quadrant of this tree exactly once, with the local number `num`. -/
def CalledOnce (E : List (Event d ι)) (t : ℕ) (q : Quad d) (num : ι) (c : Call) : Prop :=
  ∃ E1 E2 b, E = E1 ++ ⟨t, q, num, c, b⟩ :: E2 ∧
    ∀ e ∈ E1 ++ E2, ¬ (e.tree = t ∧ e.quad = q ∧ e.call = c)

end P4est.Spec
