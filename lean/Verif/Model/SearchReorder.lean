import Verif.Model.SearchLocal

/-! # The search of the local forest in a user-defined order (src/p4est_search.c:776-1085)

As for `p4est_search_local`, callbacks are functions of an arbitrary state, and each call is recorded as an event. -/

namespace P4est

variable {d : ℕ} {σ : Type}

/-- Which callback is called: the quadrant callback before the recursion, the point callback with the point of the given
number, the reorder callback that is given the first list of child numbers and leaves the second, the quadrant
callback after the recursion. -/
inductive RCall where
  | pre
  | point (x : ℕ)
  | order (given kept : List ℕ)
  | post
  deriving DecidableEq

/-- One call of a callback with its arguments and the value returned.  For the reorder callback `quad` is the parent of the
quadrants in the array. -/
structure REvent (d : ℕ) where
  tree : ℕ
  quad : Quad d
  num : ℤ
  call : RCall
  answer : Bool

/-- The callbacks.  The reorder callback is given quadrants with their trees, and indices, and returns a truth value and
the new contents of the array of indices. -/
structure ReorderFns (d : ℕ) (σ : Type) where
  reorderFn : Option (List (ℕ × Quad d) → List ℕ → σ → (Bool × List ℕ) × σ)
  preFn : Option (ℕ → Quad d → ℤ → σ → Bool × σ)
  postFn : Option (ℕ → Quad d → ℤ → σ → Bool × σ)
  pointFn : Option (ℕ → Quad d → ℤ → ℕ → σ → Bool × σ)

/-- `p4est_local_recursion_t`, src/p4est_search.c:566-581, as set up by `p4est_search_reorder`. -/
structure ReorderRec (d : ℕ) (σ : Type) where
  tree : ℕ
  skip : Bool
  fns : ReorderFns d σ
  points : Option ℕ

/-- A quadrant callback if there is one, src/p4est_search.c:889-892 and 989-992; a missing one counts as true. -/
def askFn (f : Option (ℕ → Quad d → ℤ → σ → Bool × σ)) (call : RCall) (t : ℕ) (q : Quad d) (num : ℤ) (s : σ) :
    Bool × σ × List (REvent d) :=
  match f with
  | none => (true, s, [])
  | some f => ((f t q num s).1, (f t q num s).2, [⟨t, q, num, call, (f t q num s).1⟩])

/-- The loop over the active points, src/p4est_search.c:901-908, without the test for a leaf: the points whose callback
returned true.  `none` is the call of a missing point callback. -/
def askReorderPoints (rec : ReorderRec d σ) (q : Quad d) (num : ℤ) : List ℕ → σ → Option (List ℕ × σ × List (REvent d))
  | [], s => some ([], s, [])
  | x :: xs, s => do
    let f ← rec.fns.pointFn
    let r := f rec.tree q num x s
    let rest ← askReorderPoints rec q num xs r.2
    some (if r.1 then x :: rest.1 else rest.1, rest.2.1, ⟨rec.tree, q, num, .point x, r.1⟩ :: rest.2.2)

/-- How the recursion goes on after the first calls for a quadrant: it returns, it is skipped (`conchildren` is zero) or it
is entered with these actives. -/
inductive Onward where
  | back
  | skip
  | down (actives : Option (List ℕ))

/-- The calls for a quadrant before its children, src/p4est_search.c:888-914. -/
def reorderEnter (rec : ReorderRec d σ) (isSame : Bool) (q : Quad d) (num : ℤ) (actives : Option (List ℕ)) (s : σ) :
    Option (Onward × σ × List (REvent d)) :=
  let pre := askFn rec.fns.preFn .pre rec.tree q num s
  if !pre.1 then some (.back, pre.2.1, pre.2.2)
  else match rec.points with
  | none => some (.down none, pre.2.1, pre.2.2)
  | some n => do
    let r ← askReorderPoints rec q num (activePoints n actives) pre.2.1
    let chact := if isSame then [] else r.1
    some (if chact.isEmpty then .skip else .down (some chact), r.2.1, pre.2.2 ++ r.2.2)

/-- The reorder callback for the children of `q`, src/p4est_search.c:928-942: `conchildren` and `child_indices`. -/
def askReorder (rec : ReorderRec d σ) (q : Quad d) (given : List ℕ) (s : σ) : (Bool × List ℕ) × σ × List (REvent d) :=
  match rec.fns.reorderFn with
  | none => ((true, given), s, [])
  | some f =>
    let r := f ((childrenv q).map fun c => (rec.tree, c)) given s
    (r.1, r.2, [⟨rec.tree, q, -1, .order given r.1.2, r.1.1⟩])

/-- The loop over the children, src/p4est_search.c:948-959. -/
def reorderChildren (go : Quad d → List (Quad d) → ℕ → σ → Option (σ × List (REvent d))) (q : Quad d)
    (window : List (Quad d)) (pos : ℕ) (split : List ℕ) : List ℕ → σ → Option (σ × List (REvent d))
  | [], s => some (s, [])
  | i :: is, s => do
    let a ← split[i]?
    let b ← split[i + 1]?
    let r ← go (child q i) ((window.drop a).take (b - a)) (pos + a) s
    let rest ← reorderChildren go q window pos split is r.1
    some (rest.1, r.2 ++ rest.2)

/-- The indices of the children with a part of the window, src/p4est_search.c:921-926. -/
def splitIndices (d : ℕ) (split : List ℕ) : List ℕ :=
  (List.range (2 ^ d)).filter fun i => decide (split.getD i 0 < split.getD (i + 1) 0)

/-- The last call for a quadrant, src/p4est_search.c:988-992, after the calls `E`. -/
def reorderLeave (rec : ReorderRec d σ) (q : Quad d) (num : ℤ) (s : σ) (E : List (REvent d)) : σ × List (REvent d) :=
  let post := askFn rec.fns.postFn .post rec.tree q num s
  (post.2.1, E ++ post.2.2)

/-- `p4est_reorder_recursion`, src/p4est_search.c:776-993.  `fuel` bounds the depth (0 is `none`, and the theorems show that
it is never reached). -/
def reorderRecursion (rec : ReorderRec d σ) (offset : ℤ) : ℕ → Quad d → List (Quad d) → ℕ → Option (List ℕ) → σ →
    Option (σ × List (REvent d))
  | 0, _, _, _, _, _ => none
  | fuel + 1, quadrant, window, pos, actives, s =>
    if window.length = 0 ∨ noneActive rec.points actives = true then some (s, [])
    else do
      let first ← window.head?
      let last ← window.getLast?
      if window.length > 1 then do
        let q := if rec.skip then searchBranch quadrant first last else quadrant
        let r ← reorderEnter rec false q (-1) actives s
        match r.1 with
        | .back => some (r.2.1, r.2.2)
        | .skip => some (reorderLeave rec q (-1) r.2.1 r.2.2)
        | .down chact => do
          let split := splitArray window q.level
          let o := askReorder rec q (splitIndices d split) r.2.1
          let c ← if o.1.1 then
              reorderChildren (fun c w p => reorderRecursion rec offset fuel c w p chact) q window pos split o.1.2 o.2.1
            else some (o.2.1, [])
          some (reorderLeave rec q (-1) c.1 (r.2.2 ++ o.2.2 ++ c.2))
      else do
        let same := decide (quadrant = first) || rec.skip
        let q := if same then first else quadrant
        let num := if same then offset + pos else -1
        let r ← reorderEnter rec same q num actives s
        match r.1 with
        | .back => some (r.2.1, r.2.2)
        | .skip => some (reorderLeave rec q num r.2.1 r.2.2)
        | .down chact =>
          if same then some (reorderLeave rec q num r.2.1 r.2.2)
          else do
            let c := if first.level - q.level > 1 then ancestor first (q.level + 1) else first
            let c ← reorderRecursion rec offset fuel c window pos chact r.2.1
            some (reorderLeave rec q num c.1 (r.2.2 ++ c.2))

/-- The loop over the trees, src/p4est_search.c:1062-1078, in the order of the list, with the given number of trees remaining.
The list is accessed at the position `k`; `none` is an access beyond its end. -/
def reorderTrees (f : SearchForest d) (skip : Bool) (fns : ReorderFns d σ) (points : Option ℕ) (order : List ℕ) :
    ℕ → ℕ → σ → Option (σ × List (REvent d))
  | 0, _, s => some (s, [])
  | n + 1, k, s => do
    let i ← order[k]?
    let t := i + f.first.toNat
    let tree ← f.trees[t]?
    let r ← reorderRecursion ⟨t, skip, fns, points⟩ tree.1 31 (root d) tree.2 0 none s
    let rest ← reorderTrees f skip fns points order n (k + 1) r.1
    some (rest.1, r.2 ++ rest.2)

/-- `p4est_search_reorder`, src/p4est_search.c:995-1085.  Without the reorder callback the array of roots does not exist and
the trees are visited in order.  The call for the roots is not among the events. -/
def searchReorder (f : SearchForest d) (skip : Bool) (fns : ReorderFns d σ) (points : Option ℕ) (s : σ) :
    Option (σ × List (REvent d)) :=
  if fns.preFn.isNone && fns.postFn.isNone && fns.pointFn.isNone then some (s, [])
  else if f.first > f.last then some (s, [])
  else
    let n := (f.last - f.first + 1).toNat
    match fns.reorderFn with
    | none => reorderTrees f skip fns points (List.range n) n 0 s
    | some g =>
      let r := g ((List.range n).map fun i => (i + f.first.toNat, root d)) (List.range n) s
      if !r.1.1 then some (r.2, [])
      else reorderTrees f skip fns points r.1.2 n 0 r.2

end P4est
