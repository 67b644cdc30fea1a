import Verif.Model.Search

/-! # The top-down search of the local forest (src/p4est_search.c)

The user callbacks are functions of an arbitrary state, which also stands for everything the user
mutates behind the `user_pointer`.  Each call is recorded as an event with its arguments and
the value it returned: the list of events is the observable behaviour of a search. -/

namespace P4est

variable {d : ℕ} {σ ι : Type}

/-- Which callback is called: the quadrant callback on entering a quadrant, the point callback with
the point of the given number, the quadrant callback for the second time. -/
inductive Call where
  | enter
  | point (x : ℕ)
  | leave
  deriving DecidableEq

/-- One call of a callback, `p4est_search_local_t`, src/p4est_search.h:190-222: the arguments
`which_tree`, `quadrant`, `local_num` and `point`, and the value returned.  In place of the integer
`local_num` other searches pass the range of ranks as well. -/
structure Event (d : ℕ) (ι : Type := ℤ) where
  tree : ℕ
  quad : Quad d
  num : ι
  call : Call
  answer : Bool

/-- `p4est_local_recursion_t`, src/p4est_search.c:566-581, as set up by `p4est_search_local`:
`children_fn`, `pre_quadrant_fn` and `post_quadrant_fn` are `NULL` and `skip` is true.
`points` is the number of points, `none` for a `NULL` array; the point callback sees the number of
the point in place of a pointer to it. -/
structure SearchRec (d : ℕ) (σ : Type) (ι : Type := ℤ) where
  tree : ℕ
  callPost : Bool
  quadrantFn : Option (ℕ → Quad d → ι → σ → Bool × σ)
  pointFn : ℕ → Quad d → ι → ℕ → σ → Bool × σ
  points : Option ℕ

/-- The quadrant callback if there is one, src/p4est_search.c:662-667 and 693-696; a missing
callback counts as true. -/
def askQuadrant (rec : SearchRec d σ ι) (call : Call) (q : Quad d) (num : ι) (s : σ) :
    Bool × σ × List (Event d ι) :=
  match rec.quadrantFn with
  | none => (true, s, [])
  | some f => ((f rec.tree q num s).1, (f rec.tree q num s).2, [⟨rec.tree, q, num, call, (f rec.tree q num s).1⟩])

/-- The loop over the active points, src/p4est_search.c:681-690: the points whose callback
returned true. -/
def askPoints (rec : SearchRec d σ ι) (q : Quad d) (num : ι) : List ℕ → σ → List ℕ × σ × List (Event d ι)
  | [], s => ([], s, [])
  | x :: xs, s =>
    let r := rec.pointFn rec.tree q num x s
    let rest := askPoints rec q num xs r.2
    (if r.1 then x :: rest.1 else rest.1, rest.2.1, ⟨rec.tree, q, num, .point x, r.1⟩ :: rest.2.2)

/-- The numbers in `actives`, or of all points for the `NULL` array passed to a root,
src/p4est_search.c:613-622 and 682. -/
def activePoints (n : ℕ) (actives : Option (List ℕ)) : List ℕ := actives.getD (List.range n)

/-- There are points but none is active, src/p4est_search.c:625. -/
def noneActive (points : Option ℕ) (actives : Option (List ℕ)) : Bool :=
  match points with
  | none => false
  | some n => (activePoints n actives).isEmpty

/-- The calls for one quadrant, src/p4est_search.c:662-705.  The first component is `none` if the
recursion stops here, otherwise the actives for the children. -/
def searchQuadrant (rec : SearchRec d σ ι) (isLeaf : Bool) (q : Quad d) (num : ι)
    (actives : Option (List ℕ)) (s : σ) : Option (Option (List ℕ)) × σ × List (Event d ι) :=
  let pre := askQuadrant rec .enter q num s
  if !pre.1 then (none, pre.2.1, pre.2.2)
  else match rec.points with
  | none => (if isLeaf then none else some none, pre.2.1, pre.2.2)
  | some n =>
    let r := askPoints rec q num (activePoints n actives) pre.2.1
    let chact := if isLeaf then [] else r.1
    if rec.callPost then
      let post := askQuadrant rec .leave q num r.2.1
      let chact := if post.1 then chact else []
      (if chact.isEmpty then none else some (some chact), post.2.1, pre.2.2 ++ r.2.2 ++ post.2.2)
    else (if chact.isEmpty then none else some (some chact), r.2.1, pre.2.2 ++ r.2.2)

/-- The loop over the children, src/p4est_search.c:714-723, from the child number in the list on:
those with a nonempty part of the window are searched with that part. -/
def searchChildren (rec : Quad d → List (Quad d) → ℕ → σ → Option (σ × List (Event d))) (q : Quad d)
    (window : List (Quad d)) (pos : ℕ) (split : List ℕ) : List ℕ → σ → Option (σ × List (Event d))
  | [], s => some (s, [])
  | i :: is, s => do
    let a ← split[i]?
    let b ← split[i + 1]?
    if a < b then do
      let r ← rec (child q i) ((window.drop a).take (b - a)) (pos + a) s
      let rest ← searchChildren rec q window pos split is r.1
      some (rest.1, r.2 ++ rest.2)
    else searchChildren rec q window pos split is s

/-- The quadrant for a window of several leaves, src/p4est_search.c:635-645: all levels down to the
nearest common ancestor of the first and last leaf are skipped. -/
def searchBranch (q first last : Quad d) : Quad d :=
  if ancestorId first (q.level + 1) = ancestorId last (q.level + 1) then nca first last else q

/-- `p4est_local_recursion`, src/p4est_search.c:584-727.  The window `quadrants` is a list and its
position in the array of the tree, `offset` is `quadrants_offset` of the tree; `fuel` bounds the depth (0 is `none`, and the theorems show that it is
never reached). -/
def localRecursion (rec : SearchRec d σ) (offset : ℤ) : ℕ → Quad d → List (Quad d) → ℕ → Option (List ℕ) → σ →
    Option (σ × List (Event d))
  | 0, _, _, _, _, _ => none
  | fuel + 1, quadrant, window, pos, actives, s =>
    if window.length = 0 ∨ noneActive rec.points actives = true then some (s, [])
    else do
      let first ← window.head?
      let last ← window.getLast?
      if window.length > 1 then do
        let q := searchBranch quadrant first last
        let r := searchQuadrant rec false q (-1) actives s
        match r.1 with
        | none => some (r.2.1, r.2.2)
        | some chact => do
          let c ← searchChildren (fun c w p => localRecursion rec offset fuel c w p chact) q window pos
            (splitArray window q.level) (List.range (2 ^ d)) r.2.1
          some (c.1, r.2.2 ++ c.2)
      else do
        let r := searchQuadrant rec true first (offset + pos) actives s
        some (r.2.1, r.2.2)

/-- What the search reads of the forest: `trees` with `quadrants_offset` and `quadrants`,
`first_local_tree`, `last_local_tree`. -/
structure SearchForest (d : ℕ) where
  trees : List (ℤ × List (Quad d))
  first : ℤ
  last : ℤ

/-- The loop over the local trees, src/p4est_search.c:763-773, with the given number of trees
remaining. -/
def searchTrees (f : SearchForest d) (callPost : Bool)
    (quadrantFn : Option (ℕ → Quad d → ℤ → σ → Bool × σ)) (pointFn : ℕ → Quad d → ℤ → ℕ → σ → Bool × σ)
    (points : Option ℕ) : ℕ → ℕ → σ → Option (σ × List (Event d))
  | 0, _, s => some (s, [])
  | n + 1, t, s => do
    let tree ← f.trees[t]?
    let r ← localRecursion ⟨t, callPost, quadrantFn, pointFn, points⟩ tree.1 31 (root d) tree.2 0 none s
    let rest ← searchTrees f callPost quadrantFn pointFn points n (t + 1) r.1
    some (rest.1, r.2 ++ rest.2)

/-- `p4est_search_local`, src/p4est_search.c:729-774. -/
def searchLocal (f : SearchForest d) (callPost : Bool)
    (quadrantFn : Option (ℕ → Quad d → ℤ → σ → Bool × σ)) (pointFn : ℕ → Quad d → ℤ → ℕ → σ → Bool × σ)
    (points : Option ℕ) (s : σ) : Option (σ × List (Event d)) :=
  if quadrantFn.isNone && points.isNone then some (s, [])
  else searchTrees f callPost quadrantFn pointFn points (f.last + 1 - f.first).toNat f.first.toNat s

end P4est
