import Verif.Model.Balance
import Verif.Model.Linear

/-! # Building a forest leaf by leaf: `p4est_build.c` -/

namespace P4est

variable {d : ℕ} {α β σ : Type}

/-- The part of `p4est_t` and of its trees (src/p4est.h:130-194) that one rank holds and that the
functions below use: `connectivity->num_trees`, `first_local_tree`, `last_local_tree`, the fields
`first_desc` and `last_desc` of the trees, the trees themselves and `local_num_quadrants`. -/
structure LocalForest (d : ℕ) (α : Type) where
  numTrees : ℕ
  firstLocal : ℤ
  lastLocal : ℤ
  fdesc : ℕ → Quad d
  ldesc : ℕ → Quad d
  trees : ℕ → Tree d α
  localNum : ℤ

/-- `p4est_build_t`, src/p4est_build.c:37-52.  The callback `init_fn` and the current `add_init_fn`
are arguments of the functions below.  `prev` is `none` where the code sets its level to -1. -/
structure Build (d : ℕ) (α : Type) where
  forest : LocalForest d α
  curMax : ℕ
  cur : ℕ
  prev : Option (Quad d)

/-- Write the current tree back (the code keeps a pointer to it). -/
def Build.setTree (b : Build d α) (jt : ℕ) (t : Tree d α) : Build d α :=
  { b with forest := { b.forest with trees := Function.update b.forest.trees jt t } }

/-- `p4est_build_begin_tree`, src/p4est_build.c:54-83. -/
def buildBegin (b : Build d α) (jt : ℕ) (off : ℤ) : Build d α :=
  let t := b.forest.trees jt
  { b.setTree jt { t with offset := off, maxlevel := 0 } with cur := jt, prev := none, curMax := t.maxlevel }

/-- `p4est_build_new`, src/p4est_build.c:85-165: the trees take over the ends of the template's trees
and remember its maximum level.  The entry of `quadrants_per_level` for `P4EST_MAXLEVEL`, always `-1`,
is not modelled.  On a rank without trees the members for the current tree stay uninitialized; here
they have a value that is not used.  Only this rank's view is modelled: the copy of the partition
markers is not part of it.  `mem` is the content of newly allocated array memory. -/
def buildNew (mem : ℕ → Leaf d α) (from_ : LocalForest d β) : Build d α :=
  let b : Build d α :=
    { forest :=
        { numTrees := from_.numTrees
          firstLocal := from_.firstLocal
          lastLocal := from_.lastLocal
          fdesc := from_.fdesc
          ldesc := from_.ldesc
          trees := fun jt => ⟨⟨mem, 0⟩, fun _ => 0, (from_.trees jt).maxlevel, 0⟩
          localNum := 0 }
      curMax := 0
      cur := 0
      prev := none }
  if 0 ≤ from_.firstLocal then buildBegin b from_.firstLocal.toNat 0 else b

/-- The case of a tree without added quadrants in `p4est_build_end_tree`,
src/p4est_build.c:204-253. -/
def buildFill (init : Quad d → σ → α × σ) (fdesc ldesc : Quad d) (maxl : ℕ) (t : Tree d α) (s : σ) :
    Option (Tree d α × σ) :=
  let qf := if maxl < QMAXLEVEL then ancestor fdesc maxl else fdesc
  let ql := if maxl < QMAXLEVEL then ancestor ldesc maxl else ldesc
  let a := nca qf ql
  if isFirstLast qf ql a then
    let r := init a s
    some ({ t with quads := t.quads.push ⟨a, r.1⟩, perLevel := Function.update t.perLevel a.level 1,
                   maxlevel := a.level }, r.2)
  else
    let cf := child a (ancestorId qf (a.level + 1))
    let cl := child a (ancestorId ql (a.level + 1))
    do
      let st ← completeRegion init (enlargeFirst cf qf) true (enlargeLast cl ql) true t s
      some (st.tree, st.s)

/-- `p4est_build_end_tree`, src/p4est_build.c:177-264.  The result is the number the code returns. -/
def buildEnd (bs : (Quad d → ℤ) → List (Quad d) → Option ℕ) (init : Quad d → σ → α × σ) (b : Build d α)
    (s : σ) : Option (Build d α × σ × ℤ) := do
  let t := b.forest.trees b.cur
  let (t', s') ←
    if t.quads.count = 0 then buildFill init (b.forest.fdesc b.cur) (b.forest.ldesc b.cur) b.curMax t s
    else do
      let r ← completeSubtree bs init (b.forest.fdesc b.cur) (b.forest.ldesc b.cur) t s
      some (r.1, r.2.1)
  some (b.setTree b.cur t', s', t'.offset + t'.quads.count)

/-- The loops of src/p4est_build.c:289-292 and 352-355: finish trees until tree `w` is current. -/
def buildAdvance (bs : (Quad d → ℤ) → List (Quad d) → Option ℕ) (init : Quad d → σ → α × σ) (w : ℕ)
    (b : Build d α) (s : σ) : Option (Build d α × σ) :=
  if w > b.cur then do
    let (b', s', off) ← buildEnd bs init b s
    buildAdvance bs init w (buildBegin b' (b'.cur + 1) off) s'
  else some (b, s)
partial_fixpoint

/-- `p4est_build_add`, src/p4est_build.c:266-332.  The assertions on the arguments are hypotheses of
the theorems. -/
def buildAdd (bs : (Quad d → ℤ) → List (Quad d) → Option ℕ) (init addInit : Quad d → σ → α × σ)
    (b : Build d α) (w : ℕ) (q : Quad d) (s : σ) : Option (Build d α × σ × Bool) := do
  let (b, s) ← buildAdvance bs init w b s
  match b.prev with
  | some p =>
    if isEqual p q then some (b, s, false)
    else
      let st := addQuad addInit ⟨b.forest.trees b.cur, s⟩ q
      some ({ b.setTree b.cur st.tree with prev := some q }, st.s, true)
  | none =>
    let st := addQuad addInit ⟨b.forest.trees b.cur, s⟩ q
    some ({ b.setTree b.cur st.tree with prev := some q }, st.s, true)

/-- `p4est_build_complete`, src/p4est_build.c:334-382, without the final `p4est_comm_count_quadrants`
(modelled by `countQuadrants`). -/
def buildComplete (bs : (Quad d → ℤ) → List (Quad d) → Option ℕ) (init : Quad d → σ → α × σ)
    (b : Build d α) (s : σ) : Option (LocalForest d α × σ) :=
  if b.forest.firstLocal ≤ b.forest.lastLocal then do
    let (b, s) ← buildAdvance bs init b.forest.lastLocal.toNat b s
    let (b, s, n) ← buildEnd bs init b s
    some ({ b.forest with
      localNum := n
      trees := fun jt => if b.forest.lastLocal < jt ∧ jt < b.forest.numTrees
        then { b.forest.trees jt with offset := n } else b.forest.trees jt }, s)
  else some (b.forest, s)

/-- One call of `p4est_build_add` by the user, with the callback `add_init_fn` in force at that time
(`p4est_build_init_add`, src/p4est_build.c:167-175, may change it between any two calls). -/
structure AddOp (d : ℕ) (α σ : Type) where
  init : Quad d → σ → α × σ
  tree : ℕ
  q : Quad d

/-- The user's calls of `p4est_build_add`, with the list of the returned values. -/
def buildAdds (bs : (Quad d → ℤ) → List (Quad d) → Option ℕ) (init : Quad d → σ → α × σ) :
    List (AddOp d α σ) → Build d α → σ → Option (Build d α × σ × List Bool)
  | [], b, s => some (b, s, [])
  | o :: ops, b, s => do
    let (b, s, r) ← buildAdd bs init o.init b o.tree o.q s
    let (b, s, rs) ← buildAdds bs init ops b s
    some (b, s, r :: rs)

/-- `p4est_build_new`, a sequence of `p4est_build_add` and `p4est_build_complete`. -/
def buildForest (bs : (Quad d → ℤ) → List (Quad d) → Option ℕ) (init : Quad d → σ → α × σ)
    (mem : ℕ → Leaf d α) (from_ : LocalForest d β) (ops : List (AddOp d α σ)) (s : σ) :
    Option (LocalForest d α × σ × List Bool) := do
  let (b, s, rs) ← buildAdds bs init ops (buildNew mem from_) s
  let (p, s) ← buildComplete bs init b s
  some (p, s, rs)

end P4est
