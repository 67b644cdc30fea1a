import Verif.Model.PartitionExt
import Verif.Model.Refine
import Verif.Model.Coarsen

/-! # Model of refining, coarsening and copying a whole forest on all ranks

`refineExt` and `coarsenExt` run the functions of `Model/Refine.lean` and `Model/Coarsen.lean` on the
local trees of every rank, count the leaves of all ranks and bump the revision.  The forest is the one
of `Model/PartitionExt.lean`, so that operations can follow each other in any order. -/

namespace P4est

variable {d : ℕ} {α σ : Type}

/-- A tree of the rank as the functions on trees take it: its leaves `x :: l` in an array.  The
per-level counters are those of the leaves; `maxlevel` and the offset are not read before they are
written (they are the subject of C21). -/
def treeOf (x : Quad d × α) (l : List (Quad d × α)) : Tree d α :=
  { quads := ⟨fun i => let y := ((x :: l)[i]?).getD x; ⟨y.1, y.2⟩, (x :: l).length⟩
    perLevel := fun lev => ((x :: l).countP fun y => y.1.level = lev : ℕ)
    maxlevel := 0
    offset := 0 }

/-- The leaves of a tree after a function has run on it. -/
def Tree.leaves (t : Tree d α) : List (Quad d × α) := t.quads.toList.map fun x => (x.q, x.data)

/-- The loop over the trees `first_local_tree, ..., last_local_tree` of one rank (src/p4est.c:741-742 and
978-979) with a function `g` on the leaves of a tree; the other trees are not touched. -/
def overLocal {β : Type} (g : ℕ → List β → σ → Option (List β × σ)) (first last : ℤ) :
    ℕ → List (List β) → σ → Option (List (List β) × σ)
  | _, [], s => some ([], s)
  | n, l :: ls, s =>
    if first ≤ n ∧ n ≤ last then do
      let (l', s') ← g n l s
      let (ls', s'') ← overLocal g first last (n + 1) ls s'
      some (l' :: ls', s'')
    else do
      let (ls', s') ← overLocal g first last (n + 1) ls s
      some (l :: ls', s')

/-- The body of the loop over the trees in `p4est_refine_ext`, src/p4est.c:742-911.  `cb` gets the
number of the tree. -/
def refineLeaves (cb : ℕ → RefineCb d α σ) (recursive : Bool) (allowed : ℕ) (nt : ℕ) :
    List (Quad d × α) → σ → Option (List (Quad d × α) × σ)
  | [], s => some ([], s)
  | x :: l, s => do
    let (t, s') ← refineTree (cb nt) recursive allowed (treeOf x l) s
    some (t.leaves, s')

/-- The body of the loop over the trees in `p4est_coarsen_ext`, src/p4est.c:979-1116. -/
def coarsenLeaves (cb : ℕ → CoarsenCb d α σ) (recursive orphans : Bool) (nt : ℕ) :
    List (Quad d × α) → σ → Option (List (Quad d × α) × σ)
  | [], s => some ([], s)
  | x :: l, s => do
    let (t, _, _, s') ← coarsenTree (cb nt) recursive orphans (treeOf x l) 0 s
    some (t.leaves, s')

/-- `local_num_quadrants` of a rank, which the loops keep equal to the number of its leaves
(`C21_refine_offsets`, `C21_coarsen_offsets`). -/
def localNum {β : Type} (rt : RankTrees β) : ℤ := ((rt.trees.map List.length).sum : ℕ)

/-- What happens on all ranks: every rank runs `g` on its local trees with its own user state, then
`p4est_comm_count_quadrants` counts the leaves, and the revision is bumped if the global number is no
longer the old one; src/p4est.c:722, 920-925 and 972, 1126-1130. -/
def overRanks (numProcs : ℕ) (g : ℕ → List (Quad d × α) → σ → Option (List (Quad d × α) × σ)) (f : Forest d α)
    (s : ℕ → σ) : Option (Forest d α × (ℕ → σ)) := do
  let oldGnq : ℤ := f.globalNum
  let out ← (List.range numProcs).mapM fun p =>
    (overLocal g (f.ranks p).first (f.ranks p).last 0 (f.ranks p).trees (s p))
  let ranks := fun p => (out[p]?).elim (f.ranks p) fun o => { f.ranks p with trees := o.1 }
  let gfq := countQuadrants (fun p => localNum (ranks p)) numProcs
  let gnq := gfq numProcs
  some ({ f with
      ranks := ranks
      gfq := gfq
      globalNum := gnq.toNat
      revision := if oldGnq ≠ gnq then f.revision + 1 else f.revision },
    fun p => (out[p]?).elim (s p) Prod.snd)

/-- `p4est_refine_ext`, src/p4est.c:686-934 (with the callbacks of each rank keeping their own state). -/
def refineExt (numProcs : ℕ) (cb : ℕ → RefineCb d α σ) (recursive : Bool) (allowedLevel : ℤ) (f : Forest d α)
    (s : ℕ → σ) : Option (Forest d α × (ℕ → σ)) :=
  let allowed := if allowedLevel < 0 then 29 else allowedLevel
  overRanks numProcs (refineLeaves cb recursive allowed.toNat) f s

/-- `p4est_coarsen_ext`, src/p4est.c:943-1137. -/
def coarsenExt (numProcs : ℕ) (cb : ℕ → CoarsenCb d α σ) (recursive orphans : Bool) (f : Forest d α)
    (s : ℕ → σ) : Option (Forest d α × (ℕ → σ)) :=
  overRanks numProcs (coarsenLeaves cb recursive orphans) f s

/-- `p4est_copy_ext`, src/p4est.c:545-630, with `copy_data`: the local trees of each rank are copied, the
arrays of the other trees are empty; the global members are copied and the revision is zero. -/
def copyExt (f : Forest d α) : Forest d α :=
  { f with
    ranks := fun p => { f.ranks p with
      trees := (f.ranks p).trees.mapIdx fun jt l => if (f.ranks p).first ≤ jt ∧ jt ≤ (f.ranks p).last then l else [] }
    revision := 0 }

end P4est
