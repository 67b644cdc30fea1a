import Verif.Model.Tree
import Verif.Model.Partition
import Verif.Model.Connectivity

/-! # Model of `p4est_is_valid` and `p4est_is_equal` -/

namespace P4est

variable {d : ℕ} {α : Type}

/-- `p4est_tree_t`, src/p4est.h:130-152, with the data of each quadrant.  `none` in `first_desc` and `last_desc` is what
`P4EST_QUADRANT_INIT` leaves. -/
structure TreeMembers (d : ℕ) (α : Type) where
  quads : List (Quad d × α)
  perLevel : ℕ → ℤ
  maxlevel : ℤ
  offset : ℤ
  firstDesc : Option (Quad d)
  lastDesc : Option (Quad d)

/-- The members of `p4est_t` of one rank that the two functions read, src/p4est.h:155-200.  Entries of `global_first_position` come with
their level.  Of the connectivity only the tables of faces are kept.  `envNull` tells whether the communicator is missing. -/
structure ForestMembers (d : ℕ) (α : Type) where
  mpisize : ℕ
  mpirank : ℕ
  envNull : Bool
  revision : ℤ
  conn : FaceConn
  dataSize : ℕ
  trees : List (TreeMembers d α)
  first : ℤ
  last : ℤ
  localNum : ℤ
  globalNum : ℤ
  gfq : List ℤ
  gfp : List (ℕ × GPos d)

/-- The first loop over the levels, src/p4est_algorithms.c:726-736: the largest level with quadrants and the number of
quadrants; `none` for a negative entry. -/
def levelScan (level : ℕ) (maxlevel count : ℤ) : List ℤ → Option (ℤ × ℤ)
  | [] => some (maxlevel, count)
  | perlevel :: rest =>
    if perlevel < 0 then none else levelScan (level + 1) (if perlevel > 0 then (level : ℤ) else maxlevel) (count + perlevel) rest

/-- The checks of the first and last quadrants of a tree, src/p4est_algorithms.c:688-721. -/
def checkEnds (first last : ℤ) (jt : ℕ) (tree : TreeMembers d α) : Bool :=
  match tree.quads.head?, tree.quads.getLast? with
  | some q0, some q1 => decide (¬ ((jt : ℤ) < first ∨ (jt : ℤ) > last) ∧ tree.firstDesc = some (P4est.firstDesc q0.1 QMAXLEVEL) ∧
      tree.lastDesc = some (P4est.lastDesc q1.1 QMAXLEVEL))
  | _, _ => decide (tree.firstDesc = none ∧ tree.lastDesc = none)

/-- The checks of one tree, src/p4est_algorithms.c:677-759: the number of quadrants so far, or `none` if a check fails. -/
def checkTree (first last : ℤ) (jt : ℕ) (tree : TreeMembers d α) (lquadrants : ℤ) : Option ℤ :=
  if tree.offset ≠ lquadrants then none
  else if ¬ treeIsComplete (tree.quads.map Prod.fst) then none
  else if ¬ checkEnds first last jt tree then none
  else
    match levelScan 0 0 0 ((List.range (QMAXLEVEL + 1)).map tree.perLevel) with
    | none => none
    | some (maxlevel, nquadrants) =>
      if tree.perLevel (QMAXLEVEL + 1) ≠ -1 then none
      else if maxlevel ≠ tree.maxlevel then none
      else if nquadrants ≠ tree.quads.length then none
      else some (lquadrants + nquadrants)

/-- The loop over the trees, src/p4est_algorithms.c:675-760. -/
def checkTrees (first last : ℤ) : ℕ → List (TreeMembers d α) → ℤ → Option ℤ
  | _, [], lquadrants => some lquadrants
  | jt, tree :: rest, lquadrants => (checkTree first last jt tree lquadrants).bind (checkTrees first last (jt + 1) rest)

/-- `p4est_quadrant_in_range` with descendants that may be unset, which its assertions exclude: `none`. -/
def rangeCheck (tree : TreeMembers d α) (q : Quad d) : Option Bool := do
  let fd ← tree.firstDesc
  let ld ← tree.lastDesc
  some (inRange fd ld q)

/-- The checks of the first tree, src/p4est_algorithms.c:566-605. -/
def checkFirst (f : ForestMembers d α) : Option Bool :=
  if f.first < 0 then some (decide (f.first = -1 ∧ f.last = -2))
  else do
    let g ← f.gfp[f.mpirank]?
    if g.2.tree ≠ f.first then some false
    else do
      let tree ← f.trees[f.first.toNat]?
      match tree.quads.head? with
      | none => some true
      | some q => if ∃ i, q.1.c i ≠ g.2.c i then some false else rangeCheck tree q.1

/-- The checks of the last tree, src/p4est_algorithms.c:607-672. -/
def checkLast (f : ForestMembers d α) : Option Bool :=
  if f.last < 0 then some (decide (f.first = -1 ∧ f.last = -2))
  else do
    let g ← f.gfp[f.mpirank + 1]?
    if g.2.tree ≠ f.last ∧ g.2.tree ≠ f.last + 1 then some false
    else if g.2.tree = f.last + 1 ∧ ∃ i, g.2.c i ≠ 0 then some false
    else do
      let tree ← f.trees[f.last.toNat]?
      match tree.quads.getLast? with
      | none => some true
      | some q =>
        if g.2.tree = f.last then
          if ¬ isNext q.1 g.2.quad then some false else rangeCheck tree q.1
        else if ∃ i, (lastDesc q.1 QMAXLEVEL).c i + qlen QMAXLEVEL ≠ rootLen then some false
        else rangeCheck tree q.1

/-- `p4est_is_valid` on one rank up to the label `failtest`, src/p4est_algorithms.c:496-772: `some true` if no check
fails; `none` is an access out of bounds or a failed assertion. -/
def isValidLocal (f : ForestMembers d α) : Option Bool :=
  if f.envNull then some false
  else if f.revision < 0 then some false
  else do
    let g ← f.gfp[f.mpisize]?
    if ¬ (g.2.tree = f.conn.numTrees ∧ ∀ i, g.2.c i = 0) then some false
    else if f.conn.numTrees ≠ f.trees.length then some false
    else do
      let levels ← (List.range (f.mpisize + 1)).mapM fun i => f.gfp[i]?
      if ∃ g ∈ levels, g.1 ≠ QMAXLEVEL then some false
      else do
        let a ← checkFirst f
        if ¬ a then some false
        else do
          let b ← checkLast f
          if ¬ b then some false
          else
            match checkTrees f.first f.last 0 f.trees 0 with
            | none => some false
            | some lquadrants =>
              if lquadrants ≠ f.localNum then some false
              else do
                let g0 ← f.gfq[0]?
                let gn ← f.gfq[f.mpisize]?
                some (decide (g0 = 0 ∧ gn = f.globalNum))

/-- `p4est_is_valid` on all ranks: with `p4est_comm_sync_flag`, src/p4est_algorithms.c:771-772 and
src/p4est_communication.c:920-934, all ranks return whether no check has failed on any of them. -/
def isValidForest (P : ℕ) (fs : ℕ → ForestMembers d α) : Option Bool := do
  let l ← (List.range P).mapM fun r => isValidLocal (fs r)
  some (l.all id)

/-- The comparison of two trees, src/p4est_algorithms.c:460-490. -/
def treesEqual [DecidableEq α] (compareData : Bool) (t1 t2 : TreeMembers d α) : Bool :=
  decide (t1.firstDesc = t2.firstDesc) && decide (t1.lastDesc = t2.lastDesc) && decide (t1.offset = t2.offset) &&
  decide (∀ i < QMAXLEVEL + 2, t1.perLevel i = t2.perLevel i) && decide (t1.maxlevel = t2.maxlevel) &&
  decide (t1.quads.length = t2.quads.length) &&
  (t1.quads.zip t2.quads).all fun x => isEqual x.1.1 x.2.1 && (!compareData || decide (x.1.2 = x.2.2))

/-- `p4est_is_equal`, src/p4est_algorithms.c:417-494.  The padding of the entries of `global_first_position`, which `memcmp` sees as
well, is zero in all functions that create the array. -/
def isEqualLocal [DecidableEq α] (f1 f2 : ForestMembers d α) (compareData : Bool) : Option Bool :=
  if f1.mpisize ≠ f2.mpisize ∨ f1.mpirank ≠ f2.mpirank then some false
  else if compareData ∧ f1.dataSize ≠ f2.dataSize then some false
  else if f1.first ≠ f2.first ∨ f1.last ≠ f2.last ∨ f1.localNum ≠ f2.localNum ∨ f1.globalNum ≠ f2.globalNum then some false
  else if f1.gfq ≠ f2.gfq ∨ f1.gfp ≠ f2.gfp then some false
  else do
    let l ← (List.range' f1.first.toNat (f1.last + 1 - f1.first).toNat).mapM fun jt => do
      let t1 ← f1.trees[jt]?
      let t2 ← f2.trees[jt]?
      some (treesEqual (compareData && decide (f1.dataSize ≠ 0)) t1 t2)
    some (l.all id)

end P4est
