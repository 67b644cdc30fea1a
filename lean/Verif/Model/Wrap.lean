import Verif.Model.Coarsen
import Verif.Model.Checksum

/-! # Adaptation with flags and the iterator over leaves: src/p4est_wrap.c:35-129, 613-905, 1013-1149

The wrap stores one byte of flags per local leaf; here a pair of Booleans (`P4EST_WRAP_REFINE` = 1
and `P4EST_WRAP_COARSEN` = 2, src/p4est_wrap.h:47-53).  Modelled for `coarsen_delay == 0` and
`replace_fn == NULL`, so that the leaves carry no data (`Unit`).  `none` in the state of the
callbacks stands for a failed assertion or an access outside of an array.  The trees are the local
trees, numbered from 0 instead of from `first_local_tree`.  `p4est_balance_ext`, the ghost layer and
the mesh are not part of this model. -/

namespace P4est

variable {d : ℕ}

/-- One byte of `flags` or `temp_flags`, src/p4est_wrap.h:47-53. -/
structure WrapFlag where
  refine : Bool
  coarsen : Bool
deriving DecidableEq

/-- `P4EST_WRAP_NONE`, src/p4est_wrap.h:49. -/
def WrapFlag.zero : WrapFlag := ⟨false, false⟩

/-- The members `flags` and `num_refine_flags` of `p4est_wrap_t`, src/p4est_wrap.h:131-139. -/
structure WrapMarks where
  flags : List WrapFlag
  numRefine : ℤ

/-- Position of a leaf in the flags with the assertions of src/p4est_wrap.c:623-630 (the same as
650-657). -/
def wrapPos (trees : List (Tree d Unit)) (m : WrapMarks) (tree quad : ℕ) : Option ℕ := do
  let t ← trees[tree]?
  if quad < t.quads.count then
    let pos := t.offset + quad
    if 0 ≤ pos ∧ pos < m.flags.length then some pos.toNat else none
  else none

/-- `p4est_wrap_mark_refine`, src/p4est_wrap.c:613-637. -/
def wrapMarkRefine (trees : List (Tree d Unit)) (m : WrapMarks) (tree quad : ℕ) : Option WrapMarks := do
  let pos ← wrapPos trees m tree quad
  let flag ← m.flags[pos]?
  let m1 : WrapMarks := if !flag.refine then
      ⟨m.flags.set pos { flag with refine := true }, m.numRefine + 1⟩ else m
  let flag1 ← m1.flags[pos]?
  some ⟨m1.flags.set pos { flag1 with coarsen := false }, m1.numRefine⟩

/-- `p4est_wrap_mark_coarsen`, src/p4est_wrap.c:639-664. -/
def wrapMarkCoarsen (trees : List (Tree d Unit)) (m : WrapMarks) (tree quad : ℕ) : Option WrapMarks := do
  let pos ← wrapPos trees m tree quad
  let flag ← m.flags[pos]?
  let m1 : WrapMarks := if flag.refine then
      ⟨m.flags.set pos { flag with refine := false }, m.numRefine - 1⟩ else m
  let flag1 ← m1.flags[pos]?
  some ⟨m1.flags.set pos { flag1 with coarsen := true }, m1.numRefine⟩

/-- The members of `p4est_wrap_t` that the callbacks of refinement and coarsening use:
`flags`, `temp_flags`, `inside_counter`, `num_replaced`, `num_refine_flags`. -/
structure WrapSt where
  flags : List WrapFlag
  temp : List WrapFlag
  inside : ℕ
  replaced : ℕ
  numRefine : ℤ

/-- `refine_callback`, src/p4est_wrap.c:35-60. -/
def wrapRefineFn (d : ℕ) : Option WrapSt → Bool × Option WrapSt
  | none => (false, none)
  | some st =>
    let oldCounter := st.inside
    let st := { st with inside := st.inside + 1 }
    match st.flags[oldCounter]? with
    | none => (false, none)
    | some flag =>
      if (st.replaced : ℤ) ≤ st.numRefine then
        let pos := oldCounter + (2 ^ d - 1) * st.replaced
        if pos < st.temp.length then
          (flag.refine, some { st with
            flags := st.flags.set oldCounter WrapFlag.zero
            temp := st.temp.set pos { flag with refine := false } })
        else (false, none)
      else (false, none)

/-- The loop of src/p4est_wrap.c:78-80 with `n` turns: entries `k`, `k + 1`, ... get the flag. -/
def wrapFill (flag : WrapFlag) (temp : List WrapFlag) (newCounter k : ℕ) : ℕ → Option (List WrapFlag)
  | 0 => some temp
  | n + 1 =>
    if newCounter + k < temp.length then
      wrapFill flag (temp.set (newCounter + k) flag) newCounter (k + 1) n
    else none

/-- `replace_on_refine`, src/p4est_wrap.c:62-95. -/
def wrapReplaceRefine (d : ℕ) (outgoing incoming : ℕ) : Option WrapSt → Option WrapSt
  | none => none
  | some st => do
    let newCounter := st.inside - 1 + (2 ^ d - 1) * st.replaced
    let st := { st with replaced := st.replaced + 1 }
    let flag ← st.temp[newCounter]?
    if outgoing = 1 ∧ incoming = 2 ^ d ∧ flag.refine = false ∧ flag.coarsen = false then
      let temp ← wrapFill flag st.temp newCounter 1 (2 ^ d - 1)
      some { st with temp := temp }
    else none

/-- The arguments of `p4est_refine_ext`, src/p4est_wrap.c:740. -/
def wrapRefineCb (d : ℕ) : RefineCb d Unit (Option WrapSt) where
  refine := fun _ s => wrapRefineFn d s
  init := fun _ s => ((), s)
  replace := some fun out inc s => (fun _ => (), wrapReplaceRefine d out.length inc.length s)

/-- The loop of src/p4est_wrap.c:111-121: have `n` entries beginning with `pos` the coarsen flag?
The outer `none` is an access out of bounds. -/
def wrapAllCoarsen (temp : List WrapFlag) (pos : ℕ) : ℕ → Option Bool
  | 0 => some true
  | n + 1 => do
    let flag ← temp[pos]?
    if flag.coarsen then wrapAllCoarsen temp (pos + 1) n else some false

/-- `coarsen_callback`, src/p4est_wrap.c:97-129.  `q[1] == NULL` is a list of length one. -/
def wrapCoarsenFn (d : ℕ) (n : ℕ) : Option WrapSt → Bool × Option WrapSt
  | none => (false, none)
  | some st =>
    let oldCounter := st.inside
    let st := { st with inside := st.inside + 1 }
    if n = 1 then (false, some st)
    else match wrapAllCoarsen st.temp oldCounter (2 ^ d) with
      | none => (false, none)
      | some false => (false, some st)
      | some true => (true, some { st with
          inside := st.inside + (2 ^ d - 1), replaced := st.replaced + 1 })

/-- The arguments of `p4est_coarsen_ext`, src/p4est_wrap.c:752-754. -/
def wrapCoarsenCb (d : ℕ) : CoarsenCb d Unit (Option WrapSt) where
  coarsen := fun fam s => wrapCoarsenFn d fam.length s
  init := fun _ s => ((), s)
  replace := none

/-- What `p4est_wrap_adapt` has done on one process before balance: the trees, the flags, and the
local number of leaves at the beginning, after refinement and after coarsening. -/
structure WrapAdapted (d : ℕ) where
  trees : List (Tree d Unit)
  flags : List WrapFlag
  num0 : ℤ
  num1 : ℤ
  num2 : ℤ

/-- `p4est_wrap_adapt`, src/p4est_wrap.c:667-763, on one process: refinement and coarsening with
their assertions.  `none` is a failed assertion. -/
def wrapAdaptLocal (trees : List (Tree d Unit)) (m : WrapMarks) : Option (WrapAdapted d) := do
  let localNum : ℤ := m.flags.length
  if 0 ≤ m.numRefine ∧ m.numRefine ≤ localNum then
    let temp := List.replicate (localNum + (2 ^ d - 1) * m.numRefine).toNat WrapFlag.zero
    let (ts1, num1, s1) ← refineTrees (wrapRefineCb d) false QMAXLEVEL trees 0
      (some ⟨m.flags, temp, 0, 0, m.numRefine⟩)
    let st1 ← s1
    if st1.inside = localNum ∧ num1 - localNum = st1.replaced * (2 ^ d - 1) then
      let (ts2, change, _, s2) ← coarsenTrees (wrapCoarsenCb d) false true ts1 0
        (some { st1 with inside := 0, replaced := 0 })
      let st2 ← s2
      if st2.inside = num1 ∧ num1 - (num1 + change) = st2.replaced * (2 ^ d - 1) then
        some ⟨ts2, st2.flags, localNum, num1, num1 + change⟩
      else none
    else none
  else none

/-- The variable `changed` after coarsening, src/p4est_wrap.c:744 and 758: the global number of
leaves is the sum of the local numbers of all processes. -/
def wrapChanged (ranks : List (WrapAdapted d)) : Bool :=
  (ranks.map WrapAdapted.num0).sum != (ranks.map WrapAdapted.num1).sum ||
    (ranks.map WrapAdapted.num1).sum != (ranks.map WrapAdapted.num2).sum

/-- Checksum of a forest on one process that owns all of its trees (see `checksumLocal`;
`p4est_comm_checksum` does not change it, src/p4est_communication.c:936-968). -/
def wrapChecksum (trees : List (Tree d Unit)) : ℕ :=
  trees.foldl (fun crc t => zAdler32Combine crc
    (quadrantChecksum (t.quads.toList.map fun x => (x.q, x.data))).1 (4 * (t.quads.count * (d + 1)))) 1

/-- `p4est_wrap_adapt`, src/p4est_wrap.c:667-803 and 847, on one process: the new trees, the new flags and
the returned value.  `balance` is `p4est_balance_ext`; `haveZlib` the result of `p4est_have_zlib`.  The number of
leaves of a forest on one process is its local number. -/
def wrapAdapt (balance : List (Tree d Unit) → List (Tree d Unit)) (haveZlib : Bool) (trees : List (Tree d Unit))
    (m : WrapMarks) : Option (List (Tree d Unit) × List WrapFlag × Bool) := do
  let r ← wrapAdaptLocal trees m
  if wrapChanged [r] then
    let ts := balance r.trees
    let num : ℕ := (ts.map fun t => t.quads.count).sum
    let changed := if haveZlib && (r.num0 == num) then wrapChecksum trees != wrapChecksum ts else true
    if changed then some (ts, List.replicate num WrapFlag.zero, true)
    else some (ts, List.replicate num WrapFlag.zero, false)
  else if r.flags.all fun f => f == WrapFlag.zero then some (r.trees, r.flags, false) else none

/-- The loop of src/p4est_wrap.c:818-842 over the new leaves of one tree: `zz` is the position in the
tree, `qz` in the stored levels of the old leaves.  Returns the two arrays and `qz`; `none` is an
access out of bounds or the failed assertion of line 843. -/
def wrapNewlyTree (d : ℕ) (offset : ℤ) (new : List ℕ) (levels : List ℕ) (zz qz : ℕ) (refined coarsened : List ℤ) :
    Option (List ℤ × List ℤ × ℕ) :=
  if h : zz < new.length then do
    let l ← levels[qz]?
    if new[zz] > l then
      wrapNewlyTree d offset new levels (zz + 2 ^ d) (qz + 1) (refined ++ [zz + offset]) coarsened
    else if new[zz] < l then
      wrapNewlyTree d offset new levels (zz + 1) (qz + 2 ^ d) refined (coarsened ++ [zz + offset])
    else wrapNewlyTree d offset new levels (zz + 1) (qz + 1) refined coarsened
  else if zz = new.length then some (refined, coarsened, qz) else none
termination_by new.length - zz
decreasing_by
  · have : 0 < 2 ^ d := Nat.pow_pos (by decide)
    omega
  · omega
  · omega

/-- The loop of src/p4est_wrap.c:813-845 over the trees. -/
def wrapNewlyTrees (levels : List ℕ) : List (Tree d Unit) → ℕ → List ℤ → List ℤ → Option (List ℤ × List ℤ)
  | [], qz, refined, coarsened => if qz = levels.length then some (refined, coarsened) else none
  | t :: ts, qz, refined, coarsened => do
    let (refined, coarsened, qz) ← wrapNewlyTree d t.offset (t.quads.toList.map fun x => x.q.level) levels 0 qz
      refined coarsened
    wrapNewlyTrees levels ts qz refined coarsened

/-- The arrays `newly_refined` and `newly_coarsened`, src/p4est_wrap.c:697-716 and 805-846: the levels
of the old leaves are stored before the adaptation and compared with those of the new leaves. -/
def wrapNewly (old new : List (Tree d Unit)) : Option (List ℤ × List ℤ) :=
  wrapNewlyTrees (old.flatMap fun t => t.quads.toList.map fun x => x.q.level) new 0 [] []

/-- `p4est_wrap_partition_unchanged`, src/p4est_wrap.c:860-905: first index, length, first old index
of the leaves that stay on the process; `none` is a failed assertion. -/
def wrapPartitionUnchanged (preMe preNext postMe postNext : ℤ) : Option (ℤ × ℤ × ℤ) :=
  if 0 ≤ preMe ∧ preMe ≤ preNext ∧ 0 ≤ postMe ∧ postMe ≤ postNext then
    let r : ℤ × ℤ × ℤ :=
      if preMe < postNext ∧ postMe < preNext then
        let unext := min preNext postNext
        if preMe ≤ postMe then (0, unext - postMe, postMe - preMe)
        else (preMe - postMe, unext - preMe, 0)
      else (0, 0, 0)
    if 0 ≤ r.1 ∧ 0 ≤ r.2.1 ∧ 0 ≤ r.2.2 ∧ r.1 + r.2.1 ≤ postNext - postMe ∧ r.2.2 + r.2.1 ≤ preNext - preMe then
      some r
    else none
  else none

/-- `p4est_wrap_leaf_t`, src/p4est_wrap.h:432-455: `which_tree`, `which_quad`, `local_quad`, `is_mirror`, `nm` and
`next_mirror_quadrant`. -/
structure WrapLeaf where
  tree : ℕ
  quad : ℕ
  localQuad : ℤ
  isMirror : Bool
  nm : ℤ
  next : ℤ

/-- `p4est_wrap_leaf_info`, src/p4est_wrap.c:1013-1073.  `mirrors` are the numbers `local_num` of the mirrors, or
`none` if mirrors are not tracked. -/
def wrapLeafInfo (trees : List (Tree d Unit)) (localNum : ℤ) (mirrors : Option (List ℤ)) (leaf : WrapLeaf) :
    Option WrapLeaf := do
  let t ← trees[leaf.tree]?
  let leaf := { leaf with localQuad := t.offset + leaf.quad }
  let _ ← t.quads.index leaf.quad
  match mirrors with
  | none => some leaf
  | some ms =>
    if leaf.localQuad = leaf.next then
      let nm := leaf.nm + 1
      if nm + 1 < ms.length then do
        let next ← ms[(nm + 1).toNat]?
        if next > leaf.localQuad ∧ next < localNum then
          some { leaf with nm := nm, next := next, isMirror := true }
        else none
      else some { leaf with nm := nm, next := -1, isMirror := true }
    else some { leaf with isMirror := false }

/-- `p4est_wrap_leaf_first`, src/p4est_wrap.c:1075-1114.  The inner `none` is the pointer `NULL`, the outer one a
failed assertion. -/
def wrapLeafFirst (trees : List (Tree d Unit)) (localNum : ℤ) (mirrors : Option (List ℤ)) : Option (Option WrapLeaf) :=
  if localNum = 0 then if trees = [] then some none else none
  else do
    let next ← match mirrors with
      | none => some (-1)
      | some [] => some (-1)
      | some (m :: _) => if 0 ≤ m ∧ m < localNum then some m else none
    let leaf ← wrapLeafInfo trees localNum mirrors ⟨0, 0, 0, false, -1, next⟩
    some (some leaf)

/-- `p4est_wrap_leaf_next`, src/p4est_wrap.c:1116-1149. -/
def wrapLeafNext (trees : List (Tree d Unit)) (localNum : ℤ) (mirrors : Option (List ℤ)) (leaf : WrapLeaf) :
    Option (Option WrapLeaf) := do
  let t ← trees[leaf.tree]?
  if leaf.quad + 1 = t.quads.count then
    let tree := leaf.tree + 1
    if tree ≥ trees.length then
      match mirrors with
      | none => some none
      | some ms => if leaf.nm + 1 = ms.length ∧ leaf.next = -1 then some none else none
    else do
      let leaf ← wrapLeafInfo trees localNum mirrors { leaf with tree := tree, quad := 0 }
      some (some leaf)
  else do
    let leaf ← wrapLeafInfo trees localNum mirrors { leaf with quad := leaf.quad + 1 }
    some (some leaf)

/-- The loop of a user over all local leaves, `for (leaf = first; leaf != NULL; leaf = next (leaf))`, with the
functions of src/p4est_wrap.h:460-479: the leaves in the order of their visits. -/
def wrapLeafLoop (trees : List (Tree d Unit)) (localNum : ℤ) (mirrors : Option (List ℤ)) (leaf : Option WrapLeaf) :
    Option (List WrapLeaf) :=
  match leaf with
  | none => some []
  | some l => do
    let n ← wrapLeafNext trees localNum mirrors l
    let rest ← wrapLeafLoop trees localNum mirrors n
    some (l :: rest)
partial_fixpoint

end P4est
