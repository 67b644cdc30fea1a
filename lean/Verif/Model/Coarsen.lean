import Verif.Model.Refine

/-! # `p4est_coarsen_ext`, src/p4est.c:941-1130 -/

namespace P4est

variable {d : ℕ} {α σ : Type}

/-- The callbacks of coarsen: `coarsen_fn` gets the leaves of a family, or a single leaf with a
null pointer behind it (an orphan, here a list of length one); `init_fn` and `replace_fn` as in
`RefineCb`. -/
structure CoarsenCb (d : ℕ) (α σ : Type) where
  coarsen : List (Leaf d α) → σ → Bool × σ
  init : Quad d → σ → α × σ
  replace : Option (List (Leaf d α) → List (Leaf d α) → σ → (ℕ → α) × σ)

/-- Variables of the loop of src/p4est.c:1000-1069: the array, the window and the hole
`[start, start + length)` in it, the counters, the number of removed leaves and the user state. -/
structure CState (d : ℕ) (α σ : Type) where
  arr : LArr d α
  window : ℕ
  start : ℕ
  length : ℕ
  perLevel : ℕ → ℤ
  removed : ℕ
  s : σ

/-- Array position of the entry `zz` of the window, src/p4est.c:1006-1008. -/
def CState.pos (st : CState d α σ) (zz : ℕ) : ℕ :=
  if st.window + zz < st.start then st.window + zz else st.window + st.length + zz

/-- The loop of src/p4est.c:1005-1018: collect the entries of the window as long as their child
ids are 0, 1, ...; the inner `none` means that they do not form a family.  The outer `none` is an
array access out of bounds. -/
def gather (st : CState d α σ) : ℕ → ℕ → List (Leaf d α) → Option (Option (List (Leaf d α)))
  | 0, _, acc => some (some acc)
  | n + 1, zz, acc => do
    let x ← st.arr.index (st.pos zz)
    if zz ≠ childId x.q then some none else gather st n (zz + 1) (acc ++ [x])

/-- The new leaf that replaces a family, src/p4est.c:1026-1052. -/
def makeParent (cb : CoarsenCb d α σ) (fam : List (Leaf d α)) (q : Quad d) (s : σ) :
    List (Leaf d α) × σ :=
  let r := cb.init q s
  callReplace cb.replace fam [⟨q, r.1⟩] r.2

/-- Moving the window by one, src/p4est.c:1059-1067. -/
def advance (incount : ℕ) (st : CState d α σ) : Option (CState d α σ) :=
  let window := st.window + 1
  if window = st.start ∧ st.start + st.length < incount then do
    let arr ← if 0 < st.length then do
        let x ← st.arr.index (st.start + st.length)
        st.arr.write st.start x
      else some st.arr
    some { st with window := window, arr := arr, start := window + 1 }
  else some { st with window := window }

/-- The outcome of one turn before the window is moved, src/p4est.c:1003-1053: the new state and
`cidz`. -/
def coarsenTurn (cb : CoarsenCb d α σ) (orphans : Bool) (incount : ℕ) (st : CState d α σ) :
    Option (CState d α σ × ℕ) := do
  let g ← gather st (2 ^ d) 0 []
  match g with
  | none =>
    if orphans then do
      let c0 ← st.arr.index (st.pos 0)
      some ({ st with s := (cb.coarsen [c0] st.s).2 }, incount)
    else some (st, incount)
  | some fam =>
    let r := cb.coarsen fam st.s
    if r.1 then do
      let c0 ← st.arr.index (st.pos 0)
      let q := parent c0.q
      let p := makeParent cb fam q r.2
      let arr ← (p.1.head?).bind (st.arr.write (st.pos 0))
      some ({ arr := arr, window := st.window, start := st.window + 1,
              length := st.length + 2 ^ d - 1,
              perLevel := bump (bump st.perLevel c0.q.level (-2 ^ d)) q.level 1,
              removed := st.removed + 2 ^ d - 1, s := p.2 }, childId q)
    else some ({ st with s := r.2 }, incount)

/-- The loop of src/p4est.c:1000-1069. -/
def coarsenLoop (cb : CoarsenCb d α σ) (recursive orphans : Bool) (incount : ℕ)
    (st : CState d α σ) : Option (CState d α σ) :=
  if st.window + 2 ^ d + st.length ≤ incount then do
    let (st1, cidz) ← coarsenTurn cb orphans incount st
    if cidz ≤ st1.window ∧ recursive = true then
      coarsenLoop cb recursive orphans incount { st1 with window := st1.window - cidz }
    else do
      let st2 ← advance incount st1
      coarsenLoop cb recursive orphans incount st2
  else some st
partial_fixpoint

/-- The loop of src/p4est.c:1073-1077: move the entries behind the hole. -/
def closeHole (length : ℕ) : ℕ → ℕ → LArr d α → Option (LArr d α)
  | 0, _, a => some a
  | n + 1, zz, a => do
    let x ← a.index zz
    let a' ← a.write (zz - length) x
    closeHole length n (zz + 1) a'

/-- Adjust the final array size, src/p4est.c:1071-1079. -/
def compact (incount : ℕ) (st : CState d α σ) : Option (LArr d α) :=
  if 0 < st.length then do
    let a ← closeHole st.length (incount - (st.start + st.length)) (st.start + st.length) st.arr
    some (a.resize (incount - st.length))
  else some st.arr

/-- The loop of src/p4est.c:1084-1087: the remaining orphans. -/
def callOrphans (cb : CoarsenCb d α σ) (a : LArr d α) : ℕ → ℕ → σ → Option σ
  | 0, _, s => some s
  | n + 1, zz, s => do
    let x ← a.index zz
    callOrphans cb a n (zz + 1) (cb.coarsen [x] s).2

/-- Call the remaining orphans if the user asked for orphans, src/p4est.c:1081-1088. -/
def tailOrphans (cb : CoarsenCb d α σ) (orphans : Bool) (a : LArr d α) (n zz : ℕ) (s : σ) :
    Option σ := if orphans then callOrphans cb a n zz s else some s

/-- The maximum level from the counters, src/p4est.c:1091-1100. -/
def maxFromCounters (perLevel : ℕ → ℤ) : ℕ :=
  (List.range (QMAXLEVEL + 1)).foldl (fun m i => if perLevel i > 0 then i else m) 0

/-- The sum of the counters, src/p4est.c:1092-1095. -/
def sumCounters (perLevel : ℕ → ℤ) : ℤ :=
  (List.range (QMAXLEVEL + 1)).foldl (fun n i => n + perLevel i) 0

/-- Body of the loop over the local trees, src/p4est.c:979-1102: the new tree, the number of
removed leaves, the new `prev_offset` and the user state. -/
def coarsenTree (cb : CoarsenCb d α σ) (recursive orphans : Bool) (t : Tree d α) (prevOffset : ℤ)
    (s : σ) : Option (Tree d α × ℕ × ℤ × σ) := do
  let incount := t.quads.count
  let st ← coarsenLoop cb recursive orphans incount
    ⟨t.quads, 0, 1, 0, t.perLevel, 0, s⟩
  let arr ← compact incount st
  let s' ← tailOrphans cb orphans arr ((incount - st.length) - st.window) st.window st.s
  some (⟨arr, st.perLevel, maxFromCounters st.perLevel, prevOffset⟩, st.removed,
    prevOffset + sumCounters st.perLevel, s')

/-- The loop over the local trees, src/p4est.c:977-1117; the second component is the change of
`local_num_quadrants`. -/
def coarsenTrees (cb : CoarsenCb d α σ) (recursive orphans : Bool) :
    List (Tree d α) → ℤ → σ → Option (List (Tree d α) × ℤ × ℤ × σ)
  | [], off, s => some ([], 0, off, s)
  | t :: ts, off, s => do
    let (t', rem, off', s') ← coarsenTree cb recursive orphans t off s
    let (ts', n, off'', s'') ← coarsenTrees cb recursive orphans ts off' s'
    some (t' :: ts', n - rem, off'', s'')

end P4est
