import Verif.Model.Tree

/-! # `p4est_refine_ext`, src/p4est.c:686-931

One tree at a time; the loop over the local trees follows.  Callbacks are arbitrary functions that
read and change a user state `σ` (the forest's `user_pointer` and whatever else they touch); they
cannot change the position or level of a quadrant. -/

namespace P4est

variable {d : ℕ} {α σ : Type}

/-- The callbacks of refine: `refine_fn`, `init_fn` (`p4est_quadrant_init_data`,
src/p4est_algorithms.c:84-105) and `replace_fn`.  `init` gives the initial data of a
new quadrant; `replace outgoing incoming` gives the data of the incoming quadrants by position. -/
structure RefineCb (d : ℕ) (α σ : Type) where
  refine : Leaf d α → σ → Bool × σ
  init : Quad d → σ → α × σ
  replace : Option (List (Leaf d α) → List (Leaf d α) → σ → (ℕ → α) × σ)

/-- `p4est_quadrant_init_data` on new quadrants one after the other. -/
def initAll (init : Quad d → σ → α × σ) : List (Quad d) → σ → List (Leaf d α) × σ
  | [], s => ([], s)
  | q :: qs, s =>
    let r := init q s
    let t := initAll init qs r.2
    (⟨q, r.1⟩ :: t.1, t.2)

/-- Call of `replace_fn` if there is one: the incoming quadrants get their new data. -/
def callReplace (replace : Option (List (Leaf d α) → List (Leaf d α) → σ → (ℕ → α) × σ))
    (outgoing incoming : List (Leaf d α)) (s : σ) : List (Leaf d α) × σ :=
  match replace with
  | none => (incoming, s)
  | some f =>
    let r := f outgoing incoming s
    (incoming.mapIdx fun k x => ⟨x.q, r.1 k⟩, r.2)

/-- The children of a refined quadrant, src/p4est.c:803-868. -/
def makeChildren (cb : RefineCb d α σ) (x : Leaf d α) (s : σ) : List (Leaf d α) × σ :=
  let r := initAll cb.init (childrenv x.q) s
  callReplace cb.replace [x] r.1 r.2

/-- `number_toread_quadrants`, src/p4est.c:77. -/
def numberToRead : ℕ := 32

/-- The loop of src/p4est.c:763-771 that looks for the first quadrant to be refined.  Returns its
position (`incount` if there is none), the counters and the user state. -/
def refineScan (cb : RefineCb d α σ) (allowed : ℕ) (a : LArr d α) (incount : ℕ)
    (current : ℕ) (perLevel : ℕ → ℤ) (maxlevel : ℕ) (s : σ) : ℕ × (ℕ → ℤ) × ℕ × σ :=
  if _h : current < incount then
    let x := a.get current
    let r := cb.refine x s
    if r.1 && decide (x.q.level < allowed) then (current, perLevel, maxlevel, r.2)
    else refineScan cb allowed a incount (current + 1) (bump perLevel x.q.level 1)
      (max maxlevel x.q.level) r.2
  else (current, perLevel, maxlevel, s)
termination_by incount - current

/-- Variables of the `while` loop over the list, src/p4est.c:783-897.  The flag of a list
entry is `pad8`. -/
structure RState (d : ℕ) (α σ : Type) where
  arr : LArr d α
  current : ℕ
  restpos : ℕ
  list : List (Leaf d α × Bool)
  first : Bool
  perLevel : ℕ → ℤ
  maxlevel : ℕ
  s : σ

/-- The inner loop of src/p4est.c:873-881: append `n` array entries to the list. -/
def readMore (a : LArr d α) : ℕ → ℕ → List (Leaf d α × Bool) → Option (List (Leaf d α × Bool) × ℕ)
  | 0, restpos, list => some (list, restpos)
  | n + 1, restpos, list => do
    let x ← a.index restpos
    readMore a n (restpos + 1) (list ++ [(x, false)])

/-- The condition of src/p4est.c:785-788 with the side effects of the callback: short circuit
evaluation of `firsttime || ((refine_recursive || !qpop->pad8) && refine_fn (...) &&
qpop->level < allowed_level)`. -/
def refineDecision (cb : RefineCb d α σ) (recursive : Bool) (allowed : ℕ) (first : Bool)
    (x : Leaf d α) (pad8 : Bool) (s : σ) : Bool × σ :=
  if first then (true, s)
  else if recursive || !pad8 then
    let r := cb.refine x s
    (r.1 && decide (x.q.level < allowed), r.2)
  else (false, s)

/-- The `while` loop of src/p4est.c:783-897; `none` means an array access out of bounds.
(A loop that does not terminate also has no result other than `none`.) -/
def refineLoop (cb : RefineCb d α σ) (recursive : Bool) (allowed incount : ℕ)
    (st : RState d α σ) : Option (RState d α σ) :=
  match st.list with
  | [] => some st
  | (x, pad8) :: rest =>
    let dec := refineDecision cb recursive allowed st.first x pad8 st.s
    if dec.1 then
      let kids := makeChildren cb x dec.2
      refineLoop cb recursive allowed incount
        { st with
          first := false
          arr := st.arr.resize (st.arr.count + 2 ^ d - 1)
          list := kids.1.map (fun y => (y, true)) ++ rest
          s := kids.2 }
    else do
      let lr ← if st.restpos < incount ∧ st.current = st.restpos then
          readMore st.arr (min (incount - st.restpos) numberToRead) st.restpos rest
        else some (rest, st.restpos)
      let arr ← st.arr.write st.current x
      refineLoop cb recursive allowed incount
        { st with
          arr := arr
          current := st.current + 1
          restpos := lr.2
          list := lr.1
          perLevel := bump st.perLevel x.q.level 1
          maxlevel := max st.maxlevel x.q.level
          s := dec.2 }
partial_fixpoint

/-- Body of the loop over the local trees, src/p4est.c:736-916, for one tree.
`none`: an array access out of bounds or nontermination. -/
def refineTree (cb : RefineCb d α σ) (recursive : Bool) (allowed : ℕ) (t : Tree d α) (s : σ) :
    Option (Tree d α × σ) := do
  let incount := t.quads.count
  let (current, perLevel, maxlevel, s1) := refineScan cb allowed t.quads incount 0 (fun _ => 0) 0 s
  if current = incount then
    some ({ t with perLevel := perLevel }, s1)
  else do
    let x ← t.quads.index current
    let st ← refineLoop cb recursive allowed incount
      { arr := t.quads, current := current, restpos := current + 1, list := [(x, false)],
        first := true, perLevel := perLevel, maxlevel := maxlevel, s := s1 }
    some ({ t with quads := st.arr, perLevel := st.perLevel, maxlevel := st.maxlevel }, st.s)

/-- The loop over the local trees, src/p4est.c:735-916: the trees in order, with
`quadrants_offset` and `local_num_quadrants`. -/
def refineTrees (cb : RefineCb d α σ) (recursive : Bool) (allowed : ℕ) :
    List (Tree d α) → ℤ → σ → Option (List (Tree d α) × ℤ × σ)
  | [], n, s => some ([], n, s)
  | t :: ts, n, s => do
    let (t', s') ← refineTree cb recursive allowed { t with offset := n } s
    let (ts', n', s'') ← refineTrees cb recursive allowed ts (n + t'.quads.count) s'
    some (t' :: ts', n', s'')

end P4est
