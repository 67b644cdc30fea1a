import Verif.Model.Coarsen

/-! # `p4est_complete_region` and `p4est_linearize_tree` -/

namespace P4est

variable {d : ℕ} {α σ : Type}

/-- `p4est_quadrant_array_push_copy` (src/p4est.h:508-519): append one entry. -/
def LArr.push (a : LArr d α) (x : Leaf d α) : LArr d α :=
  ⟨Function.update a.get a.count x, a.count + 1⟩

/-- The tree under construction, the local variable `maxlevel` (kept in the tree here) and the user
state. -/
structure RegionSt (d : ℕ) (α σ : Type) where
  tree : Tree d α
  s : σ

/-- Append a quadrant and initialise its data, src/p4est_algorithms.c:1408-1411, 1454-1457 and
1496-1499. -/
def addQuad (init : Quad d → σ → α × σ) (st : RegionSt d α σ) (q : Quad d) : RegionSt d α σ :=
  let r := init q st.s
  { tree := { st.tree with
      quads := st.tree.quads.push ⟨q, r.1⟩,
      maxlevel := max q.level st.tree.maxlevel,
      perLevel := bump st.tree.perLevel q.level 1 },
    s := r.2 }

/-- The work list loop of `p4est_complete_region`, src/p4est_algorithms.c:1445-1492. -/
def completeLoop (init : Quad d → σ → α × σ) (a b : Quad d) (W : List (Quad d))
    (st : RegionSt d α σ) : Option (RegionSt d α σ) :=
  match W with
  | [] => some st
  | w :: W' =>
    if (compare a w < 0 ∧ compare w b < 0) ∧ ¬ isAncestor w b = true then
      completeLoop init a b W' (addQuad init st w)
    else if isAncestor w a = true ∨ isAncestor w b = true then
      completeLoop init a b (childrenv w ++ W') st
    else completeLoop init a b W' st
partial_fixpoint

/-- Optional end of the region, src/p4est_algorithms.c:1407-1412 and 1495-1500. -/
def addIf (init : Quad d → σ → α × σ) (incl : Bool) (st : RegionSt d α σ) (q : Quad d) :
    RegionSt d α σ := if incl then addQuad init st q else st

/-- `p4est_complete_region`, src/p4est_algorithms.c:1347-1514.  `maxlevel` starts from 0.  The
assertion that `a < b` is not repeated; without it nothing is filled in (line 1414). -/
def completeRegion (init : Quad d → σ → α × σ) (a : Quad d) (inclA : Bool) (b : Quad d)
    (inclB : Bool) (t : Tree d α) (s : σ) : Option (RegionSt d α σ) :=
  let st0 := addIf init inclA ⟨{ t with maxlevel := 0 }, s⟩ a
  if compare a b < 0 then do
    let st1 ← completeLoop init a b (childrenv (nca a b)) st0
    some (addIf init inclB st1 b)
  else some st0

/-- Variables of the loop of `p4est_linearize_tree`, with the leaves whose data was freed. -/
structure LinState (d : ℕ) (α : Type) where
  arr : LArr d α
  perLevel : ℕ → ℤ
  current : ℕ
  rest : ℕ
  freed : List (Leaf d α)

/-- The loop of `p4est_linearize_tree`, src/p4est_algorithms.c:2690-2711.  The pointer `q1` always
points at entry `current`. -/
def linearizeLoop (incount : ℕ) (st : LinState d α) : Option (LinState d α) :=
  if st.rest < incount then do
    let x1 ← st.arr.index st.current
    let x2 ← st.arr.index st.rest
    if isEqual x1.q x2.q = true ∨ isAncestor x1.q x2.q = true then do
      let arr ← st.arr.write st.current x2
      linearizeLoop incount ⟨arr, bump st.perLevel x1.q.level (-1), st.current, st.rest + 1,
        st.freed ++ [x1]⟩
    else if st.current + 1 < st.rest then do
      let arr ← st.arr.write (st.current + 1) x2
      linearizeLoop incount ⟨arr, st.perLevel, st.current + 1, st.rest + 1, st.freed⟩
    else linearizeLoop incount ⟨st.arr, st.perLevel, st.current + 1, st.rest + 1, st.freed⟩
  else some st
partial_fixpoint

/-- `p4est_linearize_tree`, src/p4est_algorithms.c:2659-2739: the new tree, the number of removed
entries (the variable `removed` counts the frees) and the freed leaves. -/
def linearizeTree (t : Tree d α) : Option (Tree d α × ℕ × List (Leaf d α)) :=
  if t.quads.count ≤ 1 then some (t, 0, [])
  else do
    let st ← linearizeLoop t.quads.count ⟨t.quads, t.perLevel, 0, 1, []⟩
    some ({ t with quads := st.arr.resize (st.current + 1), perLevel := st.perLevel,
                   maxlevel := maxFromCounters st.perLevel }, st.freed.length, st.freed)

end P4est
