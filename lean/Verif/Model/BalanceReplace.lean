import Verif.Model.BalanceBorder
import Verif.Model.Refine

/-! # The replace callback in balance: src/p4est_algorithms.c

The callback sees the division of a leaf into many levels as a sequence of divisions into children. -/

namespace P4est

variable {d : ℕ} {α σ : Type}

/-- The loop that collects the children of `parent`, src/p4est_algorithms.c:2139-2152: the child number `j` is the
entry of the array if there is only one for it, and otherwise a temporary quadrant with new data.  `none` is an
access behind an array. -/
def replaceFam (init : Quad d → σ → α × σ) (parent : Quad d) (arr : List (Leaf d α)) (iz : List ℕ) :
    List ℕ → σ → Option (List (Leaf d α) × σ)
  | [], s => some ([], s)
  | j :: js, s => do
    let a ← iz[j]?
    let b ← iz[j + 1]?
    if a + 1 = b then do
      let x ← arr[a]?
      let r ← replaceFam init parent arr iz js s
      some (x :: r.1, r.2)
    else do
      let q := sibling ⟨parent.c, parent.level + 1⟩ j
      let r ← replaceFam init parent arr iz js (init q s).2
      some (⟨q, (init q s).1⟩ :: r.1, r.2)

/-- The loop over the temporary children, src/p4est_algorithms.c:2156-2162.  `rec` is the recursive call.  An entry of
the array that is a child was changed in place by the callback, so that the array now is the list returned. -/
def replaceParts (rec : Leaf d α → List (Leaf d α) → σ → Option (List (Leaf d α) × σ)) (arr fam : List (Leaf d α))
    (iz : List ℕ) : List ℕ → σ → Option (List (Leaf d α) × σ)
  | [], s => some ([], s)
  | j :: js, s => do
    let a ← iz[j]?
    let b ← iz[j + 1]?
    let x ← fam[j]?
    if a + 1 = b then do
      let r ← replaceParts rec arr fam iz js s
      some (x :: r.1, r.2)
    else do
      let u ← rec x ((arr.drop a).take (b - a)) s
      let r ← replaceParts rec arr fam iz js u.2
      some (u.1 ++ r.1, r.2)

/-- `p4est_balance_replace_recursive`, src/p4est_algorithms.c:2114-2163: `arr` is the part of the array from `start` to
`end`; the result is this part afterwards.  `n` bounds the depth of the recursion, which the function does not
count.  The data of `parent` is freed after its call. -/
def replaceRec (init : Quad d → σ → α × σ) (replace : List (Leaf d α) → List (Leaf d α) → σ → (ℕ → α) × σ) :
    ℕ → Leaf d α → List (Leaf d α) → σ → Option (List (Leaf d α) × σ)
  | 0, _, _, _ => none
  | n + 1, parent, arr, s =>
    if arr.length = 2 ^ d then some (callReplace (some replace) [parent] arr s)
    else do
      let iz := splitArray (arr.map Leaf.q) parent.q.level
      let fam ← replaceFam init parent.q arr iz (List.range (2 ^ d)) s
      let r := callReplace (some replace) [parent] fam.1 fam.2
      replaceParts (replaceRec init replace n) arr r.1 iz (List.range (2 ^ d)) r.2

/-- The loops of `mergeLoop`, src/p4est_algorithms.c:2283-2347, with a replace callback: the new leaves within a leaf
`q` that is divided are initialized (lines 2314-2322) and then given to the callback (lines 2323-2328). -/
def mergeReplace (init : Quad d → σ → α × σ) (replace : List (Leaf d α) → List (Leaf d α) → σ → (ℕ → α) × σ)
    (qs : List (Leaf d α)) (ps : List (Quad d)) (st : MergeSt d α σ) : Option (MergeSt d α σ) :=
  match qs, ps with
  | [], ps => some (ps.foldl (mergeNew init) st)
  | _, [] => some st
  | q :: qs, p :: ps =>
    if compare p q.q < 0 then
      if ps.isEmpty then none else mergeReplace init replace (q :: qs) ps (mergeNew init st p)
    else if q.q.level < p.level then do
      let new := ((p :: ps).takeWhile (fun p => isAncestor q.q p)).foldl (mergeNew init)
        { st with leaves := [], perLevel := bump st.perLevel q.q.level (-1), freed := st.freed ++ [q] }
      let r ← replaceRec init replace (QMAXLEVEL - q.q.level) q new.leaves new.s
      mergeReplace init replace qs ((p :: ps).dropWhile (fun p => isAncestor q.q p))
        { new with leaves := st.leaves ++ r.1, s := r.2 }
    else mergeReplace init replace qs ps { st with leaves := st.leaves ++ [⟨p, q.data⟩] }
partial_fixpoint

/-- `p4est_balance_subtree_ext`, src/p4est_algorithms.c:2650-2657, with a replace callback; see `completeOrBalance`. -/
def balanceSubtreeExt (bs : (Quad d → ℤ) → List (Quad d) → Option ℕ) (init : Quad d → σ → α × σ)
    (replace : List (Leaf d α) → List (Leaf d α) → σ → (ℕ → α) × σ) (btype : ℕ) (fdesc ldesc : Quad d)
    (t : Tree d α) (s : σ) : Option (Tree d α × σ × List (Leaf d α)) := do
  let bound ← balanceBound d btype
  match t.quads.toList with
  | [] => some (t, s, [])
  | p :: ps =>
    let dom := nca fdesc ldesc
    if ps.isEmpty ∧ isEqual p.q dom = true then some (t, s, [])
    else do
      let out ← balanceKernel bs dom bound (some fdesc) (some ldesc)
        (reduceLoop (sibling p.q 0) (ps.map Leaf.q))
      let st ← mergeReplace init replace (p :: ps) out ⟨[], t.perLevel, t.maxlevel, s, []⟩
      some ({ t with quads := t.quads.ofList st.leaves, perLevel := st.perLevel, maxlevel := st.maxlevel },
        st.s, st.freed)

/-- One leaf `p` with the seeds `r :: rs`, src/p4est_algorithms.c:2514-2588, with a replace callback; see `borderOne`.
The new leaves are initialized (lines 2574-2581) and then given to the callback (lines 2582-2586). -/
def borderOneReplace (bs : (Quad d → ℤ) → List (Quad d) → Option ℕ) (init : Quad d → σ → α × σ)
    (replace : List (Leaf d α) → List (Leaf d α) → σ → (ℕ → α) × σ) (bound : ℕ)
    (p r : Quad d) (rs : List (Quad d)) (st : MergeSt d α σ × List (Leaf d α)) :
    Option (MergeSt d α σ × List (Leaf d α)) := do
  let i ← bs (fun x => compare p x) (st.2.map Leaf.q)
  let old ← st.2[i]?
  let out ← balanceKernel bs p bound none none (seedLoop r rs)
  let new := out.foldl (mergeNew init)
    { st.1 with leaves := [], perLevel := bump st.1.perLevel old.q.level (-1), freed := st.1.freed ++ [old] }
  let v ← replaceRec init replace (QMAXLEVEL - old.q.level) old new.leaves new.s
  some ({ new with leaves := st.1.leaves ++ st.2.take i ++ v.1, s := v.2 }, st.2.drop (i + 1))

/-- The loop over the border, src/p4est_algorithms.c:2479-2592, with a replace callback; see `borderLoop`. -/
def borderLoopReplace (bs : (Quad d → ℤ) → List (Quad d) → Option ℕ) (init : Quad d → σ → α × σ)
    (replace : List (Leaf d α) → List (Leaf d α) → σ → (ℕ → α) × σ) (bound : ℕ)
    (fdesc ldesc : Quad d) (border : List (Quad d)) (st : MergeSt d α σ × List (Leaf d α)) :
    Option (MergeSt d α σ × List (Leaf d α)) :=
  match border with
  | [] => some st
  | p :: rest =>
    if beyond fdesc ldesc p = true then borderLoopReplace bs init replace bound fdesc ldesc rest st
    else match rest.takeWhile (isAncestor p) with
      | [] => borderLoopReplace bs init replace bound fdesc ldesc rest st
      | r :: rs => do
        let st' ← borderOneReplace bs init replace bound p r rs st
        borderLoopReplace bs init replace bound fdesc ldesc (rest.dropWhile (isAncestor p)) st'
termination_by border.length
decreasing_by
  · simp
  · simp
  · have := (List.dropWhile_suffix (l := rest) (isAncestor p)).sublist.length_le
    simp only [List.length_cons]
    omega

/-- `p4est_balance_border`, src/p4est_algorithms.c:2386-2632, with a replace callback; see `balanceBorder`. -/
def balanceBorderExt (bs : (Quad d → ℤ) → List (Quad d) → Option ℕ) (init : Quad d → σ → α × σ)
    (replace : List (Leaf d α) → List (Leaf d α) → σ → (ℕ → α) × σ)
    (btype : ℕ) (fdesc ldesc : Quad d) (border : List (Quad d)) (t : Tree d α) (s : σ) :
    Option (Tree d α × σ × List (Leaf d α)) :=
  match sortQuads border with
  | [] => some (t, s, [])
  | p :: ps => do
    let st ← borderLoopReplace bs init replace (borderBound d btype) fdesc ldesc (dropRepeats p ps)
      (⟨[], t.perLevel, t.maxlevel, s, []⟩, t.quads.toList)
    some ({ t with quads := t.quads.ofList (st.1.leaves ++ st.2), perLevel := st.1.perLevel,
                   maxlevel := st.1.maxlevel }, st.1.s, st.1.freed)

end P4est
