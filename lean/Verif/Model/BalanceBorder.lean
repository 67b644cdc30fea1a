import Verif.Model.Balance

/-! # Balance along the border of a tree: src/p4est_algorithms.c

`p4est_balance_border` divides the leaves of one local tree that must be finer because of quadrants in
other trees or on other processes.  It gets the list of the leaves that may be concerned, together with
quadrants inside of them (the seeds of `p4est_balance_seeds`). -/

namespace P4est

variable {d : ℕ} {α σ : Type}

/-- The number of neighbors to consider, src/p4est_algorithms.c:2421-2431.  The number `btype` is 1 for
faces, the dimension for `P4EST_CONNECT_FULL`, and in 3D 2 for edges. -/
def borderBound (d btype : ℕ) : ℕ :=
  if btype = d then 2 ^ d else if d = 3 ∧ btype = 2 then 2 ^ d - 1 else d + 1

/-- The loop that removes duplicates from the sorted border, src/p4est_algorithms.c:2457-2475.  `p` is the
entry kept last. -/
def dropRepeats : Quad d → List (Quad d) → List (Quad d)
  | p, [] => [p]
  | p, q :: qs => if isEqual q p = true then dropRepeats p qs else p :: dropRepeats q qs

/-- The test whether an entry is not in the part of the tree that is local,
src/p4est_algorithms.c:2483-2489. -/
def beyond (fdesc ldesc p : Quad d) : Bool :=
  (decide (compare p fdesc < 0) && !isAncestor p fdesc) || decide (compare p ldesc > 0)

/-- The reduced list of the seeds, src/p4est_algorithms.c:2544-2562.  `q` is the entry pushed last. -/
def seedLoop : Quad d → List (Quad d) → List (Quad d)
  | q, [] => [q]
  | q, r :: rs =>
    if (nca r q).level + 1 ≥ min r.level q.level then
      if r.level > q.level then seedLoop r rs else seedLoop q rs
    else q :: seedLoop r rs

/-- One leaf `p` with the seeds `r :: rs`, src/p4est_algorithms.c:2514-2588, without a replace callback.
The first component of the state holds `flist` and the counters, the second the leaves `tqview` that come
after those handled.  `none` is a leaf that is not found. -/
def borderOne (bs : (Quad d → ℤ) → List (Quad d) → Option ℕ) (init : Quad d → σ → α × σ) (bound : ℕ)
    (p r : Quad d) (rs : List (Quad d)) (st : MergeSt d α σ × List (Leaf d α)) :
    Option (MergeSt d α σ × List (Leaf d α)) := do
  let i ← bs (fun x => compare p x) (st.2.map Leaf.q)
  let old ← st.2[i]?
  let out ← balanceKernel bs p bound none none (seedLoop r rs)
  some (out.foldl (mergeNew init)
    { st.1 with leaves := st.1.leaves ++ st.2.take i, perLevel := bump st.1.perLevel old.q.level (-1),
                freed := st.1.freed ++ [old] }, st.2.drop (i + 1))

/-- The loop over the border, src/p4est_algorithms.c:2479-2592.  The entries after `p` that are inside of
`p` are its seeds (lines 2493-2512). -/
def borderLoop (bs : (Quad d → ℤ) → List (Quad d) → Option ℕ) (init : Quad d → σ → α × σ) (bound : ℕ)
    (fdesc ldesc : Quad d) (border : List (Quad d)) (st : MergeSt d α σ × List (Leaf d α)) :
    Option (MergeSt d α σ × List (Leaf d α)) :=
  match border with
  | [] => some st
  | p :: rest =>
    if beyond fdesc ldesc p = true then borderLoop bs init bound fdesc ldesc rest st
    else match rest.takeWhile (isAncestor p) with
      | [] => borderLoop bs init bound fdesc ldesc rest st
      | r :: rs => do
        let st' ← borderOne bs init bound p r rs st
        borderLoop bs init bound fdesc ldesc (rest.dropWhile (isAncestor p)) st'
termination_by border.length
decreasing_by
  · simp
  · simp
  · have := (List.dropWhile_suffix (l := rest) (isAncestor p)).sublist.length_le
    simp only [List.length_cons]
    omega

/-- `p4est_balance_border`, src/p4est_algorithms.c:2386-2632, without a replace callback.  `fdesc` and
`ldesc` are the members `first_desc` and `last_desc` of the tree.  The result is the new tree, the user
state and the freed leaves.  The statistics and the sorted border are left out. -/
def balanceBorder (bs : (Quad d → ℤ) → List (Quad d) → Option ℕ) (init : Quad d → σ → α × σ)
    (btype : ℕ) (fdesc ldesc : Quad d) (border : List (Quad d)) (t : Tree d α) (s : σ) :
    Option (Tree d α × σ × List (Leaf d α)) :=
  match sortQuads border with
  | [] => some (t, s, [])
  | p :: ps => do
    let st ← borderLoop bs init (borderBound d btype) fdesc ldesc (dropRepeats p ps)
      (⟨[], t.perLevel, t.maxlevel, s, []⟩, t.quads.toList)
    some ({ t with quads := t.quads.ofList (st.1.leaves ++ st.2), perLevel := st.1.perLevel,
                   maxlevel := st.1.maxlevel }, st.1.s, st.1.freed)

end P4est
