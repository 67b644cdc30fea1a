import Verif.Model.Search

/-! # Completing and balancing one tree: src/p4est_algorithms.c

`p4est_complete_subtree` and `p4est_balance_subtree` replace the leaves of one local tree by the
leaves of a gapless (and 2:1 balanced) refinement.  A family of quadrants is represented in the work
lists by its first child. -/

namespace P4est

variable {d : ℕ} {α σ : Type}

/-- An entry of the work lists with the flags kept in `p.user_int` (`duplicate` = 1 and
`precluded` = 2, src/p4est_algorithms.c:1600-1601). -/
structure Mark (d : ℕ) where
  q : Quad d
  dup : Bool
  pre : Bool
deriving DecidableEq

/-- `p4est_quadrant_disjoint_parent`, src/p4est_algorithms.c:1516-1533.  Both levels are positive. -/
def disjointParent (q r : Quad d) : ℤ :=
  let level := min (q.level - 1) (r.level - 1)
  let mask := Int.lnot (qlen level - 1)
  if ∃ i, Int.land (Int.xor (q.c i) (r.c i)) mask ≠ 0 then compare q r else 0

/-- The axes along which the neighbor number `sid` is shifted, src/p4est_algorithms.c:1768-1820: none
for 0, then one axis each (faces), in 3D all axes but one (edges), then all axes (corner). -/
def shiftAxis (sid : ℕ) (i : Fin d) : Bool :=
  if sid = 0 then false
  else if sid ≤ d then decide (sid - 1 = (i : ℕ))
  else if d = 3 ∧ sid < 7 then decide (sid - 4 ≠ (i : ℕ))
  else true

/-- The quadrant `qalloc` made from `q` and `sid`, src/p4est_algorithms.c:1763-1820: the first sibling
of the parent, shifted by twice its size away from the siblings of the parent. -/
def coarseNeighbor (q : Quad d) (sid : ℕ) : Quad d :=
  let par := parent q
  let ph := qlen (par.level - 1)
  let pid := childId par
  let par0 := sibling par 0
  ⟨fun i => par0.c i + (if shiftAxis sid i then (if pid.testBit i then ph else -ph) else 0), par0.level⟩

/-- The lists changed while one level is processed: `inlist` with its flags, and `outlist[l - 1]`
with its flags.  The hash table `hash[l - 1]` holds pointers to the entries of `outlist[l - 1]`. -/
structure LevelSt (d : ℕ) where
  inl : List (Mark d)
  out : List (Mark d)

/-- Flags of the entry `r` of `inlist` that was found, src/p4est_algorithms.c:1866-1875. -/
def markFound (l : ℕ) (r : Mark d) : Mark d :=
  if r.q.level ≤ l - 1 then { r with dup := true, pre := r.pre || decide (r.q.level < l - 1) } else r

/-- The body of the loop over `sid`, src/p4est_algorithms.c:1769-1884.  `sc_hash_insert_unique`
(libsc) finds the entry equal to `qalloc` if there is one and inserts it otherwise.  `bs` is
`sc_array_bsearch` (libsc): position of an entry for which the comparison with the key gives 0.
The counters for statistics are left out. -/
def spawnOne (bs : (Quad d → ℤ) → List (Quad d) → Option ℕ) (dom : Quad d) (l : ℕ) (q : Quad d)
    (st : LevelSt d) (sid : ℕ) : Option (LevelSt d) :=
  let a := coarseNeighbor q sid
  if sid ≠ 0 ∧ isAncestor dom a = false then some st
  else match st.out.findIdx? (fun m => isEqual a m.q) with
    | some j =>
      if sid = 0 then some { st with out := st.out.modify j fun m => { m with pre := true } }
      else some st
    | none =>
      if sid = 0 then some { st with out := st.out ++ [⟨a, false, true⟩] }
      else match bs (disjointParent a) (st.inl.map Mark.q) with
        | none => some { st with out := st.out ++ [⟨a, false, false⟩] }
        | some k => do
          let r ← st.inl[k]?
          some ⟨st.inl.modify k (markFound l), st.out ++ [⟨a, false, decide (r.q.level ≥ l - 1)⟩]⟩

/-- The loop over `sid`, src/p4est_algorithms.c:1768-1884. -/
def spawn (bs : (Quad d → ℤ) → List (Quad d) → Option ℕ) (dom : Quad d) (bound l : ℕ) (q : Quad d)
    (st : LevelSt d) : Option (LevelSt d) :=
  (List.range bound).foldlM (spawnOne bs dom l q) st

/-- One entry of `inlist`, src/p4est_algorithms.c:1747-1753. -/
def spawnIn (bs : (Quad d → ℤ) → List (Quad d) → Option ℕ) (dom : Quad d) (bound l : ℕ)
    (st : LevelSt d) (jz : ℕ) : Option (LevelSt d) := do
  let m ← st.inl[jz]?
  if m.q.level ≠ l ∨ m.dup = true then some st else spawn bs dom bound l m.q st

/-- One level, src/p4est_algorithms.c:1744-1885: all entries of `inlist`, then all entries of
`cur` = `outlist[l]`. -/
def balanceLevel (bs : (Quad d → ℤ) → List (Quad d) → Option ℕ) (dom : Quad d) (bound l : ℕ)
    (cur : List (Mark d)) (inl : List (Mark d)) : Option (LevelSt d) := do
  let st ← (List.range inl.length).foldlM (spawnIn bs dom bound l) ⟨inl, []⟩
  cur.foldlM (fun st m => spawn bs dom bound l m.q st) st

/-- The loop over the levels, src/p4est_algorithms.c:1743-1886.  `n` counts the levels left, the
current level is `minlevel + 1 + n` with `minlevel = dom->level + 1`.  The result is `inlist` and the
lists `outlist[minlevel + 1]`, `outlist[minlevel + 2]`, ... in this order. -/
def balanceLevels (bs : (Quad d → ℤ) → List (Quad d) → Option ℕ) (dom : Quad d) (bound : ℕ) :
    ℕ → List (Mark d) → List (Mark d) → List (List (Mark d)) → Option (List (Mark d) × List (List (Mark d)))
  | 0, _, inl, outs => some (inl, outs)
  | n + 1, cur, inl, outs => do
    let st ← balanceLevel bs dom bound (dom.level + 2 + (n + 1)) cur inl
    balanceLevels bs dom bound n st.out st.inl (st.out :: outs)

/-- `sc_array_sort` with `p4est_quadrant_compare` (libsc), by its contract.  Entries that compare
equal are the same quadrant, so the sorted array is unique. -/
def insertSorted (q : Quad d) : List (Quad d) → List (Quad d)
  | [] => [q]
  | r :: rs => if compare q r ≤ 0 then q :: r :: rs else r :: insertSorted q rs

/-- See `insertSorted`. -/
def sortQuads (l : List (Quad d)) : List (Quad d) := l.foldr insertSorted []

/-- Quadrants of the output lists that are dropped, src/p4est_algorithms.c:1923-1931. -/
def inRegion (fd : Quad d) (first last : Option (Quad d)) (q : Quad d) : Bool :=
  !(first.isSome && decide (compare q fd < 0)) && !(last.any fun ld => decide (compare q ld > 0))

/-- The balance phase, src/p4est_algorithms.c:1714-1946.  `maxlevel` was computed before
(lines 1632-1639). -/
def balancePhase (bs : (Quad d → ℤ) → List (Quad d) → Option ℕ) (dom : Quad d) (bound maxlevel : ℕ)
    (fd : Quad d) (first last : Option (Quad d)) (inl : List (Quad d)) : Option (List (Quad d)) := do
  let r ← balanceLevels bs dom bound (maxlevel - (dom.level + 2)) []
    (inl.map fun q => ⟨q, false, false⟩) []
  let ins := (r.1.filter fun m => !m.pre).map Mark.q
  let new := (r.2.flatten.filter fun m => inRegion fd first last m.q && !m.pre).map Mark.q
  some (if new.length > 0 then sortQuads (ins ++ new) else ins)

/-- `while (fd.level > minlevel && child_id (fd) == id) parent (fd)`, src/p4est_algorithms.c:1644-1646
(`id` = 0) and 1677-1680 (`id` = last child).  `n` is `fd.level - minlevel`. -/
def climb (id : ℕ) : ℕ → Quad d → Quad d
  | 0, q => q
  | n + 1, q => if childId q = id then climb id n (parent q) else q

/-- The first quadrant of the region and `inlist` with an entry for it,
src/p4est_algorithms.c:1641-1672. -/
def addFirstDesc (dom : Quad d) (first : Option (Quad d)) (inl : List (Quad d)) :
    Option (Quad d × List (Quad d)) :=
  match first with
  | none => some (firstDesc dom (dom.level + 1), inl)
  | some f => do
    let fd := climb 0 (f.level - (dom.level + 1)) f
    let t := sibling fd 0
    let si ← findLowerBound inl t 0
    match si with
    | some i => do
      let q ← inl[i]?
      if (nca t q).level + 1 < t.level then some (fd, inl.take i ++ t :: inl.drop i) else some (fd, inl)
    | none => some (fd, inl ++ [t])

/-- The same for the last quadrant, src/p4est_algorithms.c:1674-1710. -/
def addLastDesc (dom : Quad d) (last : Option (Quad d)) (inl : List (Quad d)) : Option (List (Quad d)) :=
  match last with
  | none => some inl
  | some l => do
    let t := sibling (climb (2 ^ d - 1) (l.level - (dom.level + 1)) l) 0
    let si ← findHigherBound inl l 0
    match si with
    | some i => do
      let q ← inl[i]?
      if (nca l q).level + 1 < t.level then some (inl.take (i + 1) ++ t :: inl.drop (i + 1)) else some inl
    | none => some (t :: inl)

/-- `while (tempq.level >= minlevel && pid == P4EST_CHILDREN - 1)`, src/p4est_algorithms.c:2010-2014. -/
def ascend (minlevel : ℕ) (t : Quad d) (pid : ℕ) : Option (Quad d × ℕ) :=
  if t.level ≥ minlevel ∧ pid = 2 ^ d - 1 then ascend minlevel (parent t) (childId (parent t))
  else some (t, pid)
partial_fixpoint

/-- The condition of the inner loop, src/p4est_algorithms.c:1998-1999. -/
def comesBefore (t : Quad d) : Option (Quad d) → Bool
  | none => true
  | some q => !isEqual t q && !isAncestor t q

/-- The inner loop, src/p4est_algorithms.c:1996-2024. -/
def fillWhile (minlevel : ℕ) (last q : Option (Quad d)) (t : Quad d) (pid : ℕ) (out : List (Quad d)) :
    Option (Quad d × ℕ × List (Quad d)) :=
  if comesBefore t q = true then
    if (last.any fun ld => decide (compare t ld > 0)) = true then some (t, pid, out)
    else do
      let u ← ascend minlevel t pid
      if u.1.level < minlevel then some (u.1, u.2, out ++ [t])
      else fillWhile minlevel last q (sibling u.1 (u.2 + 1)) (u.2 + 1) (out ++ [t])
  else some (t, pid, out)
partial_fixpoint

/-- The next quadrant `q` that the output must not contain strictly, src/p4est_algorithms.c:1970-1995
and 2050-2075: the entry `jz` of `inlist`; after the last one the quadrant behind the region; or NULL. -/
def fillNext (dom : Quad d) (last : Option (Quad d)) (inl : List (Quad d)) (jz : ℕ) :
    Option (Option (Quad d)) :=
  match inl[jz]? with
  | some q => some (some q)
  | none =>
    match last with
    | none => some none
    | some l => if isEqual (lastDesc dom QMAXLEVEL) l = true then some none else (successor l).map some

/-- The loop that fills the gaps, src/p4est_algorithms.c:1996-2088.  `none` also stands for the use of
a NULL pointer `q` (excluded by the assertion in line 2034). -/
def fillLoop (dom : Quad d) (last : Option (Quad d)) (inl : List (Quad d)) (q : Option (Quad d))
    (t : Quad d) (pid jz : ℕ) (out : List (Quad d)) : Option (List (Quad d)) := do
  let u ← fillWhile (dom.level + 1) last q t pid out
  if u.1.level < dom.level + 1 ∨ (last.any fun ld => decide (compare u.1 ld > 0)) = true then some u.2.2
  else match q with
    | none => none
    | some r =>
      if ∀ i, r.c i = u.1.c i then do
        let q' ← fillNext dom last inl (jz + 1)
        fillLoop dom last inl q' ⟨u.1.c, r.level⟩ (if r.level > u.1.level then 0 else u.2.1) (jz + 1) u.2.2
      else
        let a := nca (firstDesc u.1 QMAXLEVEL) r
        fillLoop dom last inl q ⟨a.c, a.level + 1⟩ 0 jz u.2.2
partial_fixpoint

/-- Fill in the gaps between the entries of `inlist`, src/p4est_algorithms.c:1948-2088. -/
def fillGaps (dom fd : Quad d) (first last : Option (Quad d)) (inl : List (Quad d)) :
    Option (List (Quad d)) :=
  match first with
  | none => do
    let q ← fillNext dom last inl 0
    fillLoop dom last inl q fd 0 0 []
  | some _ => do
    let si ← findLowerBound inl fd 0
    let jz := si.getD inl.length
    let q ← fillNext dom last inl jz
    fillLoop dom last inl q fd (childId fd) jz []

/-- `p4est_complete_or_balance_kernel`, src/p4est_algorithms.c:1574-2112: the quadrants appended to
`out`. -/
def balanceKernel (bs : (Quad d → ℤ) → List (Quad d) → Option ℕ) (dom : Quad d) (bound : ℕ)
    (first last : Option (Quad d)) (inl : List (Quad d)) : Option (List (Quad d)) := do
  let maxlevel := inl.foldl (fun m q => max m q.level) (dom.level + 1)
  let f ← addFirstDesc dom first inl
  let inl2 ← addLastDesc dom last f.2
  if bound > 1 then do
    let inl3 ← balancePhase bs dom bound maxlevel f.1 first last inl2
    fillGaps dom f.1 first last inl3
  else fillGaps dom f.1 first last inl2

/-- The reduced representation of the leaves, src/p4est_algorithms.c:2254-2270.  `q` is the entry
pushed last. -/
def reduceLoop : Quad d → List (Quad d) → List (Quad d)
  | q, [] => [q]
  | q, p :: ps =>
    if (nca p q).level + 1 ≥ min q.level p.level then
      if p.level > q.level then reduceLoop (sibling p 0) ps else reduceLoop q ps
    else q :: reduceLoop (sibling p 0) ps

/-- The new leaves with their data, the counters of the tree and the freed leaves. -/
structure MergeSt (d : ℕ) (α σ : Type) where
  leaves : List (Leaf d α)
  perLevel : ℕ → ℤ
  maxlevel : ℕ
  s : σ
  freed : List (Leaf d α)

/-- A new leaf, src/p4est_algorithms.c:2295-2297, 2316-2318 and 2344-2346. -/
def mergeNew (init : Quad d → σ → α × σ) (st : MergeSt d α σ) (p : Quad d) : MergeSt d α σ :=
  let r := init p st.s
  { st with leaves := st.leaves ++ [⟨p, r.1⟩], perLevel := bump st.perLevel p.level 1,
            maxlevel := max st.maxlevel p.level, s := r.2 }

/-- The loops that carry the data over, src/p4est_algorithms.c:2283-2347, without a replace callback
(`replace_fn` is NULL in `p4est_complete_subtree` and `p4est_balance_subtree`).  `none` is an access
behind `outlist` (line 2300).  The two nested loops over `jz` are one recursion: the inner loop
repeats the test of lines 2293 and the outer condition holds again. -/
def mergeLoop (init : Quad d → σ → α × σ) (qs : List (Leaf d α)) (ps : List (Quad d))
    (st : MergeSt d α σ) : Option (MergeSt d α σ) :=
  match qs, ps with
  | [], ps => some (ps.foldl (mergeNew init) st)
  | _, [] => some st
  | q :: qs, p :: ps =>
    if compare p q.q < 0 then
      if ps.isEmpty then none else mergeLoop init (q :: qs) ps (mergeNew init st p)
    else if q.q.level < p.level then
      mergeLoop init qs ((p :: ps).dropWhile (fun p => isAncestor q.q p))
        (((p :: ps).takeWhile (fun p => isAncestor q.q p)).foldl (mergeNew init)
          { st with perLevel := bump st.perLevel q.q.level (-1), freed := st.freed ++ [q] })
    else mergeLoop init qs ps { st with leaves := st.leaves ++ [⟨p, q.data⟩] }
partial_fixpoint

/-- The number `bound` of neighbors to consider, src/p4est_algorithms.c:2198-2215. -/
def balanceBound (d btype : ℕ) : Option ℕ :=
  if btype = 0 then some 1
  else if btype = 1 then some (d + 1)
  else if btype = d then some (2 ^ d)
  else if d = 3 ∧ btype = 2 then some 7
  else none

/-- `sc_array_resize` and `memcpy`, src/p4est_algorithms.c:2350-2351. -/
def LArr.ofList (a : LArr d α) (l : List (Leaf d α)) : LArr d α :=
  ⟨fun i => (l[i]?).getD (a.get i), l.length⟩

/-- `p4est_complete_or_balance`, src/p4est_algorithms.c:2165-2383, without a replace callback.
`fdesc` and `ldesc` are the members `first_desc` and `last_desc` of the tree.  The result is the new
tree, the user state and the freed leaves. -/
def completeOrBalance (bs : (Quad d → ℤ) → List (Quad d) → Option ℕ) (init : Quad d → σ → α × σ)
    (btype : ℕ) (fdesc ldesc : Quad d) (t : Tree d α) (s : σ) :
    Option (Tree d α × σ × List (Leaf d α)) := do
  let bound ← balanceBound d btype
  match t.quads.toList with
  | [] => some (t, s, [])
  | p :: ps =>
    let dom := nca fdesc ldesc
    if ps.isEmpty ∧ isEqual p.q dom = true then some (t, s, [])
    else do
      let out ← balanceKernel bs dom bound (some fdesc) (some ldesc)
        (reduceLoop (sibling p.q 0) (ps.map Leaf.q))
      let st ← mergeLoop init (p :: ps) out ⟨[], t.perLevel, t.maxlevel, s, []⟩
      some ({ t with quads := t.quads.ofList st.leaves, perLevel := st.perLevel, maxlevel := st.maxlevel },
        st.s, st.freed)

/-- `p4est_complete_subtree`, src/p4est_algorithms.c:2635-2640. -/
def completeSubtree (bs : (Quad d → ℤ) → List (Quad d) → Option ℕ) (init : Quad d → σ → α × σ)
    (fdesc ldesc : Quad d) (t : Tree d α) (s : σ) : Option (Tree d α × σ × List (Leaf d α)) :=
  completeOrBalance bs init 0 fdesc ldesc t s

/-- `p4est_balance_subtree`, src/p4est_algorithms.c:2642-2648; `btype` is the number returned by
`p4est_connect_type_int` (1 for faces, 2 for corners in 2D or edges in 3D, 3 for corners in 3D). -/
def balanceSubtree (bs : (Quad d → ℤ) → List (Quad d) → Option ℕ) (init : Quad d → σ → α × σ)
    (btype : ℕ) (fdesc ldesc : Quad d) (t : Tree d α) (s : σ) :
    Option (Tree d α × σ × List (Leaf d α)) :=
  completeOrBalance bs init btype fdesc ldesc t s

end P4est
