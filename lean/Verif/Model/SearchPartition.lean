import Verif.Model.SearchLocal
import Verif.Model.Partition

/-! # The top-down searches of the partition and of the whole forest (src/p4est_search.c)

In both, quadrants are passed to the callbacks with the range of ranks that own parts of them. -/

namespace P4est

variable {d : ℕ} {σ ι : Type}

/-- `P4EST_COMM_IS_EMPTY_GFQ_GFP`, src/p4est_search.c:36-39: by the counts if there are any,
otherwise by the positions. -/
def rankEmpty (gfq : Option (List ℤ)) (gfp : List (GPos d)) (p : ℕ) : Option Bool :=
  match gfq with
  | some g => isEmptyGfq g p
  | none => isEmptyGfp gfp p

/-- The loop over empty ranks, src/p4est_search.c:1355-1361, 1561-1566, 1796-1801 and 1932-1936.  The first
number bounds the iterations (0 is `none`, and the theorems show that it is never reached). -/
def skipEmpty (empty : ℕ → Option Bool) : ℕ → ℕ → Option ℕ
  | 0, _ => none
  | n + 1, p => do
    let e ← empty p
    if e then skipEmpty empty n (p + 1) else some p

/-- The lowest and the highest rank for one quadrant, src/p4est_search.c:1343-1374 (with
`p4est_traverse_is_clean_start`, 1119-1145), the same 1550-1578, 1784-1814 and 1921-1948.
`first` is the first rank beginning in the quadrant and `next` the first one beginning after it.
A negative rank is `none`. -/
def ownerRange (gfq : Option (List ℤ)) (gfp : List (GPos d)) (q : Quad d) (first next : ℕ) : Option (ℕ × ℕ) :=
  if next = 0 then none
  else if first < next then do
    let marker ← gfp[first]?
    if ∀ i, marker.c i = q.c i then do
      let p ← skipEmpty (rankEmpty gfq gfp) gfp.length first
      some (p, next - 1)
    else if first = 0 then none
    else some (first - 1, next - 1)
  else some (next - 1, next - 1)

/-- The offsets of the children in the ranks that begin inside a quadrant, src/p4est_search.c:1323-1328 and
1759-1764, with `p4est_traverse_type_childid`, 1147-1162.  A view out of bounds is `none`. -/
def splitRanks (gfp : List (GPos d)) (q : Quad d) (pfirst plast : ℕ) : Option (List ℕ) :=
  if pfirst ≤ plast ∧ plast < gfp.length then
    some (scArraySplit (((gfp.drop (pfirst + 1)).take (plast - pfirst)).map fun g => ancestorId g.quad (q.level + 1)) (2 ^ d))
  else none

/-- The loop over the children, src/p4est_search.c:1334-1398 and 1775-1849, from the child number
in the list on: `cpfirst` is the first rank that begins in the child or after it. `go` is the
recursion. -/
def rankChildren (range : Quad d → ℕ → ℕ → Option (ℕ × ℕ))
    (go : ℕ → Quad d → ℕ → ℕ → σ → Option (σ × List (Event d ι))) (q : Quad d) (offsets : List ℕ) (pfirst : ℕ) :
    List ℕ → ℕ → σ → Option (σ × List (Event d ι))
  | [], _, s => some (s, [])
  | i :: is, cpfirst, s => do
    let o ← offsets[i + 1]?
    let ab ← range (child q i) cpfirst (o + pfirst + 1)
    let r ← go i (child q i) ab.1 ab.2 s
    let rest ← rankChildren range go q offsets pfirst is (o + pfirst + 1) r.1
    some (rest.1, r.2 ++ rest.2)

/-- The offsets of the trees in the ranks, src/p4est_search.c:1511-1521 and 1882-1892, with
`p4est_traverse_type_tree`, 1105-1117. -/
def rankTreeOffsets (gfp : List (GPos d)) (numTrees : ℕ) : List ℕ :=
  scArraySplit (gfp.map fun g => g.tree.toNat) (numTrees + 1)

/-- The loop over all trees, src/p4est_search.c:1542-1599 and 1913-1984, with the given number of trees remaining:
`pfirst` is the first rank that begins in the tree or after it.  `go` is the recursion for the root. -/
def rankTreeLoop (range : Quad d → ℕ → ℕ → Option (ℕ × ℕ))
    (go : ℕ → ℕ → ℕ → σ → Option (σ × List (Event d ι))) (offsets : List ℕ) :
    ℕ → ℕ → ℕ → σ → Option (σ × List (Event d ι))
  | 0, _, _, s => some (s, [])
  | n + 1, t, pfirst, s => do
    let pnext ← offsets[t + 1]?
    let ab ← range (root d) pfirst pnext
    let r ← go t ab.1 ab.2 s
    let rest ← rankTreeLoop range go offsets n (t + 1) pnext r.1
    some (rest.1, r.2 ++ rest.2)

/-! ### Search of the partition -/

/-- `p4est_partition_recursion`, src/p4est_search.c:1238-1406.  `fuel` bounds the depth (0 is `none`, and the theorems
show that it is never reached). -/
def partitionRecursion (gfq : Option (List ℤ)) (gfp : List (GPos d)) (rec : SearchRec d σ (ℕ × ℕ)) :
    ℕ → Quad d → ℕ → ℕ → Option (List ℕ) → σ → Option (σ × List (Event d (ℕ × ℕ)))
  | 0, _, _, _, _, _ => none
  | fuel + 1, quadrant, pfirst, plast, actives, s =>
    if noneActive rec.points actives = true then some (s, [])
    else do
      let r := searchQuadrant rec (pfirst == plast) quadrant (pfirst, plast) actives s
      match r.1 with
      | none => some (r.2.1, r.2.2)
      | some chact => do
        let offsets ← splitRanks gfp quadrant pfirst plast
        let c ← rankChildren (ownerRange gfq gfp)
          (fun _ child cpfirst cplast => partitionRecursion gfq gfp rec fuel child cpfirst cplast chact)
          quadrant offsets pfirst (List.range (2 ^ d)) (pfirst + 1) r.2.1
        some (c.1, r.2.2 ++ c.2)

/-- `p4est_search_partition_internal`, src/p4est_search.c:1490-1604, called by `p4est_search_partition` (1414-1427)
and `p4est_search_partition_gfx` (1429-1461) with both arrays and by `p4est_search_partition_gfp`
(1463-1488) without the counts.  The array `gfp` has `num_procs + 1` entries. -/
def searchPartition (gfq : Option (List ℤ)) (gfp : List (GPos d)) (numTrees : ℕ) (callPost : Bool)
    (quadrantFn : Option (ℕ → Quad d → ℕ × ℕ → σ → Bool × σ)) (pointFn : ℕ → Quad d → ℕ × ℕ → ℕ → σ → Bool × σ)
    (points : Option ℕ) (s : σ) : Option (σ × List (Event d (ℕ × ℕ))) :=
  if quadrantFn.isNone && points.isNone then some (s, [])
  else rankTreeLoop (ownerRange gfq gfp)
    (fun t pfirst plast => partitionRecursion gfq gfp ⟨t, callPost, quadrantFn, pointFn, points⟩ 31 (root d) pfirst plast none)
    (rankTreeOffsets gfp numTrees) numTrees 0 0 s

/-! ### Search of the whole forest -/

/-- The local number of a leaf, src/p4est_search.c:1665-1700: there is a window of local quadrants and its
first one is the search quadrant. -/
def windowLeaf (offset : ℤ) (window : Option (List (Quad d) × ℕ)) (q : Quad d) : Option ℤ :=
  match window with
  | some (first :: _, pos) => if q = first then some (offset + pos) else none
  | _ => none

/-- The part of the window passed to a child, src/p4est_search.c:1770-1773 and 1836-1842. -/
def childWindow (window : Option (List (Quad d) × ℕ)) (level i : ℕ) : Option (Option (List (Quad d) × ℕ)) :=
  match window with
  | none => some none
  | some (w, pos) => do
    let a ← (splitArray w level)[i]?
    let b ← (splitArray w level)[i + 1]?
    some (if a < b then some ((w.drop a).take (b - a), pos + a) else none)

/-- `p4est_all_recursion`, src/p4est_search.c:1624-1857.  `window` is `quadrants` with its position in the
array of the tree, `offset` is `quadrants_offset` of the tree, `me` is `mpirank`. -/
def allRecursion (gfq : List ℤ) (gfp : List (GPos d)) (me : ℕ) (offset : ℤ) (rec : SearchRec d σ (ℕ × ℕ × ℤ)) :
    ℕ → Quad d → ℕ → ℕ → Option (List (Quad d) × ℕ) → Option (List ℕ) → σ → Option (σ × List (Event d (ℕ × ℕ × ℤ)))
  | 0, _, _, _, _, _, _ => none
  | fuel + 1, quadrant, pfirst, plast, window, actives, s =>
    if noneActive rec.points actives = true then some (s, [])
    else do
      let leaf := windowLeaf offset window quadrant
      let proceed := decide (pfirst < plast) || (pfirst == me && leaf.isNone)
      let r := searchQuadrant rec (!proceed) quadrant (pfirst, plast, leaf.getD (-1)) actives s
      match r.1 with
      | none => some (r.2.1, r.2.2)
      | some chact => do
        let offsets ← splitRanks gfp quadrant pfirst plast
        let c ← rankChildren (ownerRange (some gfq) gfp)
          (fun i child cpfirst cplast s => do
            let chpass ← childWindow window quadrant.level i
            allRecursion gfq gfp me offset rec fuel child cpfirst cplast chpass chact s)
          quadrant offsets pfirst (List.range (2 ^ d)) (pfirst + 1) r.2.1
        some (c.1, r.2.2 ++ c.2)

/-- `p4est_search_all`, src/p4est_search.c:1859-1989.  Trees that are not local have no window. -/
def searchAll (gfq : List ℤ) (gfp : List (GPos d)) (numTrees : ℕ) (me : ℕ) (f : SearchForest d) (callPost : Bool)
    (quadrantFn : Option (ℕ → Quad d → ℕ × ℕ × ℤ → σ → Bool × σ))
    (pointFn : ℕ → Quad d → ℕ × ℕ × ℤ → ℕ → σ → Bool × σ) (points : Option ℕ) (s : σ) :
    Option (σ × List (Event d (ℕ × ℕ × ℤ))) :=
  if quadrantFn.isNone && points.isNone then some (s, [])
  else rankTreeLoop (ownerRange (some gfq) gfp)
    (fun t pfirst plast s =>
      if f.first ≤ t ∧ (t : ℤ) ≤ f.last then do
        let tree ← f.trees[t]?
        allRecursion gfq gfp me tree.1 ⟨t, callPost, quadrantFn, pointFn, points⟩ 31 (root d) pfirst plast (some (tree.2, 0)) none s
      else allRecursion gfq gfp me 0 ⟨t, callPost, quadrantFn, pointFn, points⟩ 31 (root d) pfirst plast none none s)
    (rankTreeOffsets gfp numTrees) numTrees 0 0 s

end P4est
