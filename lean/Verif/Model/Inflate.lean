import Verif.Model.New

/-! # `p4est_deflate_quadrants`, `p4est_inflate` (src/p4est_io.c) and `p4est_comm_count_pertree`
(src/p4est_communication.c)

The array of coordinates and levels is a list of integers.  The user data of a quadrant are one value of
type `α`.  `none` stands for an access out of bounds or for a failed assertion. -/

namespace P4est

variable {d : ℕ} {α : Type}

/-! ### Deflate -/

/-- The entries for one quadrant, src/p4est_io.c:206-211. -/
def deflateQuad (q : Quad d) : List ℤ := List.ofFn q.c ++ [(q.level : ℤ)]

/-- The loop src/p4est_io.c:201-217 over the trees `t, ..., t + n - 1`; the lists are what is written so far. -/
def deflateTrees (rt : RankTrees (Quad d × α)) : ℕ → ℕ → List ℤ → List α → Option (List ℤ × List α)
  | 0, _, qap, dap => some (qap, dap)
  | n + 1, t, qap, dap => do
    let tree ← rt.trees[t]?
    deflateTrees rt n (t + 1) (qap ++ tree.flatMap fun x => deflateQuad x.1) (dap ++ tree.map Prod.snd)

/-- `p4est_deflate_quadrants`, src/p4est_io.c:172-225.  Both arrays must be filled completely and nothing may
be written behind them.  If `data` is `NULL`, the second array is not used. -/
def deflateQuadrants (rt : RankTrees (Quad d × α)) (localNum : ℕ) : Option (List ℤ × List α) := do
  let r ← deflateTrees rt (localTrees rt) rt.first.toNat [] []
  if r.1.length = (d + 1) * localNum ∧ r.2.length = localNum then some r else none

/-! ### Inflate -/

/-- One quadrant is read, src/p4est_io.c:349-358; the level is converted to `int8_t` and must be legal. -/
def inflateQuad (d : ℕ) (qap : List ℤ) : Option (Quad d × List ℤ) :=
  if h : d + 1 ≤ qap.length then
    let ql := (qap[d]'(by omega) + 128) % 256 - 128
    if 0 ≤ ql ∧ ql ≤ QMAXLEVEL then some (⟨fun i => qap[i.val]'(by omega), ql.toNat⟩, qap.drop (d + 1)) else none
  else none

/-- User data for one quadrant, src/p4est_io.c:361-365; without data the quadrant has none, `mem`. -/
def inflateData (mem : α) : Option (List α) → Option (α × Option (List α))
  | none => some (mem, none)
  | some [] => none
  | some (x :: dap) => some (x, some dap)

/-- What is read so far for a tree: the quadrants, `quadrants_per_level`, `tml`, and the unread parts of the
arrays. -/
structure InflateSt (d : ℕ) (α : Type) where
  quads : List (Quad d × α)
  perLevel : ℕ → ℤ
  tml : ℕ
  qap : List ℤ
  dap : Option (List α)

/-- The loop src/p4est_io.c:346-370 without the first descendant. -/
def inflateLeaves (mem : α) : ℕ → InflateSt d α → Option (InflateSt d α)
  | 0, st => some st
  | n + 1, st => do
    let (q, qap) ← inflateQuad d st.qap
    let (x, dap) ← inflateData mem st.dap
    inflateLeaves mem n ⟨st.quads ++ [(q, x)], bump st.perLevel q.level 1, max st.tml q.level, qap, dap⟩

/-- The quadrants of tree `jt`, src/p4est_io.c:338-376: the tree and the state of the loop over all
trees, which consists of the unread parts of the arrays, `zqoffset`, `gquadremain` and `gtreeskip`. -/
structure InflatePos (α : Type) where
  qap : List ℤ
  dap : Option (List α)
  offset : ℤ
  remain : ℤ
  skip : ℤ

/-- src/p4est_io.c:338-376. -/
def inflateTree (mem : α) (pertree : List ℤ) (jt : ℕ) (st : InflatePos α) : Option (NewTree d α × InflatePos α) := do
  let a ← pertree[jt]?
  let b ← pertree[jt + 1]?
  let num := min (b - a - st.skip) st.remain
  if num ≤ 0 then none
  else do
    let r ← inflateLeaves (d := d) mem num.toNat ⟨[], fun _ => 0, 0, st.qap, st.dap⟩
    let q0 ← r.quads[0]?
    let ql ← r.quads[r.quads.length - 1]?
    some (⟨r.quads, r.perLevel, r.tml, st.offset, some (firstDesc q0.1 QMAXLEVEL), some (lastDesc ql.1 QMAXLEVEL)⟩,
      ⟨r.qap, r.dap, st.offset + num, st.remain - num, 0⟩)

/-- A tree with or without local quadrants, src/p4est_io.c:322-377. -/
def inflateStep (mem : α) (pertree : List ℤ) (first last : ℤ) (jt : ℕ) (st : InflatePos α) :
    Option (NewTree d α × InflatePos α) :=
  if first ≤ jt ∧ jt ≤ last then inflateTree mem pertree jt st
  else some ({ emptyTree with offset := st.offset }, st)

/-- The loop src/p4est_io.c:322-378 over the trees `jt, ..., jt + n - 1`. -/
def inflateLoop (mem : α) (pertree : List ℤ) (first last : ℤ) :
    ℕ → ℕ → InflatePos α → Option (List (NewTree d α) × InflatePos α)
  | 0, _, st => some ([], st)
  | n + 1, jt, st => do
    let (tree, st) ← inflateStep mem pertree first last jt st
    let (rest, st) ← inflateLoop mem pertree first last n (jt + 1) st
    some (tree :: rest, st)

/-- `sc_bsearch_range` of libsc on `pertree` by its contract: the index `i < nmemb` with
`base[i] <= key < base[i + 1]`, otherwise `nmemb`, which violates the assertions lines 301 and 306. -/
def scBsearchRange (key : ℤ) (base : List ℤ) (nmemb : ℕ) : Option ℕ :=
  (List.range nmemb).find? fun i => decide (base.getD i 0 ≤ key ∧ key < base.getD (i + 1) 0)

/-- First and last local tree and `gtreeskip`, src/p4est_io.c:296-315. -/
def inflateRange (pertree : List ℤ) (numTrees : ℕ) (a b : ℤ) : Option (ℤ × ℤ × ℤ) :=
  if b - a > 0 then do
    let gk1 ← scBsearchRange a pertree numTrees
    let p ← pertree[gk1]?
    let gk2 ← scBsearchRange (b - 1) pertree numTrees
    some (gk1, gk2, a - p)
  else some (-1, -2, 0)

/-- One rank of `p4est_inflate_internal`, src/p4est_io.c:227-380, with its assertions on the lengths of the
arrays; `a` and `b` are `global_first_quadrant[rank]` and `[rank + 1]`. -/
def inflateRank (mem : α) (pertree : List ℤ) (numTrees : ℕ) (a b : ℤ) (quads : List ℤ) (data : Option (List α)) :
    Option (NewRank d α) := do
  let (first, last, skip) ← inflateRange pertree numTrees a b
  let (trees, st) ← inflateLoop mem pertree first last numTrees 0 ⟨quads, data, 0, b - a, skip⟩
  if st.offset = b - a ∧ st.remain = 0 then some ⟨trees, first, last, b - a⟩ else none

/-- `p4est_inflate_internal` on `P` ranks, src/p4est_io.c:227-398.  `p4est_comm_global_partition` uses the first
quadrant of each rank. -/
def inflate (mem : α) (P numTrees : ℕ) (gfq : ℕ → ℤ) (pertree : List ℤ) (quads : ℕ → List ℤ) (data : ℕ → Option (List α)) :
    Option (NewForest d α) := do
  let ranks ← (List.range P).mapM fun p => inflateRank mem pertree numTrees (gfq p) (gfq (p + 1)) (quads p) (data p)
  let rank := fun p => ranks.getD p ⟨[], -1, -2, 0⟩
  let gfp := globalPartition (d := d) (fun p => (rank p).trees'.tagged) P numTrees
  some
    { forest :=
        { ranks := fun p => (rank p).trees', gfq := gfq, gfpTree := gfp.map GPos.tree, globalNum := (gfq P).toNat,
          numTrees := numTrees, revision := 0 }
      gfp := gfp, ranks := rank }

/-! ### Number of quadrants per tree -/

/-- The array `treecount`; `none` is an entry that is not yet written. -/
abbrev TreeCount := ℕ → Option ℤ

/-- `treecount[p] += n`. -/
def TreeCount.add (tc : TreeCount) (p : ℕ) (n : ℤ) : Option TreeCount := do
  let v ← tc p
  some (Function.update tc p (some (v + n)))

/-- The loop src/p4est_communication.c:469-472 over the ranks after `p`; `n` ranks are left. -/
def sameTreeLoop (gfp : List (GPos d)) (t : ℤ) : ℕ → ℕ → TreeCount → Option (ℕ × TreeCount)
  | 0, _, _ => none
  | n + 1, p, tc => do
    let g ← gfp[p + 1]?
    let tc := Function.update tc (p + 1) (some 0)
    if g.tree = t then sameTreeLoop gfp t n (p + 1) tc else some (p + 1, tc)

/-- The loop src/p4est_communication.c:492-494. -/
def zeroCounts (P : ℕ) (tc : TreeCount) (p : ℕ) : TreeCount := fun i => if p < i ∧ i ≤ P then some 0 else tc i

/-- The corner of the position is the first corner of its tree, src/p4est_communication.c:481-485. -/
def atTreeStart (g : GPos d) : Bool := decide (∀ i, g.c i = 0)

/-- The loop src/p4est_communication.c:464-497, at most `n` turns.  The loop of lines 475-477 over the trees
between `t` and the next one adds their number and ends with the larger one of `t + 1` and this tree. -/
def ownerCounts (gfp : List (GPos d)) (P T : ℕ) : ℕ → ℕ → ℤ → TreeCount → Option TreeCount
  | 0, _, _, _ => none
  | n + 1, p, t, tc => do
    let (p, tc) ← sameTreeLoop gfp t (P - p) p tc
    let g ← gfp[p]?
    let tc ← tc.add (p - 1) ((g.tree - (t + 1)).toNat : ℤ)
    let t := max (t + 1) g.tree
    if t < T then do
      let tc ← tc.add (if atTreeStart g then p else p - 1) 1
      ownerCounts gfp P T n p t tc
    else some (zeroCounts P tc p)

/-- `treecount`, src/p4est_communication.c:459-497. -/
def treeCounts (gfp : List (GPos d)) (P T : ℕ) : Option TreeCount :=
  ownerCounts gfp P T P 0 0 (Function.update (fun _ => none) 0 (some 1))

/-- `treeoffset[p]`, src/p4est_communication.c:501-503. -/
def treeOffsets (tc : ℕ → ℤ) : ℕ → ℤ
  | 0 => 0
  | p + 1 => treeOffsets tc p + tc p

/-- The loop src/p4est_communication.c:541-543: the next rank that counts a tree, or the number of ranks. -/
def nextCounter (tc : ℕ → ℤ) : ℕ → ℕ → ℕ
  | 0, p => p
  | n + 1, p => if tc p = 0 then nextCounter tc n (p + 1) else p

/-- The loop src/p4est_communication.c:565-567: the last rank before that counts a tree. -/
def prevCounter (tc : ℕ → ℤ) : ℕ → Option ℕ
  | 0 => none
  | p + 1 => if tc p = 0 then prevCounter tc p else some p

/-- What a rank knows after the loop src/p4est_communication.c:533-558: `mypertree` and the rank from
which a number for the last entry must be received. -/
structure MyPertree where
  counts : List ℤ
  source : Option ℕ

/-- The number of quadrants in a tree of this rank. -/
def treeSize (rt : RankTrees (Quad d × α)) (t : ℤ) : Option ℤ :=
  if t < 0 then none else rt.trees[t.toNat]?.map fun l => (l.length : ℤ)

/-- The loop src/p4est_communication.c:533-558 from entry `c` on, `n` entries are left. -/
def myPertreeLoop (gfp : List (GPos d)) (gfq : ℕ → ℤ) (P rank : ℕ) (tc : ℕ → ℤ) (offset : ℤ) (rt : RankTrees (Quad d × α)) :
    ℕ → ℕ → Option MyPertree
  | 0, _ => some ⟨[], none⟩
  | n + 1, c => do
    let size ← treeSize rt (offset + c)
    if n = 0 then do
      let p := nextCounter tc (P - (rank + 1)) (rank + 1)
      let g ← gfp[p]?
      some ⟨[size + (gfq p - gfq (rank + 1))], if g.tree = offset + c then some p else none⟩
    else do
      let rest ← myPertreeLoop gfp gfq P rank tc offset rt n (c + 1)
      some ⟨size :: rest.counts, rest.source⟩

/-- The message src/p4est_communication.c:559-573: receiver and content, if there is one. -/
def pertreeSend (gfp : List (GPos d)) (rank : ℕ) (tc : ℕ → ℤ) (offset : ℤ) (rt : RankTrees (Quad d × α)) :
    Option (Option (ℕ × ℤ)) := do
  let g ← gfp[rank]?
  if tc rank > 0 ∧ g.tree < offset then do
    let size ← treeSize rt g.tree
    let p ← prevCounter tc rank
    some (some (p, size))
  else some none

/-- The last entry is increased by the number received, src/p4est_communication.c:575-580. -/
def addLast (l : List ℤ) (x : ℤ) : List ℤ := l.modify (l.length - 1) (· + x)

/-- The message is received from the rank from which it is expected; a message that is not expected or one
that does not come is `none`. -/
def pertreeReceive (sends : ℕ → Option (ℕ × ℤ)) (P rank : ℕ) (my : MyPertree) : Option (List ℤ) :=
  if ∀ p ∈ List.range P, ∀ m ∈ sends p, m.1 = rank → my.source = some p then
    match my.source with
    | none => some my.counts
    | some p =>
      match sends p with
      | some (dest, x) => if p < P ∧ dest = rank then some (addLast my.counts x) else none
      | none => none
  else none

/-- The sums src/p4est_communication.c:586-588 after a first entry `a`. -/
def pertreeSums (a : ℤ) : List ℤ → List ℤ
  | [] => [a]
  | x :: xs => a :: pertreeSums (a + x) xs

/-- `p4est_comm_count_pertree`, src/p4est_communication.c:428-598: the array `pertree` on all ranks.
`MPI_Allgatherv` concatenates the contributions, since `treeoffset` are the sums of `treecount`; rank `p`
must contribute `treecount[p]` entries and all together one for each tree. -/
def countPertree (f : Forest d α) (gfp : List (GPos d)) (P : ℕ) : Option (List ℤ) := do
  let tc0 ← treeCounts gfp P f.numTrees
  let tc := fun p => (tc0 p).getD 0
  if ∀ p ∈ List.range P, (tc0 p).isSome then do
    let mys ← (List.range P).mapM fun p =>
      myPertreeLoop gfp f.gfq P p tc (treeOffsets tc p) (f.ranks p) (tc p).toNat 0
    let sends ← (List.range P).mapM fun p => pertreeSend gfp p tc (treeOffsets tc p) (f.ranks p)
    let parts ← (List.range P).mapM fun p =>
      pertreeReceive (fun q => (sends[q]?).getD none) P p ((mys[p]?).getD ⟨[], none⟩)
    if parts.flatten.length = f.numTrees then some (pertreeSums 0 parts.flatten) else none
  else none

end P4est
