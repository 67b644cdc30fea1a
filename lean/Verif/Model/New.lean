import Verif.Model.PartitionExt
import Verif.Model.Complete
import Verif.Model.Linear

/-! # `p4est_new_ext`, src/p4est.c:201-501

The connectivity enters with its number of trees only.  `min_quadrants` and `min_level` may be
negative.  All `p4est_gloidx_t` are unbounded integers here. -/

namespace P4est

variable {d : ℕ} {α σ : Type}

/-- `p4est_tree_t`, src/p4est.h:130-152.  `none` in `first_desc` and `last_desc` is what
`P4EST_QUADRANT_INIT` leaves.  The entry of `quadrants_per_level` for `P4EST_MAXLEVEL`, always `-1`, is not
modelled. -/
structure NewTree (d : ℕ) (α : Type) where
  quads : List (Quad d × α)
  perLevel : ℕ → ℤ
  maxlevel : ℕ
  offset : ℤ
  firstDesc : Option (Quad d)
  lastDesc : Option (Quad d)

/-- The members of `p4est_t` of one rank: `trees`, `first_local_tree`, `last_local_tree` and
`local_num_quadrants`. -/
structure NewRank (d : ℕ) (α : Type) where
  trees : List (NewTree d α)
  first : ℤ
  last : ℤ
  localNum : ℤ

/-- First loop for the level, src/p4est.c:251-260.  `need` is the quotient of lines 254-255. -/
def levelLoop (d : ℕ) (need : ℤ) : ℕ → ℕ → ℕ → ℕ × ℕ
  | 0, level, tnq => (level, tnq)
  | n + 1, level, tnq =>
    if need ≤ tnq then (level, tnq) else levelLoop d need n (level + 1) (tnq * 2 ^ d)

/-- Second loop for the level, src/p4est.c:261-264. -/
def levelLoop2 (d : ℕ) (minLevel : ℤ) : ℕ → ℕ → ℕ → ℕ × ℕ
  | 0, level, tnq => (level, tnq)
  | n + 1, level, tnq =>
    if (level : ℤ) < minLevel then levelLoop2 d minLevel n (level + 1) (tnq * 2 ^ d) else (level, tnq)

/-- `level` and `tree_num_quadrants`, src/p4est.c:249-266.  The assertion on `level` is the result
`none`. -/
def newLevel (d P T : ℕ) (minQuadrants minLevel : ℤ) : Option (ℕ × ℕ) :=
  let r1 := levelLoop d (((P : ℤ) * minQuadrants + ((T : ℤ) - 1)).tdiv T) QMAXLEVEL 0 1
  let r2 := levelLoop2 d minLevel minLevel.toNat r1.1 r1.2
  if r2.1 ≤ QMAXLEVEL then some r2 else none

/-- First and last tree of a rank and the first and last quadrant in them, src/p4est.c:278-323. -/
structure NewRange where
  firstTree : ℤ
  firstQuad : ℤ
  lastTree : ℤ
  lastQuad : ℤ

/-- src/p4est.c:278-323. -/
def newRange (rnd : ℚ → ℚ) (P T tnq rank : ℕ) : NewRange :=
  let first := partitionCut rnd (tnq * T) rank P
  let firstTree := first.tdiv tnq
  let firstQuad := first - firstTree * tnq
  let last := partitionCut rnd (tnq * T) (rank + 1) P - 1
  if first ≤ last then
    let lastTree := last.tdiv tnq
    ⟨firstTree, firstQuad, lastTree, last - lastTree * tnq⟩
  else ⟨-1, firstQuad, -2, -1⟩

/-- A tree before it is filled, src/p4est.c:328-341. -/
def emptyTree : NewTree d α := ⟨[], fun _ => 0, 0, 0, none, none⟩

/-- Quadrants of one level, one after the other, with their data, src/p4est.c:426-434: `q` and `n` more. -/
def fillLevel (init : Quad d → σ → α × σ) : ℕ → Quad d → σ → Option (List (Quad d × α) × σ)
  | 0, q, s => some ([(q, (init q s).1)], (init q s).2)
  | n + 1, q, s => do
    let r ← successor q
    let rest ← fillLevel init n r (init q s).2
    some ((q, (init q s).1) :: rest.1, rest.2)

/-- The branch for uniform trees, src/p4est.c:413-445.  `count` is unsigned: the assertion that it is
positive is the result `none`.  The counter of the level is assigned, not increased. -/
def newTreeUniform (init : Quad d → σ → α × σ) (level tnq : ℕ) (r : NewRange) (jt : ℤ) (s : σ) :
    Option (NewTree d α × σ) :=
  let firstMorton := if jt = r.firstTree then r.firstQuad else 0
  let lastMorton := if jt = r.lastTree then r.lastQuad else (tnq : ℤ) - 1
  let count := lastMorton - firstMorton + 1
  if count ≤ 0 then none
  else do
    let (quads, s) ← fillLevel init (count.toNat - 1) (setMorton level firstMorton.toNat) s
    let q0 ← quads[0]?
    let ql ← quads[quads.length - 1]?
    some (⟨quads, Function.update (fun _ => 0) level count, level, 0, some (firstDesc q0.1 QMAXLEVEL),
      some (lastDesc ql.1 QMAXLEVEL)⟩, s)

/-- The last argument quadrant of `p4est_complete_region`, src/p4est.c:384-396, and whether it must be left
out. -/
def newEnd (level tnq : ℕ) (r : NewRange) (jt : ℤ) : Quad d × Bool :=
  if jt = r.lastTree then
    if r.lastQuad = (tnq : ℤ) - 1 then (setMorton level r.lastQuad.toNat, false)
    else (setMorton level (r.lastQuad + 1).toNat, true)
  else (setMorton level (tnq - 1), false)

/-- The branch for coarse trees, src/p4est.c:354-412.  `mem` is the content of the memory behind the array of
the tree. -/
def newTreeCoarse (mem : ℕ → Leaf d α) (init : Quad d → σ → α × σ) (level tnq : ℕ) (r : NewRange) (jt : ℤ)
    (s : σ) : Option (NewTree d α × σ) :=
  let a : Quad d := setMorton level (if jt = r.firstTree then r.firstQuad.toNat else 0)
  if tnq = 1 ∨ (jt = r.firstTree ∧ r.firstQuad = (tnq : ℤ) - 1) then
    some (⟨[(a, (init a s).1)], Function.update (fun _ => 0) a.level 1, a.level, 0,
      some (firstDesc a QMAXLEVEL), some (lastDesc a QMAXLEVEL)⟩, (init a s).2)
  else do
    let b : Quad d × Bool := newEnd level tnq r jt
    let st ← completeRegion init a true b.1 (!b.2) ⟨⟨mem, 0⟩, fun _ => 0, 0, 0⟩ s
    let ql ← st.tree.quads.index (st.tree.quads.count - 1)
    some (⟨st.tree.quads.toList.map (fun x => (x.q, x.data)), st.tree.perLevel, st.tree.maxlevel, 0,
      some (firstDesc a QMAXLEVEL), some (lastDesc ql.q QMAXLEVEL)⟩, st.s)

/-- One of the two branches. -/
def newTreeFill (mem : ℕ → Leaf d α) (init : Quad d → σ → α × σ) (uniform : Bool) (level tnq : ℕ) (r : NewRange)
    (jt : ℤ) (s : σ) : Option (NewTree d α × σ) :=
  if uniform then newTreeUniform init level tnq r jt s else newTreeCoarse mem init level tnq r jt s

/-- The loop over the local trees, src/p4est.c:350-455; `n` trees from `jt` on are left. -/
def newTreesLoop (mem : ℕ → Leaf d α) (init : ℕ → Quad d → σ → α × σ) (uniform : Bool) (level tnq : ℕ)
    (r : NewRange) : ℕ → ℤ → List (NewTree d α) → ℤ → σ → Option (List (NewTree d α) × ℤ × σ)
  | 0, _, trees, localNum, s => some (trees, localNum, s)
  | n + 1, jt, trees, localNum, s =>
    if 0 ≤ jt ∧ jt < trees.length then do
      let (tree, s) ← newTreeFill mem (init jt.toNat) uniform level tnq r jt s
      newTreesLoop mem init uniform level tnq r n (jt + 1)
        (trees.set jt.toNat { tree with offset := localNum }) (localNum + tree.quads.length) s
    else none

/-- The trees of one rank, src/p4est.c:324-465. -/
def newRank (rnd : ℚ → ℚ) (mem : ℕ → Leaf d α) (init : ℕ → Quad d → σ → α × σ) (uniform : Bool)
    (P T level tnq rank : ℕ) (s : σ) : Option (NewRank d α) := do
  let r := newRange rnd P T tnq rank
  let (trees, localNum, _) ← newTreesLoop mem init uniform level tnq r (r.lastTree - r.firstTree + 1).toNat
    r.firstTree (List.replicate T emptyTree) 0 s
  let trees := if 0 ≤ r.lastTree then
      trees.mapIdx fun jt t => if r.lastTree + 1 ≤ (jt : ℤ) then { t with offset := localNum } else t
    else trees
  some ⟨trees, r.firstTree, r.lastTree, localNum⟩

/-- `global_first_quadrant`, src/p4est.c:467-479. -/
def newGfq (rnd : ℚ → ℚ) (uniform : Bool) (P T level tnq : ℕ) (loc : ℕ → ℤ) : ℕ → ℤ :=
  if ¬ uniform ∧ level > 0 then countQuadrants loc P
  else fun i => partitionCut rnd (tnq * T) i P

/-- `global_first_position[i]`, src/p4est.c:483-497. -/
def newPosition (rnd : ℚ → ℚ) (P T level tnq i : ℕ) : GPos d :=
  let first := partitionCut rnd (tnq * T) i P
  let tree := first.tdiv tnq
  ⟨tree, (setMorton level (first - tree * tnq).toNat : Quad d).c⟩

/-- Result of `p4est_new_ext` on all ranks: the members used by the partition functions, all entries of
`global_first_position`, and the trees with their other members. -/
structure NewForest (d : ℕ) (α : Type) where
  forest : Forest d α
  gfp : List (GPos d)
  ranks : ℕ → NewRank d α

/-- The members of one rank that are in the model of the partition functions. -/
def NewRank.trees' (r : NewRank d α) : RankTrees (Quad d × α) := ⟨r.trees.map NewTree.quads, r.first, r.last⟩

/-- `p4est_new_ext` on `P` ranks with `T` trees, src/p4est.c:201-501.  `init` is the callback with its state
`s` of each rank.  `global_num_quadrants` is `tree_num_quadrants * num_trees` in the uniform case
(line 478), otherwise the last entry of `global_first_quadrant` (src/p4est_communication.c). -/
def newExt (rnd : ℚ → ℚ) (mem : ℕ → Leaf d α) (P T : ℕ) (minQuadrants minLevel : ℤ) (uniform : Bool)
    (init : ℕ → Quad d → σ → α × σ) (s : ℕ → σ) : Option (NewForest d α) := do
  let (level, tnq) ← newLevel d P T minQuadrants minLevel
  let ranks ← (List.range P).mapM fun p => newRank rnd mem init uniform P T level tnq p (s p)
  let rank := fun p => ranks.getD p ⟨[], -1, -2, 0⟩
  let gfq := newGfq rnd uniform P T level tnq fun p => (rank p).localNum
  let gfp := (List.range (P + 1)).map (newPosition (d := d) rnd P T level tnq)
  some
    { forest :=
        { ranks := fun p => (rank p).trees', gfq := gfq, gfpTree := gfp.map GPos.tree,
          globalNum := if ¬ uniform ∧ level > 0 then (gfq P).toNat else tnq * T,
          numTrees := T, revision := 0 }
      gfp := gfp, ranks := rank }

end P4est
