import Verif.Model.BalanceSeeds
import Verif.Model.Search
import Verif.Model.Neighbor

/-! # The seeds between a quadrant and the leaves around it: src/p4est_algorithms.c

`p4est_tree_compute_overlap` gets quadrants from other processes or trees.  For each of them it finds the
leaves of the local border that it causes to split (`inseeds`), and what the border causes to split in
it (`out`). -/

namespace P4est

variable {d : ℕ} {ι : Type}

/-- `insul_to_f`, src/p4est_algorithms.c:772-773, 780-784; -1 stands for none. -/
def insulToFace (d : ℕ) : List ℤ :=
  if d = 3 then [-1, -1, -1, -1, 4, -1, -1, -1, -1, -1, 2, -1, 0, -1, 1, -1, 3, -1, -1, -1, -1, -1, 5, -1, -1, -1, -1]
  else [-1, 2, -1, 0, -1, 1, -1, 3, -1]

/-- `insul_to_c`, src/p4est_algorithms.c:775-776, 785-789. -/
def insulToCorner (d : ℕ) : List ℤ :=
  if d = 3 then [0, -1, 1, -1, -1, -1, 2, -1, 3, -1, -1, -1, -1, -1, -1, -1, -1, -1, 4, -1, 5, -1, -1, -1, 6, -1, 7]
  else [0, -1, 1, -1, -1, -1, 2, -1, 3]

/-- `insul_to_e` (3D only), src/p4est_algorithms.c:790-794. -/
def insulToEdge (d : ℕ) : List ℤ :=
  if d = 3 then [-1, 0, -1, 4, -1, 5, -1, 1, -1, 8, -1, 9, -1, -1, -1, 10, -1, 11, -1, 2, -1, 6, -1, 7, -1, 3, -1]
  else []

/-- The quadrant number `which` of the insulation layer, src/p4est_algorithms.c:994-1007. -/
def insulQuad (inq : Quad d) (which : ℕ) : Quad d :=
  ⟨fun i => inq.c i + ((which / 3 ^ (i : ℕ) % 3 : ℕ) - 1) * qlen inq.level, inq.level⟩

/-- `p8est_quadrant_edge_neighbor`, src/p8est_bits.c:120-151, written for any dimension (see
`edgeShift_eq`). -/
def edgeShift (q : Quad d) (edge : ℕ) : Quad d :=
  ⟨fun i => q.c i + (if (i : ℕ) = edge / 4 then (0 : ℤ)
    else if (i : ℕ) = (if edge / 4 = 0 then 1 else 0) then 2 * ((edge &&& 1 : ℕ) : ℤ) - 1
    else ((edge &&& 2 : ℕ) : ℤ) - 1) * qlen q.level, q.level⟩

/-- What is collected for one quadrant: `neigharray` (by the indices of the leaves), and the quadrants `u`
pushed to `inseeds` and `out`, before they are transformed. -/
structure OverlapSt (d : ℕ) where
  neigh : List ℕ
  inseeds : List (Quad d)
  seeds : List (Quad d)

/-- A leaf `tq` that contains the quadrant of the insulation layer, src/p4est_algorithms.c:1057-1089.
`none` is an access behind the end of `neigharray`. -/
def overlapCoarse (k : ℕ) (inq tq : Quad d) (idx : ℕ) (st : OverlapSt d) : Option (OverlapSt d) :=
  if tq.level + 1 < inq.level ∧ idx ∉ st.neigh then do
    let r ← balanceSeeds inq tq k true
    if st.neigh.length < 2 ^ d then
      some { st with neigh := st.neigh ++ [idx], inseeds := if r.1 then st.inseeds ++ r.2 else st.inseeds }
    else none
  else some st

/-- The test for one leaf inside of the insulation layer, src/p4est_algorithms.c:1105-1131: the value `split`
and the seeds; false if the leaf is skipped. -/
def overlapSplit (k : ℕ) (inq tq : Quad d) (f e c : ℤ) : Bool × List (Quad d) :=
  if f ≥ 0 then
    if isAncestor inq (faceNeighbor tq (f.toNat ^^^ 1)) = true then (false, [])
    else seedsFace tq inq f.toNat k
  else if d = 3 ∧ e ≥ 0 then
    if isAncestor inq (edgeShift tq (e.toNat ^^^ 3)) = true then (false, [])
    else seedsEdge tq inq e.toNat k
  else if isAncestor inq (cornerNeighbor tq ((2 ^ d - 1) ^^^ c.toNat)) = true then (false, [])
  else seedsCorner tq inq c.toNat k

/-- One leaf inside of the insulation layer, src/p4est_algorithms.c:1100-1184, with the variable `level`. -/
def overlapStep (k : ℕ) (inq : Quad d) (f e c : ℤ) (st : ℕ × List (Quad d)) (tq : Quad d) : ℕ × List (Quad d) :=
  if tq.level ≤ st.1 then st
  else
    let r := overlapSplit k inq tq f e c
    if r.1 then (if c ≥ 0 then r.2.foldl (fun l u => max l u.level) st.1 else st.1, st.2 ++ r.2) else st

/-- `last_index` and `guess`, src/p4est_algorithms.c:1030-1041; `none` is the abort when there is no leaf. -/
def overlapLast (L : List (Quad d)) (treeld ld : Quad d) : Option (ℕ × ℕ) :=
  if compare treeld ld ≤ 0 then some (L.length - 1, L.length / 2)
  else
    match findHigherBound L ld (L.length / 2) with
    | some (some i) => some (i, i)
    | _ => none

/-- `first_index`, src/p4est_algorithms.c:1042-1051; the inner `none` is -1. -/
def overlapFirst (L : List (Quad d)) (treefd fd s : Quad d) (guess : ℕ) : Option (Option ℕ) :=
  if compare fd treefd < 0 then some (some 0) else findLowerBound L s guess

/-- One quadrant of the insulation layer, src/p4est_algorithms.c:991-1186.  `L` is `tquadrants`, the leaves of
the tree or of its border; `treefd` and `treeld` are its first and last descendant. -/
def overlapWhich (k : ℕ) (L : List (Quad d)) (treefd treeld inq : Quad d) (st : OverlapSt d) (which : ℕ) :
    Option (OverlapSt d) :=
  let s := insulQuad inq which
  if which = 3 ^ d / 2 then some st
  else if ¬ isInsideRoot s = true then some st
  else
    let fd := firstDesc s 29
    let ld := lastDesc s 29
    if compare ld treefd < 0 ∨ compare treeld fd < 0 then some st
    else do
      let lg ← overlapLast L treeld ld
      let first ← overlapFirst L treefd fd s lg.2
      match first with
      | some i =>
        if i > lg.1 ∨ compare fd ld = 0 then do
          let tq ← L[lg.1]?
          overlapCoarse k inq tq lg.1 st
        else
          some { st with seeds := (((L.drop i).take (lg.1 + 1 - i)).foldl
            (overlapStep k inq ((insulToFace d).getD which (-1)) ((insulToEdge d).getD which (-1))
              ((insulToCorner d).getD which (-1))) (inq.level + 1, st.seeds)).2 }
      | none => do
        let tq ← L[lg.1]?
        overlapCoarse k inq tq lg.1 st

/-- The loop over the insulation layer for one quadrant, src/p4est_algorithms.c:972-1196. -/
def overlapQuad (k : ℕ) (L : List (Quad d)) (treefd treeld inq : Quad d) : Option (OverlapSt d) :=
  (List.range (3 ^ d)).foldlM (overlapWhich k L treefd treeld inq) ⟨[], [], []⟩

/-- A quadrant of the input of `p4est_tree_compute_overlap` with its tree `which_tree`; `from_` stands for
`from_tree` and `pad16`, where it comes from. -/
structure OverlapIn (d : ℕ) (ι : Type) where
  q : Quad d
  tree : ℕ
  from_ : ι

/-- `p4est_tree_compute_overlap`, src/p4est_algorithms.c:810-1197: `out` and `inseeds`, each a list of trees and
quadrants.  Simplification: `emit` stands for the transformation into the tree (or trees) that the quadrant
comes from (lines 1143-1173); `p4est_output_array_push_data` (lines 797-808) is the first sibling. -/
def computeOverlap (k : ℕ) (trees : ℕ → List (Quad d) × Quad d × Quad d)
    (emit : OverlapIn d ι → Quad d → List (ℕ × Quad d)) (ins : List (OverlapIn d ι)) :
    Option (List (ℕ × Quad d) × List (ℕ × Quad d)) :=
  ins.foldlM (fun acc x => do
    let st ← overlapQuad k (trees x.tree).1 (trees x.tree).2.1 (trees x.tree).2.2 x.q
    let found := st.seeds.flatMap fun u => if isInsideRoot x.q = true then [(x.tree, u)] else emit x u
    some (acc.1 ++ found.map fun y => (y.1, sibling y.2 0),
      acc.2 ++ st.inseeds.map fun u => (x.tree, sibling u 0))) ([], [])

end P4est
