import Verif.Model.Connectivity
import Verif.Model.Quadrant

/-! # The quadrants that one quadrant forces upon another: src/p4est_balance.c -/

namespace P4est

variable {d : ℕ}

/-- `SC_LOG2_32` (libsc): the position of the highest bit; -1 for 0.  Contract, not code. -/
def scLog2 (x : ℤ) : ℤ := if x ≤ 0 then -1 else (Nat.log2 x.toNat : ℤ)

/-- `(dx + 1) & (~((p4est_qcoord_t) 0x1))`, src/p4est_balance.c:86. -/
def roundEven (x : ℤ) : ℤ := Int.land (x + 1) (Int.lnot 1)

/-- `p4est_balance_kernel_1d`, src/p4est_balance.c:43-62. -/
def kernel1d (distance : ℤ) (level : ℕ) : ℤ :=
  let distance := distance >>> (MAXLEVEL - level)
  let distance := distance + 1
  max 0 (level - scLog2 distance)

/-- `p4est_balance_kernel_2d`, src/p4est_balance.c:65-96. -/
def kernel2d (dx dy : ℤ) (level : ℕ) : ℤ :=
  let shift := MAXLEVEL - level
  let dx := roundEven (dx >>> shift)
  let dy := roundEven (dy >>> shift)
  let distance := dx + dy + 1
  max 0 (level - scLog2 distance)

/-- The last part of `p8est_balance_kernel_3d_edge` and `p8est_balance_kernel_3d_face`,
src/p4est_balance.c:139-155 and 203-219: the highest bit of any of the three, or of the sum with one
bit less in every place. -/
def kernelTail (dx dy dz : ℤ) (level : ℕ) : ℤ :=
  let maxbit := scLog2 dx
  let maxbit := max maxbit (scLog2 dy)
  let maxbit := max maxbit (scLog2 dz)
  let bitwor := Int.lor (Int.lor dx dy) dz
  let ret := scLog2 (dx + dy + dz - bitwor)
  let ret := max maxbit ret
  max 0 (level - ret)

/-- `p8est_balance_kernel_3d_edge`, src/p4est_balance.c:100-156. -/
def kernel3dEdge (dx dy dz : ℤ) (level : ℕ) : ℤ :=
  let shift := MAXLEVEL - level
  if dx = 0 ∧ dy = 0 ∧ dz = 0 then level
  else
    let dx := roundEven (dx >>> shift)
    let dy := roundEven (dy >>> shift)
    let dz := roundEven (dz >>> shift)
    kernelTail dx dy dz level

/-- `p8est_balance_kernel_3d_face`, src/p4est_balance.c:159-220. -/
def kernel3dFace (dx dy dz : ℤ) (level : ℕ) : ℤ :=
  let shift := MAXLEVEL - level
  if dx = 0 ∧ dy = 0 ∧ dz = 0 then level
  else
    let dx := roundEven (dx >>> shift)
    let dy := roundEven (dy >>> shift)
    let dz := roundEven (dz >>> shift)
    let dyz := dy + dz
    let dzx := dz + dx
    let dxy := dx + dy
    kernelTail dyz dzx dxy level

/-- The distance from `q` to `p` along one axis, src/p4est_balance.c:272-279 (and 380-403, 642-657):
from the upper ends (`up`) or from the lower ends. -/
def conDist (q p : Quad d) (up : Bool) (i : Fin d) : ℤ :=
  if up then (q.c i + qlen q.level) - (p.c i + qlen p.level) else p.c i - q.c i

/-- A coordinate by its number. -/
def axisAt (D : Fin d → ℤ) (i : ℕ) : ℤ := if h : i < d then D ⟨i, h⟩ else 0

/-- The choice of the kernel for a corner, src/p4est_balance.c:281-305.  Simplification: the `default`
of the switch is not modelled; `balance` is at most 2. -/
def cornerLevel (D : Fin d → ℤ) (balance qlevel : ℕ) : ℤ :=
  if d = 3 then
    if balance = 0 then kernel3dFace (axisAt D 0) (axisAt D 1) (axisAt D 2) qlevel
    else if balance = 1 then kernel3dEdge (axisAt D 0) (axisAt D 1) (axisAt D 2) qlevel
    else kernel1d (max (max (axisAt D 0) (axisAt D 1)) (axisAt D 2)) qlevel
  else
    if balance ≠ 0 then kernel1d (max (axisAt D 0) (axisAt D 1)) qlevel
    else kernel2d (axisAt D 0) (axisAt D 1) qlevel

/-- `x & P4EST_QUADRANT_MASK (level)` for all coordinates, for example src/p4est_balance.c:321-330. -/
def maskTo (c : Fin d → ℤ) (level : ℕ) : Quad d :=
  ⟨fun i => Int.land (c i) (Int.lnot (qlen level - 1)), level⟩

/-- `p4est_bal_corner_con_internal`, src/p4est_balance.c:245-333.  Returns the flag `consistent` and
the quadrant `p`. -/
def cornerCon (q p : Quad d) (corner balance : ℕ) : Bool × Quad d :=
  if q.level ≤ p.level then (true, p)
  else
    let D : Fin d → ℤ := fun i => conDist q p (corner.testBit i) i
    let blevel := cornerLevel D balance q.level
    if blevel ≤ p.level then (true, p)
    else (false, maskTo (fun i => q.c i + (if corner.testBit i then - D i else D i)) blevel.toNat)

/-- The axes other than `a`, in order. -/
def tangents (d a : ℕ) : List ℕ := (List.range d).filter fun i => i ≠ a

/-- The `n`-th of the axes other than `a`. -/
def tangentAt (d a n : ℕ) : ℕ := (tangents d a).getD n d

/-- `p8est_edge_corners`, src/p8est_connectivity.c:96-108. -/
def edgeCornersTable : List (List ℕ) :=
  [[0, 1], [2, 3], [4, 5], [6, 7], [0, 2], [1, 3], [4, 6], [5, 7], [0, 4], [1, 5], [2, 6], [3, 7]]

/-- An entry of a table of numbers. -/
def tableAt (t : List (List ℕ)) (i j : ℕ) : ℕ := (t.getD i []).getD j 0

/-- The array `add`: what is at an index, or nothing (level -1). -/
abbrev Extra (d : ℕ) := ℕ → Option (Quad d)

/-- `temp` is `a` shifted by `i` and `j` lengths along two axes, src/p4est_balance.c:491-498, 527-543,
734-748. -/
def shiftBy (a : Quad d) (t0 t1 : ℕ) (i j : ℤ) : Quad d :=
  ⟨fun x => a.c x + (if (x : ℕ) = t0 then i * qlen a.level else 0) +
    (if (x : ℕ) = t1 then j * qlen a.level else 0), a.level⟩

/-- `(temp.x & pmask) != porig.x || ...`, src/p4est_balance.c:500, 545-546, 750-751. -/
def leaves (temp porig : Quad d) : Bool :=
  decide (∃ x, Int.land (temp.c x) (Int.lnot (qlen porig.level - 1)) ≠ porig.c x)

/-- Set an entry of `add` if the test was not consistent, for example src/p4est_balance.c:509-511. -/
def Extra.put (add : Extra d) (at_ : ℤ) (r : Bool × Quad d) : Extra d :=
  if r.1 then add else fun n => if (n : ℤ) = at_ then some r.2 else add n

/-- The level and the descendant of `p` in `p8est_bal_edge_con_internal`, src/p4est_balance.c:610-708:
the flag `consistent` and the quadrant `p`. -/
def edgeConBase (q p : Quad d) (edge balance : ℕ) : Bool × Quad d :=
  if q.level ≤ p.level then (true, p)
  else
    let t0 := tangentAt d (edge / 4) 0
    let t1 := tangentAt d (edge / 4) 1
    let D : Fin d → ℤ := fun i =>
      conDist q p (if (i : ℕ) = t0 then edge.testBit 0 else edge.testBit 1) i
    let dx := axisAt D t0
    let dy := axisAt D t1
    let blevel := if balance ≠ 0 then kernel1d (max dx dy) q.level else kernel2d dx dy q.level
    if blevel ≤ p.level then (true, p)
    else (false, maskTo (fun i =>
      if (i : ℕ) = t0 then q.c i + (if edge.testBit 0 then - dx else dx)
      else if (i : ℕ) = t1 then q.c i + (if edge.testBit 1 then - dy else dy)
      else q.c i) blevel.toNat)

/-- The array `add` in `p8est_bal_edge_con_internal`, src/p4est_balance.c:710-764, for a base that is
not consistent. -/
def edgeConExtra (q porig p : Quad d) (edge balance : ℕ) : Extra d :=
  let add : Extra d := fun n => if n = 1 then some p else none
  if (p.level : ℤ) = porig.level - 1 then add
  else
    let a := maskTo p.c (p.level - 1)
    [(-1 : ℤ), 1].foldl (fun add i =>
      let temp := shiftBy a (edge / 4) d i 0
      if leaves temp porig then add
      else
        let child := tableAt edgeCornersTable edge ((1 - i) / 2).toNat
        add.put (1 + i) (cornerCon q temp child balance)) add

/-- The level and the descendant of `p` in `p4est_bal_face_con_internal`, src/p4est_balance.c:336-461:
the flag `consistent` and the quadrant `p`. -/
def faceConBase (q p : Quad d) (face : ℕ) : Bool × Quad d :=
  if q.level ≤ p.level then (true, p)
  else
    let D : Fin d → ℤ := fun i => conDist q p (decide (face % 2 = 1)) i
    let distance := axisAt D (face / 2)
    let blevel := kernel1d distance q.level
    if blevel ≤ p.level then (true, p)
    else (false, maskTo (fun i =>
      if (i : ℕ) = face / 2 then q.c i + (if face % 2 = 1 then - distance else distance)
      else q.c i) blevel.toNat)

/-- The loop over the neighbors in 2D, src/p4est_balance.c:490-512. -/
def faceLoop2 (q porig a : Quad d) (face balance : ℕ) (add : Extra d) : Extra d :=
  [(-1 : ℤ), 1].foldl (fun add i =>
    let temp := shiftBy a (if face / 2 = 0 then 1 else 0) d i 0
    if leaves temp porig then add
    else
      let child := tableAt (faceCornersTable d) face ((1 - i) / 2).toNat
      add.put (1 + i) (cornerCon q temp child balance)) add

/-- One neighbor in 3D, src/p4est_balance.c:524-587. -/
def faceStep3 (q porig a : Quad d) (blevel face balance : ℕ) (j i : ℤ) (add : Extra d) : Extra d :=
  if i = 0 ∧ j = 0 then add
  else
    let temp := shiftBy a (tangentAt d (face / 2) 0) (tangentAt d (face / 2) 1) i j
    if leaves temp porig then add
    else if i ≠ 0 ∧ j ≠ 0 then
      let child := tableAt (faceCornersTable d) face ((1 - j) + (1 - i) / 2).toNat
      let dual := tableAt (faceCornersTable d) face ((1 + j) + (1 + i) / 2).toNat
      let temp := if balance = 0 ∧ childId a = dual then maskTo temp.c (blevel - 2) else temp
      add.put (4 + 3 * j + i) (cornerCon q temp child balance)
    else
      let edge := if i = 0 then tableAt faceEdgesTable face ((1 - j) / 2).toNat
        else tableAt faceEdgesTable face (2 + (1 - i) / 2).toNat
      add.put (4 + 3 * j + i) (edgeConBase q temp edge balance)

/-- The loop over the neighbors in 3D, src/p4est_balance.c:522-590. -/
def faceLoop3 (q porig a : Quad d) (blevel face balance : ℕ) (add : Extra d) : Extra d :=
  [(-1 : ℤ), 0, 1].foldl (fun add j =>
    [(-1 : ℤ), 0, 1].foldl (fun add i => faceStep3 q porig a blevel face balance j i add) add) add

/-- One step of the removal, src/p4est_balance.c:594-599. -/
def pruneStep (blevel : ℕ) (add : Extra d) (j i : ℤ) : Extra d :=
  match add (4 + 3 * j + i).toNat with
  | none => add
  | some s =>
    if s.level < blevel ∧ (add (4 + 3 * j).toNat ≠ none ∨ add (4 + i).toNat ≠ none) then
      fun n => if (n : ℤ) = 4 + 3 * j + i then none else add n
    else add

/-- The removal of coarser entries for face balance in 3D, src/p4est_balance.c:591-603. -/
def facePrune3 (blevel : ℕ) (add : Extra d) : Extra d :=
  [(-1 : ℤ), 1].foldl (fun add j => [(-1 : ℤ), 1].foldl (fun add i => pruneStep blevel add j i) add) add

/-- The array `add` in `p4est_bal_face_con_internal`, src/p4est_balance.c:463-605, for a base that is
not consistent.  Simplification: a level `blevel - 2` below 0 (undefined shift in C, the value is not
used then) is 0. -/
def faceConExtra (q porig p : Quad d) (face balance : ℕ) : Extra d :=
  let add : Extra d := fun n => if n = (if d = 3 then 4 else 1) then some p else none
  if (p.level : ℤ) = porig.level - 1 then add
  else
    let a := maskTo p.c (p.level - 1)
    if d = 3 then
      let add := faceLoop3 q porig a p.level face balance add
      if balance = 0 then facePrune3 p.level add else add
    else faceLoop2 q porig a face balance add

/-- The entries of `add` that are set, in order: the seeds, src/p4est_balance.c:812-819. -/
def Extra.toList (add : Extra d) (n : ℕ) : List (Quad d) := (List.range n).filterMap add

/-- `ibalance`, src/p4est_balance.c:790-800, from the codimension of the connection: `FULL` is d,
`EDGE` (3D) is 2, `FACE` is 1. -/
def ibalance (d codim : ℕ) : ℕ := if codim = d then d - 1 else if d = 3 ∧ codim = 2 then 1 else 0

/-- `p4est_balance_seeds_face`, src/p4est_balance.c:768-824: the result and the seeds (not used if
`seeds` is `NULL`). -/
def seedsFace (q p : Quad d) (face codim : ℕ) : Bool × List (Quad d) :=
  let r := faceConBase q p face
  if r.1 then (false, [])
  else (true, (faceConExtra q p r.2 face (ibalance d codim)).toList (if d = 3 then 9 else 3))

/-- `p4est_balance_seeds_corner`, src/p4est_balance.c:826-867. -/
def seedsCorner (q p : Quad d) (corner codim : ℕ) : Bool × List (Quad d) :=
  let r := cornerCon q p corner (ibalance d codim)
  if r.1 then (false, []) else (true, [r.2])

/-- `p8est_balance_seeds_edge`, src/p4est_balance.c:870-923. -/
def seedsEdge (q p : Quad d) (edge codim : ℕ) : Bool × List (Quad d) :=
  let r := edgeConBase q p edge (ibalance d codim)
  if r.1 then (false, [])
  else (true, (edgeConExtra q p r.2 edge (ibalance d codim)).toList 3)

/-- The entry `outside[i]`, src/p4est_balance.c:952-990: -1, 0 or 1; `none`: `q` is farther away than
the length of `p`, return 0. -/
def outsideAt (q p : Quad d) (i : Fin d) : Option ℤ :=
  let qc := q.c i
  let pc := p.c i
  let pdist := qlen p.level
  let qdist := qlen q.level
  if qc < pc then
    let diff := pc - qc
    if diff > pdist then none else some (-1)
  else
    let diff := (qc + qdist) - (pc + pdist)
    if diff > pdist then none
    else if diff > 0 then some 1 else some 0

/-- The number of axes along which `q` is outside, src/p4est_balance.c:991. -/
def outsideType (out : Fin d → ℤ) : ℕ := (Finset.univ.filter fun i => out i ≠ 0).card

/-- The face, src/p4est_balance.c:1002-1007: of the first axis that is outside. -/
def outsideFace (out : Fin d → ℤ) : ℕ :=
  match (List.finRange d).find? fun i => out i ≠ 0 with
  | some i => 2 * i + (if out i > 0 then 1 else 0)
  | none => 0

/-- The corner, src/p4est_balance.c:1011-1014. -/
def outsideCorner (out : Fin d → ℤ) : ℕ := ∑ i : Fin d, if out i > 0 then 2 ^ (i : ℕ) else 0

/-- The edge, src/p4est_balance.c:1018-1029. -/
def outsideEdge (out : Fin d → ℤ) : ℕ :=
  let ec := ((List.finRange d).reverse).foldl (fun (ec : ℕ × ℕ) i =>
    if out i ≠ 0 then (ec.1, (ec.2 <<< 1) ||| (if out i > 0 then 1 else 0))
    else (ec.1 ||| ((i : ℕ) <<< 2), ec.2)) (0, 0)
  ec.1 ||| ec.2

/-- `p4est_balance_seeds`, src/p4est_balance.c:926-1036.  `codim` is the codimension of the connection
type; `withSeeds` says whether `seeds` is not `NULL`.  `none`: a `NULL` pointer is dereferenced.  The
result is the return value and the contents of `seeds`. -/
def balanceSeeds (q p : Quad d) (codim : ℕ) (withSeeds : Bool) : Option (Bool × List (Quad d)) :=
  if q.level ≤ p.level + 1 then some (false, [])
  else if ∃ i, outsideAt q p i = none then some (false, [])
  else
    let out : Fin d → ℤ := fun i => (outsideAt q p i).getD 0
    let type := outsideType out
    if type = 0 then
      if withSeeds then some (true, [q]) else none
    else
      let r := if type = 1 then seedsFace q p (outsideFace out) codim
        else if type = d then seedsCorner q p (outsideCorner out) codim
        else seedsEdge q p (outsideEdge out) codim
      some (r.1, if withSeeds then r.2 else [])

end P4est
