import Mathlib.Data.Int.Bitwise
import Mathlib.Data.Fintype.Pi
import Mathlib.Algebra.BigOperators.Fin

/-! # Model of the quadrant arithmetic in `src/p4est_bits.c`

`d` is `P4EST_DIM`.  The C source is compiled once with `d = 2` and once (macro `P4_TO_P8`)
with `d = 3`; the per-coordinate code is written here once for `Fin d`.
Coordinates are `ℤ` with two's complement bit operations; they agree with the C operators
on `int32_t` values as long as no intermediate value leaves that range. -/

namespace P4est

/-- `P4EST_MAXLEVEL`, src/p4est.h:53 and src/p8est.h:49 (both 30). -/
def MAXLEVEL : ℕ := 30

/-- `P4EST_QMAXLEVEL`, src/p4est.h:59 and src/p8est.h:55 (both 29). -/
def QMAXLEVEL : ℕ := 29

/-- `P4EST_QUADRANT_LEN (l)`, src/p4est.h:65: `((p4est_qcoord_t) 1 << (P4EST_MAXLEVEL - (l)))`.
Only used for `0 ≤ l ≤ P4EST_MAXLEVEL`, where the C shift is defined. -/
def qlen (l : ℕ) : ℤ := 2 ^ (MAXLEVEL - l)

/-- `P4EST_ROOT_LEN`, src/p4est.h:62: `((p4est_qcoord_t) 1 << P4EST_MAXLEVEL)`. -/
def rootLen : ℤ := 2 ^ MAXLEVEL

/-- `p4est_quadrant_t`, src/p4est.h:75-127: lower left corner and level.
Simplification: the padding bytes and the user data union are not part of this type
(they are carried separately where they matter); the level is a natural number, so that the
invalid level -1 of `P4EST_QUADRANT_INIT` has no representation. -/
structure Quad (d : ℕ) where
  c : Fin d → ℤ
  level : ℕ

variable {d : ℕ}

@[ext] theorem Quad.ext' {q r : Quad d} (hc : ∀ i, q.c i = r.c i) (hl : q.level = r.level) :
    q = r := by
  cases q; cases r
  simp only [Quad.mk.injEq] at *
  exact ⟨funext hc, hl⟩

instance : DecidableEq (Quad d) := fun q r =>
  decidable_of_iff (q.level = r.level ∧ ∀ i, q.c i = r.c i)
    ⟨fun h => Quad.ext' h.2 h.1, fun h => by subst h; exact ⟨rfl, fun _ => rfl⟩⟩

/-- Conversion `int32_t` → `uint32_t`. -/
def u32 (z : ℤ) : ℕ := (z % 2 ^ 32).toNat

/-- The reverse conversion `uint32_t` → `int32_t` (two's complement). -/
def i32 (n : ℕ) : ℤ := if n % 2 ^ 32 < 2 ^ 31 then ((n % 2 ^ 32 : ℕ) : ℤ) else ((n % 2 ^ 32 : ℕ) : ℤ) - 2 ^ 32

/-! ### Predicates -/

/-- `p4est_quadrant_is_equal`, src/p4est_bits.c:306-320. -/
def isEqual (q r : Quad d) : Bool := decide (q.level = r.level) && decide (∀ i, q.c i = r.c i)

/-- `p4est_quadrant_is_inside_root`, src/p4est_bits.c:674-686. -/
def isInsideRoot (q : Quad d) : Bool := decide (∀ i, 0 ≤ q.c i ∧ q.c i < rootLen)

/-- `p4est_quadrant_is_inside_3x3`, src/p4est_bits.c:689-701. -/
def isInside3x3 (q : Quad d) : Bool :=
  decide (∀ i, -rootLen ≤ q.c i ∧ q.c i ≤ rootLen + (rootLen - 1))

/-- `p4est_quadrant_is_outside_face`, src/p4est_bits.c:704-719. -/
def isOutsideFace (q : Quad d) : Bool :=
  decide ((∑ i, (if q.c i < 0 ∨ q.c i ≥ rootLen then 1 else 0 : ℕ)) = 1)

/-- `p4est_quadrant_is_outside_corner`, src/p4est_bits.c:722-731. -/
def isOutsideCorner (q : Quad d) : Bool := decide (∀ i, q.c i < 0 ∨ q.c i ≥ rootLen)

/-- `p4est_quadrant_is_valid`, src/p4est_bits.c:770-782. -/
def isValid (q : Quad d) : Bool :=
  decide (q.level ≤ QMAXLEVEL) &&
  decide (∀ i, Int.land (q.c i) (qlen q.level - 1) = 0) && isInsideRoot q

/-- `p4est_quadrant_is_extended`, src/p4est_bits.c:785-795. -/
def isExtended (q : Quad d) : Bool :=
  decide (q.level ≤ QMAXLEVEL) &&
  decide (∀ i, Int.land (q.c i) (qlen q.level - 1) = 0) && isInside3x3 q

/-- `p4est_quadrant_is_node`, src/p4est_bits.c:734-752. -/
def isNode (q : Quad d) (inside : Bool) : Bool :=
  decide (q.level = MAXLEVEL) &&
  decide (∀ i, 0 ≤ q.c i ∧ q.c i ≤ rootLen - (if inside then 1 else 0)) &&
  decide (∀ i, Int.land (q.c i) (2 ^ (MAXLEVEL - QMAXLEVEL) - 1) = 0 ∨
    (inside = true ∧ q.c i = rootLen - 1))

/-- `p4est_quadrant_overlaps`, src/p4est_bits.c:335-350. -/
def overlaps (q r : Quad d) : Bool :=
  let level := min q.level r.level
  let mask := Int.lnot (2 ^ (MAXLEVEL - level) - 1)
  !decide (∃ i, Int.land (Int.xor (q.c i) (r.c i)) mask ≠ 0)

/-- `p4est_quadrant_is_sibling`, src/p4est_bits.c:798-835. -/
def isSibling (q r : Quad d) : Bool :=
  if q.level = 0 then false
  else if ∀ i, Int.xor (q.c i) (r.c i) = 0 then false
  else decide (q.level = r.level) &&
    decide (∀ i, Int.land (Int.xor (q.c i) (r.c i)) (Int.lnot (qlen q.level)) = 0)

/-- `p4est_quadrant_is_parent`, src/p4est_bits.c:909-923: `q` is the parent of `r`. -/
def isParent (q r : Quad d) : Bool :=
  decide (q.level + 1 = r.level) &&
  decide (∀ i, q.c i = Int.land (r.c i) (Int.lnot (qlen r.level)))

/-- `p4est_quadrant_is_ancestor`, src/p4est_bits.c:945-970: `q` is a strict ancestor of `r`. -/
def isAncestor (q r : Quad d) : Bool :=
  if q.level ≥ r.level then false
  else decide (∀ i, Int.xor (q.c i) (r.c i) >>> (MAXLEVEL - q.level) = 0)

/-- `p4est_quadrant_contains_node`, src/p4est_bits.c:613-628. -/
def containsNode (q n : Quad d) : Bool :=
  decide (∀ i, q.c i ≤ n.c i ∧ n.c i < q.c i + qlen q.level)

/-! ### Comparison -/

/-- `exclor` restricted to the axes `0..i`: the bitwise or of the exclusive ors
(`exclorxy` and `exclor` in src/p4est_bits.c:370-376). -/
def orUpTo (e : ℕ → ℕ) : ℕ → ℕ
  | 0 => e 0
  | i + 1 => orUpTo e i ||| e (i + 1)

/-- The axis that decides the comparison, from the highest axis downward:
src/p4est_bits.c:382-403. -/
def decidingAxis (e : ℕ → ℕ) : ℕ → ℕ
  | 0 => 0
  | i + 1 => if e (i + 1) > (orUpTo e (i + 1) ^^^ e (i + 1)) then i + 1 else decidingAxis e i

/-- Extend a coordinate vector to all axis numbers by zero. -/
def axisVal {α : Type} [Zero α] (v : Fin d → α) (i : ℕ) : α := if h : i < d then v ⟨i, h⟩ else 0

/-- `p4est_coordinates_compare`, src/p4est_bits.c:361-406.  The exclusive ors are `uint32_t`;
`p1` and `p2` are the `int64_t` values obtained by adding `2^(P4EST_MAXLEVEL+2)` to negative
coordinates. -/
def coordsCompare (v1 v2 : Fin d → ℤ) : ℤ :=
  let e : ℕ → ℕ := fun i => u32 (Int.xor (axisVal v1 i) (axisVal v2 i))
  if orUpTo e (d - 1) = 0 then 0
  else
    let a := decidingAxis e (d - 1)
    let p1 := axisVal v1 a + (if axisVal v1 a ≥ 0 then 0 else 2 ^ (MAXLEVEL + 2))
    let p2 := axisVal v2 a + (if axisVal v2 a ≥ 0 then 0 else 2 ^ (MAXLEVEL + 2))
    let diff := p1 - p2
    if diff = 0 then 0 else if diff < 0 then -1 else 1

/-- `p4est_quadrant_compare`, src/p4est_bits.c:408-433. -/
def compare (q r : Quad d) : ℤ :=
  let cd := coordsCompare q.c r.c
  if cd ≠ 0 then cd else (q.level : ℤ) - (r.level : ℤ)

/-- `p4est_quadrant_disjoint`, src/p4est_bits.c:436-452. -/
def disjoint (q r : Quad d) : ℤ :=
  let level := min q.level r.level
  let mask := Int.lnot (2 ^ (MAXLEVEL - level) - 1)
  if ∃ i, Int.land (Int.xor (q.c i) (r.c i)) mask ≠ 0 then compare q r else 0

/-! ### Constructors -/

/-- `p4est_quadrant_root`, src/p4est_bits.c:1224-1236. -/
def root (d : ℕ) : Quad d := ⟨fun _ => 0, 0⟩

/-- `p4est_quadrant_ancestor`, src/p4est_bits.c:1239-1252. -/
def ancestor (q : Quad d) (level : ℕ) : Quad d :=
  ⟨fun i => Int.land (q.c i) (Int.lnot (qlen level - 1)), level⟩

/-- `p4est_quadrant_parent`, src/p4est_bits.c:1255-1267.  Asserted: `q->level > 0`. -/
def parent (q : Quad d) : Quad d :=
  ⟨fun i => Int.land (q.c i) (Int.lnot (qlen q.level)), q.level - 1⟩

/-- `p4est_quadrant_sibling`, src/p4est_bits.c:1270-1291. -/
def sibling (q : Quad d) (id : ℕ) : Quad d :=
  ⟨fun i => if id.testBit i then Int.lor (q.c i) (qlen q.level)
            else Int.land (q.c i) (Int.lnot (qlen q.level)), q.level⟩

/-- `p4est_quadrant_child`, src/p4est_bits.c:1294-1310. -/
def child (q : Quad d) (id : ℕ) : Quad d :=
  ⟨fun i => if id.testBit i then Int.lor (q.c i) (qlen (q.level + 1)) else q.c i, q.level + 1⟩

/-- `p4est_quadrant_children`, `p4est_quadrant_childrenv`, `p4est_quadrant_childrenpv`,
src/p4est_bits.c:1749-1840: the children 0..2^d-1; child `id` or-s `inc` into the coordinates
selected by the bits of `id`. -/
def childrenv (q : Quad d) : List (Quad d) := (List.range (2 ^ d)).map (child q)

/-- `p4est_quadrant_ancestor_id`, src/p4est_bits.c:631-650.
The or of distinct bits is written as a sum. -/
def ancestorId (q : Quad d) (level : ℕ) : ℕ :=
  if level = 0 then 0
  else ∑ i : Fin d, if Int.land (q.c i) (qlen level) ≠ 0 then 2 ^ (i : ℕ) else 0

/-- `p4est_quadrant_child_id`, src/p4est_bits.c:653-657. -/
def childId (q : Quad d) : ℕ := ancestorId q q.level

/-- `p4est_quadrant_first_descendant`, src/p4est_bits.c:1843-1855. -/
def firstDesc (q : Quad d) (level : ℕ) : Quad d := ⟨q.c, level⟩

/-- `p4est_quadrant_last_descendant`, src/p4est_bits.c:1858-1874. -/
def lastDesc (q : Quad d) (level : ℕ) : Quad d :=
  ⟨fun i => q.c i + (qlen q.level - qlen level), level⟩

/-- `p4est_quadrant_corner_descendant`, src/p4est_bits.c:1877-1889.  In 3D the C code tests
`c >> 2` for the last axis, which for `c < 8` is bit 2. -/
def cornerDesc (q : Quad d) (c level : ℕ) : Quad d :=
  ⟨fun i => q.c i + (if c.testBit i then qlen q.level - qlen level else 0), level⟩

/-- `SC_LOG2_32` of libsc (sc/src/sc.h, not in the tree): position of the highest set bit,
`-1` for zero.  `maxlevel = SC_LOG2_32 (x) + 1` is therefore the bit length of `x`. -/
def bitLength (n : ℕ) : ℕ := n.size

/-- `p4est_nearest_common_ancestor`, src/p4est_bits.c:1892-1928. -/
def nca (q r : Quad d) : Quad d :=
  let e : ℕ → ℕ := fun i => u32 (Int.xor (axisVal q.c i) (axisVal r.c i))
  let maxlevel := bitLength (orUpTo e (d - 1))
  ⟨fun i => Int.land (q.c i) (Int.lnot (2 ^ maxlevel - 1)),
   min (MAXLEVEL - maxlevel) (min q.level r.level)⟩

/-- The `while` loops promoting a quadrant to a given level by taking parents,
src/p4est_bits.c:1942-1947. -/
def promote (q : Quad d) (level : ℕ) : Quad d :=
  if _h : level < q.level then promote (parent q) level else q
termination_by q.level
decreasing_by simp [parent]; omega

/-- The loop `while (!is_equal (s1, s2))` of src/p4est_bits.c:1951-1954.  At level 0 the C code
would call `p4est_quadrant_parent` on a root (an assertion failure); the result is then `none`. -/
def commonUp : ℕ → Quad d → Quad d → Option (Quad d)
  | 0, s1, s2 => if isEqual s1 s2 then some s1 else none
  | n + 1, s1, s2 => if isEqual s1 s2 then some s1 else commonUp n (parent s1) (parent s2)

/-- `p4est_nearest_common_ancestor_D`, src/p4est_bits.c:1931-1965. -/
def ncaD (q r : Quad d) : Option (Quad d) :=
  let s1 := promote q r.level
  let s2 := promote r s1.level
  commonUp s1.level s1 s2

/-- `p4est_quadrant_is_sibling_D`, src/p4est_bits.c:838-857. -/
def isSiblingD (q r : Quad d) : Bool :=
  if q.level = 0 then false
  else if isEqual q r then false
  else isEqual (parent q) (parent r)

/-- `p4est_quadrant_is_parent_D`, src/p4est_bits.c:926-942. -/
def isParentD (q r : Quad d) : Bool :=
  if r.level = 0 then false else isEqual q (parent r)

/-- `p4est_quadrant_is_ancestor_D`, src/p4est_bits.c:973-987 (`none`: the reference version
aborts because the quadrants are in different trees). -/
def isAncestorD (q r : Quad d) : Option Bool :=
  if isEqual q r then some false
  else (ncaD q r).map (isEqual q)

/-- `p4est_quadrant_is_family`, src/p4est_bits.c:862-886 (2D). -/
def isFamily2 (q0 q1 q2 q3 : Quad 2) : Bool :=
  let level := q0.level
  if level = 0 ∨ level ≠ q1.level ∨ level ≠ q2.level ∨ level ≠ q3.level then false
  else
    let inc := qlen level
    decide ((q0.c 0 + inc = q1.c 0 ∧ q0.c 1 = q1.c 1) ∧
            (q0.c 0 = q2.c 0 ∧ q0.c 1 + inc = q2.c 1) ∧
            (q1.c 0 = q3.c 0 ∧ q2.c 1 = q3.c 1))

/-- `p8est_quadrant_is_family`, src/p8est_bits.c:82-118: the 3D family test. -/
def isFamily3 (q0 q1 q2 q3 q4 q5 q6 q7 : Quad 3) : Bool :=
  let level := q0.level
  if level = 0 ∨ level ≠ q1.level ∨ level ≠ q2.level ∨ level ≠ q3.level ∨
     level ≠ q4.level ∨ level ≠ q5.level ∨ level ≠ q6.level ∨ level ≠ q7.level then false
  else
    let inc := qlen level
    decide ((q0.c 0 + inc = q1.c 0 ∧ q0.c 1 = q1.c 1 ∧ q0.c 2 = q1.c 2) ∧
            (q0.c 0 = q2.c 0 ∧ q0.c 1 + inc = q2.c 1 ∧ q0.c 2 = q2.c 2) ∧
            (q1.c 0 = q3.c 0 ∧ q2.c 1 = q3.c 1 ∧ q0.c 2 = q3.c 2) ∧
            (q0.c 0 = q4.c 0 ∧ q0.c 1 = q4.c 1 ∧ q0.c 2 + inc = q4.c 2) ∧
            (q1.c 0 = q5.c 0 ∧ q1.c 1 = q5.c 1 ∧ q4.c 2 = q5.c 2) ∧
            (q2.c 0 = q6.c 0 ∧ q2.c 1 = q6.c 1 ∧ q4.c 2 = q6.c 2) ∧
            (q3.c 0 = q7.c 0 ∧ q3.c 1 = q7.c 1 ∧ q4.c 2 = q7.c 2))

end P4est
