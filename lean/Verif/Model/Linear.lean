import Verif.Model.Quadrant

/-! # Linear ids, curve neighbors and descendants

Models the parts of src/p4est_bits.c that work with positions along the curve.
`W` is the width of the unsigned type: 64 for `uint64_t` (and for `p4est_lid_t` in 2D,
src/p4est_bits.c:33-290), 128 for `sc_uint128_t` (`p8est_lid_t`). -/

namespace P4est

variable {d : ℕ}

/-- `(uint64_t) (c >> (P4EST_MAXLEVEL - level))`: arithmetic shift and sign extension to 64 bit,
src/p4est_bits.c:2359-2363 and 2391-2395. -/
def shifted (q : Quad d) (level : ℕ) (a : Fin d) : ℕ :=
  ((q.c a >>> (MAXLEVEL - level)) % 2 ^ 64).toNat

/-- `p4est_quadrant_linear_id`, src/p4est_bits.c:2345-2375. -/
def linearId (q : Quad d) (level : ℕ) : ℕ :=
  (List.range (level + 2)).foldl (fun id i =>
    (List.finRange d).foldl (fun id a =>
      id ||| ((shifted q level a &&& 2 ^ i) <<< ((d - 1) * i + a) % 2 ^ 64)) id) 0

/-- `p4est_quadrant_linear_id_ext128`, src/p4est_bits.c:2377-2408, with `p4est_lid_set_bit`
(src/p4est_bits.c:118-128). -/
def linearIdExt (W : ℕ) (q : Quad d) (level : ℕ) : ℕ :=
  (List.range (level + 2)).foldl (fun id i =>
    (List.finRange d).foldl (fun id a =>
      if shifted q level a &&& 2 ^ i ≠ 0 then id ||| (2 ^ (d * i + a) % 2 ^ W) else id) id) 0

/-- `p4est_quadrant_set_morton`, src/p4est_bits.c:2410-2456.  The final left shift is modelled as
wrapping to 32 bits, which is what the comment "this may set the sign bit" relies on. -/
def setMorton (level id : ℕ) : Quad d :=
  ⟨fun a => i32 (((List.range (level + 2)).foldl (fun x i =>
      x ||| ((id &&& 2 ^ (d * i + a)) >>> ((d - 1) * i + a))) 0 : ℕ) * 2 ^ (MAXLEVEL - level)),
    level⟩

/-- `p4est_quadrant_set_morton_ext128`, src/p4est_bits.c:2458-2514. -/
def setMortonExt (level id : ℕ) : Quad d :=
  ⟨fun a => i32 (((List.range (level + 2)).foldl (fun x i =>
      if id &&& 2 ^ (d * i + a) ≠ 0 then x ||| 2 ^ i else x) 0 : ℕ) * 2 ^ (MAXLEVEL - level)),
    level⟩

/-- Width of `p4est_lid_t`: 64 in 2D (src/p4est.h), 128 in 3D (sc_uint128). -/
def lidWidth (d : ℕ) : ℕ := if d ≤ 2 then 64 else 128

/-- `p4est_quadrant_is_next`, src/p4est_bits.c:989-1024. -/
def isNext (q r : Quad d) : Bool :=
  let mask := qlen r.level - qlen q.level
  if q.level > r.level ∧ ∃ i, Int.land (q.c i) mask ≠ mask then false
  else
    let minlevel := if q.level > r.level then r.level else q.level
    decide ((linearIdExt (lidWidth d) q minlevel + 1) % 2 ^ lidWidth d =
      linearIdExt (lidWidth d) r minlevel)

/-- The loop of src/p4est_bits.c:1040-1045: take parents while `a` is deeper than `level`;
`none` if one of the quadrants on the way is not a last child. -/
def lastChildUp (level : ℕ) (a : Quad d) : Option (Quad d) :=
  if _h : level < a.level then
    if childId a ≠ 2 ^ d - 1 then none else lastChildUp level (parent a)
  else some a
termination_by a.level
decreasing_by simp [parent]; omega

/-- `p4est_quadrant_is_next_D`, src/p4est_bits.c:1026-1052. -/
def isNextD (q r : Quad d) : Bool :=
  if compare q r ≥ 0 then false
  else match lastChildUp r.level q with
    | none => false
    | some a => decide ((linearIdExt (lidWidth d) a a.level + 1) % 2 ^ lidWidth d =
        linearIdExt (lidWidth d) r a.level)

/-- The loop of src/p4est_bits.c:2527-2534: the deepest level up to the given one on which the
ancestor id can be incremented.  `none`: the assertion `level > 0` fails (no successor). -/
def succLevel (q : Quad d) : ℕ → Option (ℕ × ℕ)
  | 0 => none
  | l + 1 => if ancestorId q (l + 1) + 1 = 2 ^ d then succLevel q l
             else some (l + 1, ancestorId q (l + 1) + 1)

/-- `p4est_quadrant_successor`, src/p4est_bits.c:2516-2560. -/
def successor (q : Quad d) : Option (Quad d) :=
  match succLevel q q.level with
  | none => none
  | some (level, sid) =>
    if level < q.level then
      let mask := Int.lnot (qlen (level - 1) - 1)
      some ⟨fun i => if sid.testBit i then Int.land (q.c i) mask + qlen level
                     else Int.land (q.c i) mask, q.level⟩
    else some (sibling q sid)

/-- The loop of src/p4est_bits.c:2574-2581, as `succLevel`. -/
def predLevel (q : Quad d) : ℕ → Option (ℕ × ℕ)
  | 0 => none
  | l + 1 => if ancestorId q (l + 1) = 0 then predLevel q l
             else some (l + 1, ancestorId q (l + 1) - 1)

/-- `p4est_quadrant_predecessor`, src/p4est_bits.c:2562-2613. -/
def predecessor (q : Quad d) : Option (Quad d) :=
  match predLevel q q.level with
  | none => none
  | some (level, pid) =>
    if level < q.level then
      let shiftLast := qlen level - qlen q.level
      let shiftCombined := shiftLast + qlen level
      let mask := Int.lnot (qlen (level - 1) - 1)
      some ⟨fun i => if pid.testBit i then Int.land (q.c i) mask + shiftCombined
                     else Int.land (q.c i) mask + shiftLast, q.level⟩
    else some (sibling q pid)

/-- The `while` loop of `p4est_quadrant_enlarge_first`, src/p4est_bits.c:1159-1166: `w` is the
bitwise or of the coordinates. -/
def enlargeFirstLevel (w : ℤ) (alevel : ℕ) : ℕ → ℕ
  | 0 => 0
  | l + 1 => if alevel < l + 1 ∧ Int.land w (qlen (l + 1)) = 0
             then enlargeFirstLevel w alevel l else l + 1

/-- Bitwise or of the coordinates. -/
def orCoords (c : Fin d → ℤ) : ℤ := (List.finRange d).foldl (fun w i => Int.lor w (c i)) 0

/-- Bitwise and of the coordinates. -/
def andCoords (c : Fin d → ℤ) : ℤ := (List.finRange d).foldl (fun w i => Int.land w (c i)) (-1)

/-- `p4est_quadrant_enlarge_first`, src/p4est_bits.c:1146-1176. -/
def enlargeFirst (a q : Quad d) : Quad d :=
  ⟨q.c, enlargeFirstLevel (orCoords q.c) a.level q.level⟩

/-- The `while` loop of `p4est_quadrant_enlarge_last`, src/p4est_bits.c:1190-1198. -/
def enlargeLastLevel (w : ℤ) (alevel : ℕ) : ℕ → ℕ
  | 0 => 0
  | l + 1 => if alevel < l + 1 ∧ Int.land w (qlen (l + 1)) ≠ 0
             then enlargeLastLevel w alevel l else l + 1

/-- `p4est_quadrant_enlarge_last`, src/p4est_bits.c:1178-1221. -/
def enlargeLast (a q : Quad d) : Quad d :=
  let level := enlargeLastLevel (andCoords q.c) a.level q.level
  let w := Int.lnot (qlen level - qlen q.level)
  ⟨fun i => Int.land (q.c i) w, level⟩

/-- `p4est_quadrant_is_first_last`, src/p4est_bits.c:1109-1143. -/
def isFirstLast (f l a : Quad d) : Bool :=
  if ∃ i, a.c i ≠ f.c i then false
  else
    let w := qlen a.level - qlen l.level
    if ∃ i, a.c i + w ≠ l.c i then false else true

/-- `p4est_quadrant_overlaps_tree`, src/p4est_bits.c:1054-1077, for a tree with the given
`first_desc`, `last_desc` and number of local quadrants. -/
def overlapsTree (count : ℕ) (firstD lastD q : Quad d) : Bool :=
  if count = 0 then false
  else if compare (lastDesc q QMAXLEVEL) firstD < 0 then false
  else if compare lastD q < 0 then false
  else true

/-- `p4est_quadrant_is_inside_tree`, src/p4est_bits.c:1079-1107. -/
def isInsideTree (count : ℕ) (firstD lastD q : Quad d) : Bool :=
  if count = 0 then false
  else if compare (firstDesc q QMAXLEVEL) firstD < 0 then false
  else if compare lastD q < 0 then false
  else true

/-- `p4est_quadrant_in_range`, src/p4est_algorithms.c:187-222. -/
def inRange (fd ld q : Quad d) : Bool :=
  if ¬ isValid q then false
  else if compare fd q > 0 ∧ ∃ i, fd.c i ≠ q.c i then false
  else if compare (lastDesc q QMAXLEVEL) ld > 0 then false
  else true

end P4est
