import Verif.Model.Linear

/-! # Model of the boundary search of a range of cells: src/p4est_search.c:294-560

Bit masks are natural numbers; `x & ~y` is `Nat.ldiff x y`. -/

namespace P4est

variable {d : ℕ}

/-- `p4est_corner_boundaries`, src/p4est_search.c:299-321. -/
def cornerBoundaries (d : ℕ) : List ℕ :=
  if d = 3 then
    [0x00044455, 0x00088856, 0x00110499, 0x0022089a, 0x00405125, 0x0080a126, 0x01011229, 0x0202222a]
  else [0x15, 0x26, 0x49, 0x8a]

/-- One access `p4est_corner_boundaries[cid]`. -/
def cornerMask (d cid : ℕ) : ℕ := (cornerBoundaries d).getD cid 0

/-- `p4est_all_boundaries`, src/p4est_search.c:307 and 322. -/
def allBoundaries (d : ℕ) : ℕ := if d = 3 then 0x03ffffff else 0xff

/-- The values of `cid` in the loop src/p4est_search.c:341-345: from `cid + dir` to before `limit`.
The pair (`dir`, `limit`) is (1, `P4EST_CHILDREN`) for `up` and (-1, -1) otherwise. -/
def siblingsBeyond (d : ℕ) (up : Bool) (cid : ℕ) : List ℕ :=
  if up then List.range' (cid + 1) (2 ^ d - (cid + 1)) else (List.range cid).reverse

/-- The updates `touch |= (p4est_corner_boundaries[cid] & mask)` for a list of child numbers. -/
def addCorners (d mask : ℕ) (l : List ℕ) (touch : ℕ) : ℕ :=
  l.foldl (fun t c => t ||| (cornerMask d c &&& mask)) touch

/-- `p4est_limit_boundaries`, src/p4est_search.c:325-351.  The first argument is
`last_level - level`. -/
def limitBoundaries (q : Quad d) (up : Bool) : ℕ → ℕ → ℕ → ℕ → ℕ
  | 0, level, touch, mask =>
    if Nat.ldiff mask touch = 0 then touch
    else
      addCorners d mask (siblingsBeyond d up (ancestorId q level)) touch |||
        (cornerMask d (ancestorId q level) &&& mask)
  | n + 1, level, touch, mask =>
    if Nat.ldiff mask touch = 0 then touch
    else
      limitBoundaries q up n (level + 1)
        (addCorners d mask (siblingsBeyond d up (ancestorId q level)) touch)
        (cornerMask d (ancestorId q level) &&& mask)

/-- The loop src/p4est_search.c:395-398: the number of times the lowest bit is one.  The argument
`n` counts down from `P4EST_MAXLEVEL + 1`, the bound on `count`. -/
def tailOnes : ℕ → ℤ → ℕ
  | 0, _ => 0
  | n + 1, a => if Int.testBit a 0 then tailOnes n (a / 2) + 1 else 0

/-- `last_level`, src/p4est_search.c:383-399 and the three copies at 409-425, 474-490 and 501-517. -/
def lastLevel (q : Quad d) : ℕ :=
  let cid := childId q
  MAXLEVEL + 1 - tailOnes (MAXLEVEL + 1)
    (Int.lnot (orCoords fun i => q.c i + if cid.testBit i then qlen QMAXLEVEL else 0))

/-- The branch src/p4est_search.c:400-407 for one of the two ends. -/
def endBoundaries (q : Quad d) (up : Bool) (level next touch : ℕ) : ℕ :=
  if lastLevel q ≤ level then touch ||| next
  else touch ||| limitBoundaries q up (lastLevel q - (level + 1)) (level + 1) touch next

/-- `p4est_range_boundaries`, src/p4est_search.c:353-441.  The first number is
`alevel + 1 - level`. -/
def rangeBoundaries (lq uq : Quad d) : ℕ → ℕ → ℕ → ℕ
  | 0, level, mask =>
    if mask = 0 then 0
    else
      let lcid := ancestorId lq level
      let ucid := ancestorId uq level
      let touch := addCorners d mask (List.range' (lcid + 1) (ucid - (lcid + 1))) 0
      let touch := endBoundaries lq true level (cornerMask d lcid &&& mask) touch
      endBoundaries uq false level (cornerMask d ucid &&& mask) touch
  | n + 1, level, mask =>
    if mask = 0 then 0
    else rangeBoundaries lq uq n (level + 1) (cornerMask d (ancestorId lq level) &&& mask)

/-- The number returned by `p4est_find_range_boundaries`, src/p4est_search.c:443-568.  `none` is a
null pointer.  The arrays `faces`, `edges` and `corners` repeat the bits of the result and are not
modelled. -/
def findRangeBoundaries (lq uq : Option (Quad d)) (level : ℕ) : ℕ :=
  if level = QMAXLEVEL then allBoundaries d
  else
    match lq, uq with
    | none, none => allBoundaries d
    | none, some u =>
      limitBoundaries u false (max (lastLevel u) (level + 1) - (level + 1)) (level + 1) 0
        (allBoundaries d)
    | some l, none =>
      limitBoundaries l true (max (lastLevel l) (level + 1) - (level + 1)) (level + 1) 0
        (allBoundaries d)
    | some l, some u =>
      rangeBoundaries l u ((nca l u).level + 1 - (level + 1)) (level + 1) (allBoundaries d)

end P4est
