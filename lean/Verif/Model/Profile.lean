import Mathlib.Data.List.Basic
import Mathlib.Data.Int.Notation
import Mathlib.Data.Int.Order.Basic

/-! # Model of the layer profiles of p6est, src/p6est_profile.c:24-311

A profile is the array of the levels of the layers in a column (`int8_t`, from bottom to top), here a list.
A cursor into an array (`az`, `bz`, `zy`) is modelled by the part of the list that is not yet read, and
`sc_array_push` followed by the assignment to the new entry by appending.  `none` is a read behind
the end of an array, which the code asserts not to happen.  Levels are natural numbers; the difference
`l - 1` that the code computes for `l = 0` only enters a maximum with a level. -/

namespace P4est

/-- `P4EST_QUADRANT_LEN`, src/p4est.h:60. -/
def layerLen (l : ℕ) : ℕ := 2 ^ (30 - l)

/-- The loop of src/p6est_profile.c:75-82: copy the layers of the finer profile until they have the size of
the coarse layer.  The result is the new array and the unread part of the finer profile. -/
def copyFine (coarsesize : ℕ) : List ℕ → ℕ → ℕ → List ℕ → Option (List ℕ × List ℕ)
  | [], _, _, _ => none
  | l :: rest, finel, finesize, c =>
    let c := c ++ [finel]
    let finesize := finesize + layerLen l
    if finesize < coarsesize then copyFine coarsesize rest l finesize c
    else some (c ++ [l], rest)

/-- The loop of src/p6est_profile.c:46-83.  The first number bounds the number of turns; there is at most one
for each entry of `a`. -/
def unionLoop : ℕ → List ℕ → List ℕ → List ℕ → Option (List ℕ)
  | _, [], _, c => some c
  | 0, _ :: _, _, _ => none
  | _ + 1, _ :: _, [], _ => none
  | n + 1, al :: a, bl :: b, c =>
    if al = bl then unionLoop n a b (c ++ [al])
    else if al > bl then do
      let (c, a) ← copyFine (layerLen bl) a al (layerLen al) c
      unionLoop n a b c
    else do
      let (c, b) ← copyFine (layerLen al) b bl (layerLen bl) c
      unionLoop n a b c

/-- `p6est_profile_union`, src/p6est_profile.c:30-84. -/
def profileUnion (a b : List ℕ) : Option (List ℕ) := unionLoop a.length a b []

/-- The loop of src/p6est_profile.c:136-139: skip the layers of the finer profile. -/
def skipFine (coarsesize : ℕ) : List ℕ → ℕ → Option (List ℕ)
  | [], _ => none
  | l :: rest, finesize =>
    let finesize := finesize + layerLen l
    if finesize < coarsesize then skipFine coarsesize rest finesize else some rest

/-- The loop of src/p6est_profile.c:105-141. -/
def intersectionLoop : ℕ → List ℕ → List ℕ → List ℕ → Option (List ℕ)
  | _, [], _, c => some c
  | 0, _ :: _, _, _ => none
  | _ + 1, _ :: _, [], _ => none
  | n + 1, al :: a, bl :: b, c =>
    if al = bl then intersectionLoop n a b (c ++ [al])
    else if al > bl then do
      let a ← skipFine (layerLen bl) a (layerLen al)
      intersectionLoop n a b (c ++ [bl])
    else do
      let b ← skipFine (layerLen al) b (layerLen bl)
      intersectionLoop n a b (c ++ [al])

/-- `p6est_profile_intersection`, src/p6est_profile.c:86-142. -/
def profileIntersection (a b : List ℕ) : Option (List ℕ) := intersectionLoop a.length a b []

/-- The loop of src/p6est_profile.c:169-171 (and 222-224, 292-294): `stackcount` entries
`newn, newn - 1, ...`; the second component is the last one, or `l` if there is none. -/
def stackDown : ℕ → ℕ → ℕ → List ℕ × ℕ
  | 0, _, l => ([], l)
  | count + 1, newn, _ =>
    let r := stackDown count (newn - 1) newn
    (newn :: r.1, r.2)

/-- One layer of level `n` is written after one of level `l`, src/p6est_profile.c:164-171 (and 217-224,
287-294): the new entries and the new `l`. -/
def writeLayer (l n : ℕ) : List ℕ × ℕ :=
  let p := l - 1
  let newn := max p n
  let r := stackDown (newn - n) newn newn
  (newn :: r.1, r.2)

/-- The loop of src/p6est_profile.c:162-172 over the entries from the end of the array. -/
def selfLoop : List ℕ → ℕ → List ℕ → List ℕ
  | [], _, w => w
  | n :: rest, l, w =>
    let r := writeLayer l n
    selfLoop rest r.2 (w ++ r.1)

/-- `p6est_profile_balance_self_one_pass`, src/p6est_profile.c:144-173. -/
def balanceSelfOnePass (read : List ℕ) : Option (List ℕ) :=
  match read.reverse with
  | [] => none
  | n :: rest => some (selfLoop rest n [n])

/-- `p6est_profile_balance_self`, src/p6est_profile.c:175-185. -/
def balanceSelf (a : List ℕ) : Option (List ℕ) := do
  let work ← balanceSelfOnePass a
  balanceSelfOnePass work

/-- The loop of src/p6est_profile.c:204-225 over the entries from the end of the array: two halves of the
same layer are read as one.  `none` is the assertion that the first of two halves is not the last entry. -/
def faceLoop : List ℕ → ℕ → ℕ → List ℕ → Option (List ℕ)
  | [], _, _, w => some w
  | [n], readh, l, w =>
    if n ≠ 0 ∧ readh &&& layerLen n = 0 then none
    else some (w ++ (writeLayer l n).1)
  | n :: nn :: rest, readh, l, w =>
    if (n ≠ 0 ∧ readh &&& layerLen n = 0) ∧ n = nn then
      let r := writeLayer l (n - 1)
      faceLoop rest (readh + layerLen (n - 1)) r.2 (w ++ r.1)
    else
      let r := writeLayer l n
      faceLoop (nn :: rest) (readh + layerLen n) r.2 (w ++ r.1)

/-- `p6est_profile_balance_face`, src/p6est_profile.c:187-241: the result in `b`. -/
def balanceFace (a : List ℕ) (diff : ℕ) : Option (List ℕ) := do
  let work ← faceLoop a.reverse diff 0 []
  balanceSelfOnePass work

/-- The loop of src/p6est_profile.c:260-295.  `prev` is the entry read before `n` (`prevl` of the code, `none`
for -1); `nextl` is the entry behind `nn`. -/
def fullLoop : List ℕ → Option ℕ → ℕ → ℕ → List ℕ → Option (List ℕ)
  | [], _, _, _, w => some w
  | [n], _, readh, l, w =>
    if n ≠ 0 ∧ readh &&& layerLen n = 0 then none
    else some (w ++ (writeLayer l n).1)
  | n :: nn :: rest, prev, readh, l, w =>
    let prevl : ℤ := prev.elim (-1) fun x => (x : ℤ)
    let nextl : ℤ := rest.head?.elim (-1) fun x => (x : ℤ)
    if (n ≠ 0 ∧ readh &&& layerLen n = 0) ∧ n = nn ∧ (n : ℤ) ≥ max nextl prevl - 1 then
      let r := writeLayer l (n - 1)
      fullLoop rest (some nn) (readh + layerLen (n - 1)) r.2 (w ++ r.1)
    else
      let r := writeLayer l n
      fullLoop (nn :: rest) (some n) (readh + layerLen n) r.2 (w ++ r.1)

/-- `p6est_profile_balance_full`, src/p6est_profile.c:243-311: the result in `b`. -/
def balanceFull (a : List ℕ) (diff : ℕ) : Option (List ℕ) := do
  let work ← fullLoop a.reverse none diff 0 []
  balanceSelfOnePass work

end P4est
