import Verif.Model.PartitionExt

/-! # Checksum of the forest: src/p4est.c:3388-3435, src/p4est_algorithms.c:117-185,
src/p4est_communication.c:936-968

`adler32` and `adler32_combine` are functions of zlib, `sc_array_checksum` of libsc; neither is in the tree.
They are modelled after their published source. -/

namespace P4est

variable {d : ℕ} {α : Type}

/-- The four bytes in memory of `htonl ((uint32_t) x)`. -/
def htonl (x : ℤ) : List ℕ :=
  let v := (x % 2 ^ 32).toNat
  [v / 2 ^ 24 % 256, v / 2 ^ 16 % 256, v / 2 ^ 8 % 256, v % 256]

/-- Coordinate in the old format of 3D, src/p4est_algorithms.c:155-165.  `P4EST_MAXLEVEL` is 30 and
`P4EST_OLD_MAXLEVEL` is 19. -/
def oldCoord (x : ℤ) : ℤ := if x < 0 then -((-x) % 2 ^ 32 / 2 ^ 11) else x % 2 ^ 32 / 2 ^ 11

/-- The entries of `checkarray` for one quadrant, src/p4est_algorithms.c:147-176; the case distinction is
compiled for 3D only. `P4EST_OLD_QMAXLEVEL` is 18. -/
def checkWords (q : Quad d) : List ℕ :=
  (List.finRange d).flatMap (fun i => htonl (if d = 3 ∧ q.level ≤ 18 then oldCoord (q.c i) else q.c i)) ++ htonl q.level

/-- zlib `adler32 (adler, buf, len)` with a buffer: continue the two sums with the bytes. -/
def zAdler32 (adler : ℕ) (buf : List ℕ) : ℕ :=
  let s := buf.foldl (fun s x => ((s.1 + x) % 65521, (s.2 + (s.1 + x)) % 65521)) (adler % 65536, adler / 65536 % 65536)
  s.1 + s.2 * 65536

/-- zlib `adler32_combine (adler1, adler2, len2)` with its reductions. -/
def zAdler32Combine (adler1 adler2 len2 : ℕ) : ℕ :=
  let rem := len2 % 65521
  let sum1 := adler1 % 65536
  let sum2 := rem * sum1 % 65521
  let sum1 := sum1 + adler2 % 65536 + 65521 - 1
  let sum2 := sum2 + (adler1 / 65536 % 65536) + (adler2 / 65536 % 65536) + 65521 - rem
  let sum1 := if sum1 ≥ 65521 then sum1 - 65521 else sum1
  let sum1 := if sum1 ≥ 65521 then sum1 - 65521 else sum1
  let sum2 := if sum2 ≥ 2 * 65521 then sum2 - 2 * 65521 else sum2
  let sum2 := if sum2 ≥ 65521 then sum2 - 65521 else sum2
  sum1 + sum2 * 65536

/-- `sc_array_checksum` of libsc: `adler32` begins with the value 1 of `adler32 (0, Z_NULL, 0)`. -/
def scArrayChecksum (bytes : List ℕ) : ℕ := if bytes.length = 0 then 1 else zAdler32 1 bytes

/-- `p4est_quadrant_checksum` for a whole array, src/p4est_algorithms.c:117-185: the checksum and the
number of elements of `checkarray`. -/
def quadrantChecksum (qs : List (Quad d × α)) : ℕ × ℕ :=
  (scArrayChecksum (qs.flatMap fun q => checkWords q.1), qs.length * (d + 1))

/-- The loop src/p4est.c:3409-3417 over the trees `t, ..., t + n - 1`: `local_crc` and `ssum`. -/
def checksumTrees (rt : RankTrees (Quad d × α)) : ℕ → ℕ → ℕ × ℕ → Option (ℕ × ℕ)
  | 0, _, s => some s
  | n + 1, t, s => do
    let tree ← rt.trees[t]?
    let scount := 4 * (quadrantChecksum tree).2
    checksumTrees rt n (t + 1) (zAdler32Combine s.1 (quadrantChecksum tree).1 scount, s.2 + scount)

/-- `p4est_checksum_local`, src/p4est.c:3390-3421, with `partition_dependent` zero. -/
def checksumLocal (rt : RankTrees (Quad d × α)) : Option (ℕ × ℕ) :=
  checksumTrees rt (localTrees rt) rt.first.toNat (1, 0)

/-- The loop src/p4est_communication.c:953-956 over the ranks `p, ..., p + n - 1`. -/
def combineRanks (gather : ℕ → ℕ × ℕ) : ℕ → ℕ → ℕ → ℕ
  | 0, _, crc => crc
  | n + 1, p, crc => combineRanks gather n (p + 1) (zAdler32Combine crc (gather p).1 (gather p).2)

/-- `p4est_checksum`, src/p4est.c:3425-3441, and `p4est_comm_checksum`, src/p4est_communication.c:936-968: the
same value on all ranks. -/
def checksum (f : Forest d α) (numProcs : ℕ) : Option ℕ := do
  let gather ← (List.range numProcs).mapM fun p => checksumLocal (f.ranks p)
  let g := fun p => (gather[p]?).getD (0, 0)
  some (combineRanks g (numProcs - 1) 1 (g 0).1)

end P4est
