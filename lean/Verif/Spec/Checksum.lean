import Verif.Spec.Basic

/-! # Specification of the checksum: Adler-32 of the records of all leaves -/

namespace P4est.Spec

variable {d : ℕ}

/-- The two sums of Adler-32 (RFC 1950): the sum of the bytes plus one, and the sum of the values of the
first sum after each byte, modulo 65521. -/
def adlerSums : List ℕ → ℕ × ℕ → ℕ × ℕ
  | [], s => s
  | x :: xs, (a, b) => adlerSums xs ((a + x) % 65521, (b + a + x) % 65521)

/-- Adler-32 of a sequence of bytes. -/
def adler32 (bytes : List ℕ) : ℕ := (adlerSums bytes (1, 0)).2 * 65536 + (adlerSums bytes (1, 0)).1

/-- The four bytes of a number below `2^32`, highest first. -/
def bigEndian (n : ℕ) : List ℕ := [n / 2 ^ 24, n / 2 ^ 16 % 2 ^ 8, n / 2 ^ 8 % 2 ^ 8, n % 2 ^ 8]

/-- The record of a leaf: coordinates and level.  In 3D, the coordinates of a leaf of level 18 or less are
those of the previous format with 19 levels. -/
def leafRecord (q : Quad d) : List ℕ :=
  (List.finRange d).flatMap (fun i => bigEndian ((q.c i).toNat / if d = 3 ∧ q.level ≤ 18 then 2 ^ 11 else 1)) ++
    bigEndian q.level

end P4est.Spec
