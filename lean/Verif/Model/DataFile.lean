import Verif.Model.File
import Mathlib.Data.Nat.Digits.Defs

/-! # Data files: `p4est_file_open_create`, `p4est_file_write_block`, `p4est_file_write_field`, `p4est_file_open_read`,
`p4est_file_read_block`, `p4est_file_read_field`, `p4est_file_info` (src/p4est_io.c)

These functions are collective.  A function of the model gives what they return on one rank; the file is a list of bytes that is shared by
all ranks.  The functions of libsc to access files are modelled by what the POSIX standard says about writing and reading at a
position.  Errors of the file system do not occur.  Counts of bytes are unbounded, and so are offsets.  `mpiio` says whether the library is
configured with MPI I/O. -/

namespace P4est

/-- The error codes that occur, src/p4est_io.h:197-223.  `success` is the code `P4EST_FILE_ERR_SUCCESS` when the function returns
`NULL`. -/
inductive FileErr where
  | success
  | format
  | sectionType
  | inData
  | count
  | unknown
deriving DecidableEq

/-- What a function does on a rank: it does not return (a failed assertion, undefined behavior or a deadlock), it returns `NULL` with an
error code, or it succeeds. -/
inductive Out (α : Type) where
  | abort
  | fail (e : FileErr)
  | done (a : α)
deriving DecidableEq

/-! ### Access to files -/

/-- `sc_io_write_at`.  A write of no bytes has no effect; a gap is filled with zeros. -/
def putAt (file : List Byte) (w : ℕ × List Byte) : List Byte := if w.2 = [] then file else writeAt file w.1 w.2

/-- Writes that happen one after the other. -/
def putAll (file : List Byte) (ws : List (ℕ × List Byte)) : List Byte := ws.foldl putAt file

/-- `sc_io_read_at`: the bytes that are read; the function returns their number. -/
def getAt (file : List Byte) (pos n : ℕ) : List Byte := (file.drop pos).take n

/-- `MPI_File_set_size`. -/
def setSize (file : List Byte) (n : ℕ) : List Byte := file.take n ++ List.replicate (n - file.length) 0

/-! ### Strings -/

/-- A string in memory ends at the first zero. -/
def cstr (b : List Byte) : List Byte := b.takeWhile (· ≠ 0)

/-- The conversion `%-<w>s`. -/
def padRight (w : ℕ) (s : List Byte) : List Byte := s ++ List.replicate (w - s.length) 32

/-- The conversions `%.<w>llu` and `%.<w>lld` of a number that is not negative, for a positive `w`. -/
def decimal (w n : ℕ) : List Byte :=
  let ds : List Byte := (Nat.digits 10 n).reverse.map fun x => Fin.ofNat 256 (48 + x)
  List.replicate (w - ds.length) 48 ++ ds

/-- `sc_atol`: spaces, a sign and digits in base ten. -/
def atol (s : List Byte) : ℤ :=
  let s := s.dropWhile fun c => c = 32 ∨ (9 ≤ c ∧ c ≤ 13)
  let neg : Bool := s.head? = some 45
  let s := if s.head? = some 45 ∨ s.head? = some 43 then s.tail else s
  let v : ℕ := (s.takeWhile fun c => 48 ≤ c ∧ c ≤ 57).foldl (fun v c => 10 * v + (c.val - 48)) 0
  if neg then -(v : ℤ) else v

/-! ### Layout -/

/-- The number computed in src/p4est_io.c:476-482. -/
def padBytes (n : ℕ) : ℕ :=
  let k := (16 - n % 16) % 16
  if k = 0 ∨ k = 1 then k + 16 else k

/-- `p4est_file_get_padding_string`, src/p4est_io.c:465-490: the number of bytes, with the assertions; the divisor is always
`P4EST_FILE_BYTE_DIV`. -/
def padding (n : ℕ) : Option ℕ := if 1 < padBytes n ∧ padBytes n ≤ 16 then some (padBytes n) else none

/-- The string of `p4est_file_get_padding_string`, src/p4est_io.c:486-489. -/
def padString (k : ℕ) : List Byte := 10 :: (List.replicate (k - 2) 32 ++ [10])

/-- `P4EST_FILE_MAGIC_NUMBER`, src/p4est_io.h:53 and src/p8est_io.h:53. -/
def dataMagic (d : ℕ) : List Byte := [112, if d = 3 then 56 else 52, 100, 97, 116, 97, 48]

/-- The header of the file, src/p4est_io.c:687-690. -/
def fileHeader (d : ℕ) (version str : List Byte) (gnq : ℕ) : List Byte :=
  ((dataMagic d).take 7 ++ [10] ++ padRight 23 version ++ [10] ++ padRight 47 str ++ [10] ++ decimal 16 gnq ++ [10] ++ padRight 14 []
    ++ [10]).take 112

/-- The header of a section, src/p4est_io.c:891-894 and 1282-1285. -/
def sectionHeader (type : Byte) (size : ℕ) (str : List Byte) : List Byte :=
  ([type, 32] ++ decimal 13 size ++ [10] ++ padRight 47 str ++ [10]).take 64

/-! ### Writing -/

/-- `p4est_file_context_t`: the members that are the same on all ranks.  `gfq` is `global_first_quadrant`. -/
structure FileCtx where
  gnq : ℕ
  gfq : ℕ → ℕ
  accessed : ℕ

/-- `p4est_file_open_create`, src/p4est_io.c:639-721. -/
def fileOpenCreate (d : ℕ) (version str : List Byte) (gnq : ℕ) (gfq : ℕ → ℕ) : Out (List Byte × FileCtx) :=
  if ¬ str.length < 48 then .fail .inData
  else if ¬ gnq ≤ 9999999999999999 then .fail .inData
  else .done (putAt [] (0, fileHeader d version str gnq), ⟨gnq, gfq, 0⟩)

/-- The writes of `p4est_file_write_block` and their positions, src/p4est_io.c:888-936, all on rank 0. -/
def blockWrites (acc k : ℕ) (data str : List Byte) : List (ℕ × List Byte) :=
  [(acc + 96 + 16, sectionHeader 66 data.length str), (acc + 96 + 16 + 64, data), (acc + 96 + 16 + 64 + data.length, padString k)]

/-- The size that is set before a section is written, src/p4est_io.c:876-886 and 1265-1277. -/
def sizeFor (mpiio : Bool) (file : List Byte) (acc n : ℕ) : List Byte := if mpiio then setSize file (96 + 16 + n + 64 + acc) else file

/-- `p4est_file_write_block`, src/p4est_io.c:839-945. -/
def fileWriteBlock (mpiio : Bool) (file : List Byte) (c : FileCtx) (data str : List Byte) : Out (List Byte × FileCtx) :=
  if ¬ str.length < 48 then .fail .inData
  else if ¬ data.length ≤ 9999999999999 then .fail .inData
  else match padding data.length with
    | none => .abort
    | some k => .done (putAll (sizeFor mpiio file c.accessed data.length) (blockWrites c.accessed k data str),
        { c with accessed := c.accessed + (data.length + 64 + k) })

/-- The writes of `p4est_file_write_field`, src/p4est_io.c:1258-1338.  The data of the ranks reach the file in the order of the list `order`;
the header is written before them, since rank 0 writes it before the other ranks receive its error code, and the padding after them, since
the check of the counts in between is collective. -/
def fieldWrites (acc gnq k size : ℕ) (gfq : ℕ → ℕ) (data : ℕ → List Byte) (str : List Byte) (order : List ℕ) : List (ℕ × List Byte) :=
  (acc + (96 + 16 + gfq 0 * size), sectionHeader 70 size str) ::
    (order.map (fun r => (acc + (96 + 16 + gfq r * size) + 64, data r)) ++ [(acc + 96 + 16 + gnq * size + 64, padString k)])

/-- `p4est_file_write_field`, src/p4est_io.c:1221-1347, for `P` ranks.  `data r` are the bytes of the array `quadrant_data` on rank `r`. -/
def fileWriteField (mpiio : Bool) (file : List Byte) (c : FileCtx) (P size : ℕ) (data : ℕ → List Byte) (str : List Byte) (order : List ℕ) :
    Out (List Byte × FileCtx) :=
  if ¬ ∀ r < P, data r = [] ∨ (data r).length = (c.gfq (r + 1) - c.gfq r) * size then .abort
  else if ¬ str.length < 48 then .fail .inData
  else if ¬ size ≤ 9999999999999 then .fail .inData
  else match padding (c.gnq * size) with
    | none => .abort
    | some k => .done (putAll (sizeFor mpiio file c.accessed (c.gnq * size)) (fieldWrites c.accessed c.gnq k size c.gfq data str order),
        { c with accessed := c.accessed + (size * c.gnq + 64 + k) })

/-! ### Reading -/

/-- `p4est_file_check_file_metadata`, src/p4est_io.c:492-593, for the 96 bytes that are read: the user string and the number of quadrants.
`sc_strcopy` copies as many bytes as fit together with a zero. -/
def checkHeader (d : ℕ) (m : List Byte) : Except FileErr (List Byte × ℕ) :=
  if m[7]? ≠ some 10 then .error .format
  else if m[31]? ≠ some 10 then .error .format
  else if (cstr ((m.drop 8).take 23)).length ≠ 23 then .error .format
  else if m[79]? ≠ some 10 then .error .format
  else if (cstr (m.drop 80)).length ≠ 16 then .error .format
  else if cstr (m.take 7) ≠ dataMagic d ∨ atol (m.drop 80) < 0 then .error .format
  else .ok ((cstr (m.drop 32)).take (48 - 1 - 1), (atol (m.drop 80)).toNat)

/-- `p4est_file_open_read_ext`, src/p4est_io.c:723-794.  When not all bytes are there, rank 0 jumps to the broadcast of `count_error`, while
the other ranks wait for `mpiret`: they take the value 1, which is the code of an error of MPI, and return the code for an unknown error. -/
def fileOpenReadExt (d rank : ℕ) (file : List Byte) : Out (List Byte × ℕ) :=
  let m := getAt file 0 96
  if m.length ≠ 96 then .fail (if rank = 0 then .count else .unknown)
  else match checkHeader d m with
    | .error e => .fail e
    | .ok r => .done r

/-- `p4est_file_open_read`, src/p4est_io.c:796-837, with a forest of `gnq` quadrants and the partition `gfq`.  The code after a mismatch is
the one of `p4est_file_close`. -/
def fileOpenRead (d rank : ℕ) (file : List Byte) (gnq : ℕ) (gfq : ℕ → ℕ) : Out (List Byte × FileCtx) :=
  match fileOpenReadExt d rank file with
  | .abort => .abort
  | .fail e => .fail e
  | .done (str, n) => if gnq ≠ n then .fail .success else .done (str, ⟨gnq, gfq, 0⟩)

/-- `p4est_file_read_block_metadata`, src/p4est_io.c:947-1119, on a rank, for a non-empty pointer to the user string, which is the result.
The error codes for missing bytes differ as in `p4est_file_open_read_ext`: in the second case the other ranks wait for `err_flag`. -/
def readSection (rank : ℕ) (file : List Byte) (c : FileCtx) (size : ℕ) (type : Byte) : Out (List Byte) :=
  let h := getAt file (c.accessed + 96 + 16) 64
  if h.length ≠ 64 then .fail (if rank = 0 then .count else .unknown)
  else if h[0]? ≠ some type then .fail (if h[0]? ≠ some 70 ∧ h[0]? ≠ some 66 then .format else .sectionType)
  else if h[15]? ≠ some 10 then .fail .format
  else if atol (cstr ((h.drop 2).take 13)) % 2 ^ 64 ≠ size then .fail .format
  else if h[63]? ≠ some 10 then .fail .format
  else
    let n := if type = 70 then size * c.gnq else size
    match padding n with
    | none => .abort
    | some k =>
      let p := getAt file (c.accessed + 96 + 16 + 64 + n) k
      if p.length ≠ k then .fail (if rank = 0 then .count else .format)
      else if p[0]? ≠ some 10 ∨ p[k - 1]? ≠ some 10 then .fail .format
      else .done ((cstr ((h.drop 16).take 47)).take (48 - 1))

/-- The comparison `size - P4EST_FILE_METADATA_BYTES - P4EST_FILE_BYTE_DIV - P4EST_FILE_FIELD_HEADER_BYTES < n` of unsigned numbers of 64
bits, src/p4est_io.c:1170-1171 and 1392-1393. -/
def tooShort (file : List Byte) (n : ℕ) : Prop := ((file.length : ℤ) - 96 - 16 - 64) % 2 ^ 64 < n

instance (file : List Byte) (n : ℕ) : Decidable (tooShort file n) := by unfold tooShort; infer_instance

/-- `p4est_file_read_block`, src/p4est_io.c:1121-1219.  `skip` stands for `block_data == NULL`.  The results are the data, the user string
and the context. -/
def fileReadBlock (mpiio : Bool) (rank : ℕ) (file : List Byte) (c : FileCtx) (size : ℕ) (skip : Bool) :
    Out (List Byte × List Byte × FileCtx) :=
  match padding size with
  | none => .abort
  | some k =>
    if !skip && mpiio && decide (tooShort file size) then .fail .success
    else match readSection rank file c size 66 with
      | .abort => .abort
      | .fail e => .fail e
      | .done str =>
        let data := if skip then [] else getAt file (c.accessed + 96 + 64 + 16) size
        if !skip && decide (data.length ≠ size) then .fail (if rank = 0 then .count else .unknown)
        else .done (data, str, { c with accessed := c.accessed + (size + 64 + k) })

/-- The bytes that a rank reads, src/p4est_io.c:1423-1431. -/
def fieldPart (file : List Byte) (acc size : ℕ) (gfq : ℕ → ℕ) (r : ℕ) : List Byte :=
  getAt file (acc + 96 + 64 + 16 + gfq r * size) ((gfq (r + 1) - gfq r) * size)

/-- `p4est_file_read_field_ext`, src/p4est_io.c:1349-1444, on one of `Q` ranks.  `skip` stands for `quadrant_data == NULL`.  When the
comparison of the size of the file is different on the ranks, some of them close the file and some read it, which does not end.  The code for
missing data is not the same on all ranks, src/p4est_io.c:127-145. -/
def fileReadFieldExt (mpiio : Bool) (Q rank : ℕ) (file : List Byte) (c : FileCtx) (gfq : ℕ → ℕ) (size : ℕ) (skip : Bool) :
    Out (List Byte × List Byte × FileCtx) :=
  if gfq 0 ≠ 0 ∨ gfq Q ≠ c.gnq then .abort
  else if mpiio = true ∧ ∀ r < Q, tooShort file ((gfq (r + 1) - gfq r) * size) then .fail .success
  else if mpiio = true ∧ ¬ ∀ r < Q, ¬ tooShort file ((gfq (r + 1) - gfq r) * size) then .abort
  else match readSection rank file c size 70 with
    | .abort => .abort
    | .fail e => .fail e
    | .done str =>
      match padding (c.gnq * size) with
      | none => .abort
      | some k =>
        if skip = false ∧ ¬ ∀ r < Q, (fieldPart file c.accessed size gfq r).length = (gfq (r + 1) - gfq r) * size then
          .fail (if (fieldPart file c.accessed size gfq rank).length = (gfq (rank + 1) - gfq rank) * size then .success else .count)
        else .done (if skip then [] else fieldPart file c.accessed size gfq rank, str,
          { c with accessed := c.accessed + (size * c.gnq + 64 + k) })

/-- `p4est_file_read_field`, src/p4est_io.c:1446-1500, for a context with a partition.  After an error the context is freed, and line 1494
reads it. -/
def fileReadField (mpiio : Bool) (Q rank : ℕ) (file : List Byte) (c : FileCtx) (size : ℕ) (skip : Bool) :
    Out (List Byte × List Byte × FileCtx) :=
  match fileReadFieldExt mpiio Q rank file c c.gfq size skip with
  | .abort => .abort
  | .fail _ => .abort
  | .done r => .done r

/-! ### The list of sections -/

/-- `p4est_file_section_metadata_t`: the type, the size and the user string. -/
abbrev SectionInfo := Byte × ℕ × List Byte

/-- One turn of the loop in `p4est_file_info`, src/p4est_io.c:1627-1721: the section at a position and the position of the next one, or
`none` at a `break`.  The padding is read into the buffer of the header, and the number of bytes that are read is not checked. -/
def infoSection (file : List Byte) (gnq pos : ℕ) : Out (Option (SectionInfo × ℕ)) :=
  let h := getAt file pos 64
  if h.length ≠ 64 then .done none
  else match h with
    | [] => .abort
    | type :: _ =>
      if type ≠ 66 ∧ type ≠ 70 then .done none
      else if h[15]? ≠ some 10 then .done none
      else
        let size := (atol (cstr ((h.drop 2).take 13)) % 2 ^ 64).toNat
        if h[63]? ≠ some 10 then .done none
        else
          let n := if type = 70 then gnq * size else size
          match padding n with
          | none => .abort
          | some k =>
            let p := getAt file (pos + 64 + n) k
            let b := p ++ (((h.set 15 0).set 63 0).drop p.length)
            if b[0]? ≠ some 10 ∨ b[k - 1]? ≠ some 10 then .done none
            else .done (some ((type, size, (cstr ((h.drop 16).take 47)).take (48 - 1)), pos + (64 + n + k)))

/-- The loop src/p4est_io.c:1627-1721.  The position grows, so that there are at most as many turns as bytes in the file. -/
def infoLoop (file : List Byte) (gnq : ℕ) : ℕ → ℕ → Out (List SectionInfo)
  | 0, _ => .abort
  | n + 1, pos =>
    match infoSection file gnq pos with
    | .abort => .abort
    | .fail e => .fail e
    | .done none => .done []
    | .done (some (s, pos)) =>
      match infoLoop file gnq n pos with
      | .abort => .abort
      | .fail e => .fail e
      | .done l => .done (s :: l)

/-- `p4est_file_info`, src/p4est_io.c:1524-1741. -/
def fileInfo (d : ℕ) (file : List Byte) (gnq : ℕ) : Out (List Byte × List SectionInfo) :=
  let m := getAt file 0 96
  if m.length ≠ 96 then .fail .count
  else match checkHeader d m with
    | .error _ => .fail .format
    | .ok (str, n) =>
      if gnq ≠ n then .fail .format
      else match infoLoop file gnq (file.length + 1) (96 + 16) with
        | .abort => .abort
        | .fail e => .fail e
        | .done l => .done (str, l)

end P4est
