import Verif.Model.DataFile

/-! # Specification of data files -/

namespace P4est.Spec

/-- A partition of `n` quadrants among `P` ranks: rank `r` has the quadrants from `gfq r` to `gfq (r + 1)`. -/
structure IsPartition (P n : ℕ) (gfq : ℕ → ℕ) : Prop where
  ranks : 0 < P
  first : gfq 0 = 0
  last : gfq P = n
  mono : ∀ r < P, gfq r ≤ gfq (r + 1)

/-- What a user writes: a block of bytes, or a field with one entry of `size` bytes for every quadrant of the forest, with a string. -/
inductive DataSection where
  | block (data str : List Byte)
  | field (size : ℕ) (entries : List (List Byte)) (str : List Byte)

/-- The entries of the quadrants of rank `r`, one after the other. -/
def ownEntries (gfq : ℕ → ℕ) (r : ℕ) (entries : List (List Byte)) : List Byte := ((entries.drop (gfq r)).take (gfq (r + 1) - gfq r)).flatten

/-- The strings are C strings with less than 48 characters, and the sizes have at most 13 digits, as documented in p4est_io.h. -/
def SectionOk (gnq : ℕ) : DataSection → Prop
  | .block data str => str.length < 48 ∧ 0 ∉ str ∧ data.length ≤ 9999999999999
  | .field size entries str => str.length < 48 ∧ 0 ∉ str ∧ size ≤ 9999999999999 ∧ entries.length = gnq ∧ ∀ e ∈ entries, e.length = size

/-- The number of bytes of the data in a section. -/
def sectionBytes (gnq : ℕ) : DataSection → ℕ
  | .block data _ => data.length
  | .field size _ _ => gnq * size

/-- The type, the size and the string of a section, padded with spaces. -/
def sectionInfo : DataSection → SectionInfo
  | .block data str => (66, data.length, padRight 47 str)
  | .field size _ str => (70, size, padRight 47 str)

/-- All ranks write a section.  In a field every rank passes the entries of its own quadrants. -/
def writeSection (mpiio : Bool) (P : ℕ) (order : List ℕ) (file : List Byte) (c : FileCtx) : DataSection → Out (List Byte × FileCtx)
  | .block data str => fileWriteBlock mpiio file c data str
  | .field size entries str => fileWriteField mpiio file c P size (fun r => ownEntries c.gfq r entries) str order

/-- Sections are written one after the other; the data of the ranks reach the file in the order `order i` for section `i`. -/
def writeSections (mpiio : Bool) (P : ℕ) (order : ℕ → List ℕ) : ℕ → List Byte → FileCtx → List DataSection → Out (List Byte × FileCtx)
  | _, file, c, [] => .done (file, c)
  | i, file, c, s :: ss =>
    match writeSection mpiio P (order i) file c s with
    | .abort => .abort
    | .fail e => .fail e
    | .done (file, c) => writeSections mpiio P order (i + 1) file c ss

/-- A file is created, and sections are written. -/
def writeFile (d : ℕ) (version str : List Byte) (gnq : ℕ) (mpiio : Bool) (P : ℕ) (gfq : ℕ → ℕ) (order : ℕ → List ℕ) (ss : List DataSection) :
    Out (List Byte × FileCtx) :=
  match fileOpenCreate d version str gnq gfq with
  | .abort => .abort
  | .fail e => .fail e
  | .done (file, c) => writeSections mpiio P order 0 file c ss

/-- A rank reads sections one after the other, from context `c` to context `c'`: it gets the data of the blocks, the entries of its own
quadrants of the fields, and the strings.  Any section may be skipped. -/
inductive ReadsBack (mpiio : Bool) (Q rank : ℕ) (file : List Byte) : FileCtx → List DataSection → FileCtx → Prop where
  | nil (c : FileCtx) : ReadsBack mpiio Q rank file c [] c
  | block (c c' c'' : FileCtx) (data str : List Byte) (ss : List DataSection)
      (h : ∀ skip, fileReadBlock mpiio rank file c data.length skip = .done (if skip then [] else data, padRight 47 str, c'))
      (rest : ReadsBack mpiio Q rank file c' ss c'') : ReadsBack mpiio Q rank file c (.block data str :: ss) c''
  | field (c c' c'' : FileCtx) (size : ℕ) (entries : List (List Byte)) (str : List Byte) (ss : List DataSection)
      (h : ∀ skip, fileReadField mpiio Q rank file c size skip =
        .done (if skip then [] else ownEntries c.gfq rank entries, padRight 47 str, c'))
      (rest : ReadsBack mpiio Q rank file c' ss c'') : ReadsBack mpiio Q rank file c (.field size entries str :: ss) c''

/-- The attempt to read or to skip a section as what it was written. -/
def tryRead (mpiio : Bool) (Q rank : ℕ) (file : List Byte) (c : FileCtx) (skip : Bool) : DataSection → Out (List Byte × List Byte × FileCtx)
  | .block data _ => fileReadBlock mpiio rank file c data.length skip
  | .field size _ _ => fileReadFieldExt mpiio Q rank file c c.gfq size skip

/-- What a user asks for: a block or a field of a size. -/
inductive DataRequest where
  | block (size : ℕ)
  | field (size : ℕ)
deriving DecidableEq

/-- The request that fits a section. -/
def requestFor : DataSection → DataRequest
  | .block data _ => .block data.length
  | .field size _ _ => .field size

/-- The attempt to read or to skip what a user asks for. -/
def tryRequest (mpiio : Bool) (Q rank : ℕ) (file : List Byte) (c : FileCtx) (skip : Bool) : DataRequest → Out (List Byte × List Byte × FileCtx)
  | .block size => fileReadBlock mpiio rank file c size skip
  | .field size => fileReadFieldExt mpiio Q rank file c c.gfq size skip

/-- The sizes that the functions accept: a number of 64 bits, with a possible padding. -/
def RequestOk : DataRequest → Prop
  | .block size => size < 2 ^ 64 ∧ size % 16 ≠ 15
  | .field size => size < 2 ^ 64

/-- The two kinds of sections. -/
def DataRequest.isBlock : DataRequest → Bool
  | .block _ => true
  | .field _ => false

/-- The writes to the file when a section is written after `acc` bytes, with `k` bytes of padding. -/
def sectionWrites (acc gnq k : ℕ) (gfq : ℕ → ℕ) (order : List ℕ) : DataSection → List (ℕ × List Byte)
  | .block data str => blockWrites acc k data str
  | .field size entries str => fieldWrites acc gnq k size gfq (fun r => ownEntries gfq r entries) str order

/-- What may have reached the file when a program is interrupted: any pieces of the writes, in any order. -/
def Pieces (ws ws' : List (ℕ × List Byte)) : Prop := ∀ w' ∈ ws', ∃ w ∈ ws, ∃ i j, w' = (w.1 + i, (w.2.drop i).take j)

end P4est.Spec
