import Verif.Model.Repartition

/-! # Transfer of user data between partitions: src/p4est_communication.c:970-1478

`γ` is the type of a byte.  The source data is a list of bytes, the destination data a list whose
entries are `none` as long as they are not written.  `none` as result stands for an access out of
bounds, a null pointer, a failed search or messages without match.  Lengths in bytes are not
restricted to the range of `int`. -/

namespace P4est

variable {γ : Type}

/-- `p4est_bsearch_partition` on the array beginning at `&gfq[base]`, src/p4est_communication.c:39-54;
`sc_bsearch_range` of libsc is modelled by its contract: the index `p < nmemb` with
`gfq[p] <= target < gfq[p + 1]`, and otherwise `nmemb`, on which the function asserts. -/
def bsearchPartition (target : ℤ) (gfq : ℕ → ℤ) (base nmemb : ℕ) : Option ℕ :=
  (List.range nmemb).find? fun p => decide (gfq (base + p) ≤ target ∧ target < gfq (base + p + 1))

/-- An entry of the request arrays: the other rank, the place in the local buffer and the number of
bytes. -/
structure Piece where
  rank : ℕ
  off : ℕ
  len : ℕ

/-- The loops src/p4est_communication.c:1068-1102, 1125-1161, 1300-1340 and 1367-1407 over the ranks
`q, ..., q + n - 1`.  `gend` is the previous `gend`, `off` is `rb`, `rs` the unread sizes.  `size
gbegin gend rs` gives the number of bytes, `none` if there is no message, and the remaining sizes. -/
def pieceLoop (other : ℕ → ℤ) (last : ℤ) (size : ℤ → ℤ → List ℕ → Option (Option ℕ × List ℕ)) :
    ℕ → ℕ → ℤ → ℕ → List ℕ → List Piece → Option (List Piece)
  | 0, _, _, _, _, acc => some acc
  | n + 1, q, gend, off, rs, acc => do
    let gend' := if other (q + 1) > last then last else other (q + 1)
    let r ← size gend gend' rs
    match r.1 with
    | none => pieceLoop other last size n (q + 1) gend' off r.2 acc
    | some len => pieceLoop other last size n (q + 1) gend' (off + len) r.2 (acc ++ [⟨q, off, len⟩])

/-- The pieces that a rank receives, src/p4est_communication.c:1050-1105 and 1276-1342, or sends,
1108-1164 and 1344-1410: the range `[mine rank, mine (rank + 1))` is divided according to the
partition `other`. -/
def pieces (mine other : ℕ → ℤ) (numProcs rank : ℕ) (size : ℤ → ℤ → List ℕ → Option (Option ℕ × List ℕ)) (rs : List ℕ) :
    Option (List Piece) :=
  if mine rank < mine (rank + 1) then do
    let first ← bsearchPartition (mine rank) other 0 numProcs
    let last ← bsearchPartition (mine (rank + 1) - 1) other first (numProcs - first)
    pieceLoop other (mine (rank + 1)) size (last + 1) first (mine rank) 0 rs []
  else some []

/-- The number of bytes in `p4est_transfer_fixed_begin`, src/p4est_communication.c:1080-1087. -/
def fixedSize (dataSize : ℕ) (gbegin gend : ℤ) (rs : List ℕ) : Option (Option ℕ × List ℕ) :=
  if gbegin = gend then some (none, rs)
  else if gbegin < gend then some (some ((gend - gbegin).toNat * dataSize), rs)
  else none

/-- The number of bytes in `p4est_transfer_begin`, src/p4est_communication.c:1311-1322: the sum of the next
sizes times the size of an item. -/
def customSize (itemSize : ℕ) (gbegin gend : ℤ) (rs : List ℕ) : Option (Option ℕ × List ℕ) :=
  let ilen := (gend - gbegin).toNat
  if ilen ≤ rs.length then
    let byteLen := itemSize * (rs.take ilen).sum
    some (if byteLen = 0 then none else some byteLen, rs.drop ilen)
  else none

/-- The bytes of a piece in the buffer of the sender. -/
def readPiece (src : List γ) (p : Piece) : Option (List γ) :=
  if p.off + p.len ≤ src.length then some ((src.drop p.off).take p.len) else none

/-- One received piece: the message of rank `p.rank`, or the local copy (src/p4est_communication.c:1166-1171
and 1412-1417), is written to the buffer.  The sender must have exactly one piece for the receiver,
of the same length. -/
def deliver (sends : ℕ → List Piece) (src : ℕ → List γ) (rank : ℕ) (dst : List (Option γ)) (p : Piece) :
    Option (List (Option γ)) :=
  match (sends p.rank).filter fun s => s.rank = rank with
  | [s] => do
    if s.len = p.len then do
      let bytes ← readPiece (src p.rank) s
      overwrite dst p.off (bytes.map some)
    else none
  | _ => none

/-- No rank sends to `rank` without a receive. -/
def expected (sends : ℕ → List Piece) (numProcs rank : ℕ) (recvs : List Piece) : Bool :=
  (List.range numProcs).all fun q =>
    decide (((sends q).filter fun s => s.rank = rank).length = (recvs.filter fun p => p.rank = q).length)

/-- A whole transfer, begin and end, on all ranks, `src/p4est_communication.c:1011-1205` or 1225-1478: the
destination data of all ranks.  Received pieces are written in the order of their senders; they do not
overlap (which follows from the theorems), so that the order of arrival does not matter. -/
def transfer (destGfq srcGfq : ℕ → ℤ) (numProcs : ℕ) (size : ℤ → ℤ → List ℕ → Option (Option ℕ × List ℕ))
    (destSizes srcSizes : ℕ → List ℕ) (src : ℕ → List γ) (dst : ℕ → List (Option γ)) : Option (List (List (Option γ))) := do
  let sends ← (List.range numProcs).mapM fun p => pieces srcGfq destGfq numProcs p size (srcSizes p)
  (List.range numProcs).mapM fun r => do
    let recvs ← pieces destGfq srcGfq numProcs r size (destSizes r)
    if expected (fun p => (sends[p]?).getD []) numProcs r recvs then
      recvs.foldlM (deliver (fun p => (sends[p]?).getD []) src r) (dst r)
    else none

/-- `p4est_transfer_fixed`, src/p4est_communication.c:972-1208. -/
def transferFixed (destGfq srcGfq : ℕ → ℤ) (numProcs dataSize : ℕ) (src : ℕ → List γ) (dst : ℕ → List (Option γ)) :
    Option (List (List (Option γ))) :=
  if dataSize = 0 then some ((List.range numProcs).map dst)
  else transfer destGfq srcGfq numProcs (fixedSize dataSize) (fun _ => []) (fun _ => []) src dst

/-- `p4est_transfer_items`, src/p4est_communication.c:1433-1478. -/
def transferItems (destGfq srcGfq : ℕ → ℤ) (numProcs itemSize : ℕ) (destCounts srcCounts : ℕ → List ℕ) (src : ℕ → List γ)
    (dst : ℕ → List (Option γ)) : Option (List (List (Option γ))) :=
  if itemSize = 0 then some ((List.range numProcs).map dst)
  else transfer destGfq srcGfq numProcs (customSize itemSize) destCounts srcCounts src dst

/-- `p4est_transfer_custom`, src/p4est_communication.c:1210-1223 and 1421-1453. -/
def transferCustom (destGfq srcGfq : ℕ → ℤ) (numProcs : ℕ) (destSizes srcSizes : ℕ → List ℕ) (src : ℕ → List γ)
    (dst : ℕ → List (Option γ)) : Option (List (List (Option γ))) :=
  transferItems destGfq srcGfq numProcs 1 destSizes srcSizes src dst

end P4est
