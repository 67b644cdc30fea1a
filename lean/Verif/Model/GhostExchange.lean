import Verif.Model.File
import Verif.Model.Ghost
import Verif.Model.Repartition

/-! # Model of the exchange of data of ghosts: src/p4est_ghost.c:2329-2755

The memory for the data of the ghosts is a list of bytes.  `none` stands for an access out of bounds, for a message that
is longer than the memory for it, and for waiting forever.  Messages between two ranks are matched by their sender and
receiver; all of them have the same tag, and there is at most one from each rank to each.  The functions of the form
`_begin` post the messages and those of the form `_end` wait for them.  The receives complete in any order: `order` chooses
it. -/

namespace P4est

variable {d : ℕ}

/-- A receive that has been posted, as in src/p4est_ghost.c:2461-2463 or 2604-2623: the rank that sends, the number of the
first ghost of this rank, the number of bytes, and whether these go to a buffer of their own or directly to the data of the
ghosts.  The tables `qactive` and `qbuffer`, which find the rank and the buffer of a request, are simplified to the members
of this structure. -/
structure GhostRecv where
  source : ℕ
  first : ℕ
  bytes : ℕ
  buffered : Bool
deriving DecidableEq

/-- What a rank has posted: the receives, and the messages with their receivers. -/
structure GhostPost where
  recvs : List GhostRecv
  sends : List (ℕ × List Byte)

/-- The first `size` bytes of an array of bytes, as `memcpy` reads them. -/
def firstBytes (size : ℕ) (bytes : List Byte) : Option (List Byte) :=
  if size ≤ bytes.length then some (bytes.take size) else none

/-- Bytes copied to a position in memory. -/
def writeBytes (mem : List Byte) (start : ℕ) (bytes : List Byte) : Option (List Byte) :=
  if start + bytes.length ≤ mem.length then some (mem.take start ++ bytes ++ mem.drop (start + bytes.length)) else none

/-! ### All levels -/

/-- The loop that posts the receives, src/p4est_ghost.c:2452-2468, for the ranks in the list. -/
def customRecvs (size : ℕ) (procOffsets : List ℕ) : List ℕ → ℕ → Option (List GhostRecv)
  | [], _ => some []
  | q :: qs, excl => do
    let incl ← procOffsets[q + 1]?
    if incl > excl then do
      let rest ← customRecvs size procOffsets qs incl
      some (⟨q, excl, (incl - excl) * size, false⟩ :: rest)
    else customRecvs size procOffsets qs excl

/-- One turn of the loop that fills a message, src/p4est_ghost.c:2481-2486. -/
def customPart (size : ℕ) (g : GhostLayer d) (mirrorData : List (List Byte)) (i : ℕ) : Option (List Byte) := do
  let mirr ← g.mirrorProcMirrors[i]?
  let dat ← mirrorData[mirr]?
  firstBytes size dat

/-- The loop that posts the messages, src/p4est_ghost.c:2471-2493, for the ranks in the list. -/
def customSends (size : ℕ) (g : GhostLayer d) (mirrorData : List (List Byte)) : List ℕ → ℕ → Option (List (ℕ × List Byte))
  | [], _ => some []
  | q :: qs, excl => do
    let incl ← g.mirrorProcOffsets[q + 1]?
    if incl > excl then do
      let parts ← (List.range (incl - excl)).mapM fun theg => customPart size g mirrorData (excl + theg)
      let rest ← customSends size g mirrorData qs incl
      some ((q, parts.flatten) :: rest)
    else customSends size g mirrorData qs excl

/-- `p4est_ghost_exchange_custom_begin`, src/p4est_ghost.c:2417-2497. -/
def customBegin (numProcs size : ℕ) (g : GhostLayer d) (mirrorData : List (List Byte)) : Option GhostPost :=
  if size = 0 then some ⟨[], []⟩
  else do
    let recvs ← customRecvs size g.procOffsets (List.range numProcs) 0
    let sends ← customSends size g mirrorData (List.range numProcs) 0
    some ⟨recvs, sends⟩

/-! ### Completion -/

/-- One turn of the loop that copies from a buffer, src/p4est_ghost.c:2717-2725: the memory of the ghosts and
`lmatches`. -/
def copyGhost (size : ℕ) (wanted : ℕ → Bool) (g : GhostLayer d) (rbuf : List Byte) (s : List Byte × ℕ) (i : ℕ) :
    Option (List Byte × ℕ) := do
  let x ← g.ghosts[i]?
  if wanted x.1.2.level then do
    let dat ← firstBytes size (rbuf.drop (s.2 * size))
    let mem ← writeBytes s.1 (i * size) dat
    some (mem, s.2 + 1)
  else some s

/-- A receive completes: the message is copied to the data of the ghosts, or to a buffer and from there to the data of the
ghosts, src/p4est_ghost.c:2700-2731. -/
def completeRecv (size : ℕ) (wanted : ℕ → Bool) (g : GhostLayer d) (message : ℕ → Option (List Byte)) (mem : List Byte)
    (x : GhostRecv) : Option (List Byte) := do
  let msg ← message x.source
  if msg.length > x.bytes then none
  else if x.buffered then do
    let excl ← g.procOffsets[x.source]?
    let incl ← g.procOffsets[x.source + 1]?
    let s ← (List.range' excl (incl - excl)).foldlM (copyGhost size wanted g msg) (mem, 0)
    some s.1
  else writeBytes mem (x.first * size) msg

/-- Does a rank wait for a message from rank `r`? -/
def awaits (posts : List GhostPost) (r : ℕ) (s : ℕ × List Byte) : Bool :=
  match posts[s.1]? with
  | some post => post.recvs.any fun x => x.source = r
  | none => false

/-- The message from rank `q` to rank `r`. -/
def messageFrom (posts : List GhostPost) (r q : ℕ) : Option (List Byte) := do
  let post ← posts[q]?
  let s ← post.sends.find? fun s => s.1 = r
  some s.2

/-- `p4est_ghost_exchange_custom_end`, src/p4est_ghost.c:2499-2515, and the rest of
`p4est_ghost_exchange_custom_levels_end`, src/p4est_ghost.c:2692-2755, on rank `r`: all receives complete, in the order
chosen, and all messages are received. -/
def exchangeEnd (size : ℕ) (wanted : ℕ → Bool) (order : ℕ → List GhostRecv → List GhostRecv) (posts : List GhostPost)
    (r : ℕ) (g : GhostLayer d) (mem : List Byte) : Option (List Byte) := do
  let post ← posts[r]?
  let mem ← (order r post.recvs).foldlM (completeRecv size wanted g (messageFrom posts r)) mem
  if post.sends.all (awaits posts r) then some mem else none

/-- The two parts of an exchange on all ranks. -/
def exchangeAll (size : ℕ) (wanted : ℕ → Bool) (order : ℕ → List GhostRecv → List GhostRecv)
    (begins : ℕ → GhostLayer d → Option GhostPost) (gs : List (GhostLayer d)) (mems : ℕ → List Byte) :
    Option (List (List Byte)) := do
  let posts ← gs.zipIdx.mapM fun x => begins x.2 x.1
  gs.zipIdx.mapM fun x => exchangeEnd size wanted order posts x.2 x.1 (mems x.2)

/-- `p4est_ghost_exchange_custom`, src/p4est_ghost.c:2406-2415, on all ranks: the data of the ghosts afterwards.
`mirrorData r` are the arrays to which `mirror_data` points on rank `r`, and `mems r` is the data of the ghosts
before. -/
def exchangeCustom (order : ℕ → List GhostRecv → List GhostRecv) (numProcs size : ℕ) (gs : List (GhostLayer d))
    (mirrorData : ℕ → List (List Byte)) (mems : ℕ → List Byte) : Option (List (List Byte)) :=
  exchangeAll size (fun _ => true) order (fun r g => customBegin numProcs size g (mirrorData r)) gs mems

/-! ### The data of the leaves -/

/-- One turn of the loop that finds the data of the mirrors, src/p4est_ghost.c:2358-2376.  The data of a leaf is what
`mirror_data` points to here: the memory at `user_data`, or the 8 bytes of `user_data` itself if `data_size` is 0.
`quadrants_offset` of a tree is the number of the leaves in the trees before it on this rank. -/
def mirrorBytes (rt : RankTrees (Quad d × List Byte)) (x : GhostQuad d) : Option (List Byte) := do
  let tree ← rt.trees[x.1.1]?
  let offset := ((rt.trees.take x.1.1).map List.length).sum
  if x.2 < offset then none
  else do
    let q ← tree[x.2 - offset]?
    some q.2

/-- `p4est_ghost_exchange_data_begin`, src/p4est_ghost.c:2337-2390. -/
def dataBegin (numProcs dataSize : ℕ) (rt : RankTrees (Quad d × List Byte)) (g : GhostLayer d) : Option GhostPost := do
  let mirrorData ← g.mirrors.mapM (mirrorBytes rt)
  customBegin numProcs (if dataSize = 0 then 8 else dataSize) g mirrorData

/-- `p4est_ghost_exchange_data`, src/p4est_ghost.c:2329-2335, on all ranks. -/
def exchangeData (order : ℕ → List GhostRecv → List GhostRecv) (numProcs dataSize : ℕ)
    (rts : ℕ → RankTrees (Quad d × List Byte)) (gs : List (GhostLayer d)) (mems : ℕ → List Byte) :
    Option (List (List Byte)) :=
  exchangeAll (if dataSize = 0 then 8 else dataSize) (fun _ => true) order
    (fun r g => dataBegin numProcs dataSize (rts r) g) gs mems

/-! ### Some levels -/

/-- Is a level in the range? src/p4est_ghost.c:2597. -/
def levelMatches (minlevel maxlevel : ℤ) (level : ℕ) : Bool := decide (minlevel ≤ level ∧ (level : ℤ) ≤ maxlevel)

/-- The loop that posts the receives, src/p4est_ghost.c:2583-2629, for the ranks in the list. -/
def levelsRecvs (size : ℕ) (wanted : ℕ → Bool) (g : GhostLayer d) : List ℕ → ℕ → Option (List GhostRecv)
  | [], _ => some []
  | q :: qs, excl => do
    let incl ← g.procOffsets[q + 1]?
    if incl > excl then do
      let part ← (List.range (incl - excl)).mapM fun theg => g.ghosts[excl + theg]?
      let lmatches := part.countP fun x => wanted x.1.2.level
      let rest ← levelsRecvs size wanted g qs incl
      if lmatches > 0 then
        if lmatches < incl - excl then some (⟨q, excl, lmatches * size, true⟩ :: rest)
        else some (⟨q, excl, (incl - excl) * size, false⟩ :: rest)
      else some rest
    else levelsRecvs size wanted g qs excl

/-- One turn of the loop that fills a message, src/p4est_ghost.c:2655-2663: the bytes that it adds, and whether it adds
any. -/
def levelsPart (size : ℕ) (wanted : ℕ → Bool) (g : GhostLayer d) (mirrorData : List (List Byte)) (i : ℕ) :
    Option (Option (List Byte)) := do
  let mirr ← g.mirrorProcMirrors[i]?
  let m ← g.mirrors[mirr]?
  if wanted m.1.2.level then do
    let dat ← mirrorData[mirr]?
    let part ← firstBytes size dat
    some (some part)
  else some none

/-- The loop that posts the messages, src/p4est_ghost.c:2632-2673, for the ranks in the list.  The two loops over the mirrors
of a rank are one here. -/
def levelsSends (size : ℕ) (wanted : ℕ → Bool) (g : GhostLayer d) (mirrorData : List (List Byte)) :
    List ℕ → ℕ → Option (List (ℕ × List Byte))
  | [], _ => some []
  | q :: qs, excl => do
    let incl ← g.mirrorProcOffsets[q + 1]?
    if incl > excl then do
      let parts ← (List.range (incl - excl)).mapM fun theg => levelsPart size wanted g mirrorData (excl + theg)
      let rest ← levelsSends size wanted g mirrorData qs incl
      if parts.reduceOption.length > 0 then some ((q, parts.reduceOption.flatten) :: rest) else some rest
    else levelsSends size wanted g mirrorData qs excl

/-- `p4est_ghost_exchange_custom_levels_begin`, src/p4est_ghost.c:2528-2676. -/
def levelsBegin (numProcs : ℕ) (minlevel maxlevel : ℤ) (size : ℕ) (g : GhostLayer d) (mirrorData : List (List Byte)) :
    Option GhostPost :=
  if minlevel ≤ 0 ∧ maxlevel ≥ QMAXLEVEL then customBegin numProcs size g mirrorData
  else if size = 0 ∨ minlevel > maxlevel then some ⟨[], []⟩
  else do
    let recvs ← levelsRecvs size (levelMatches minlevel maxlevel) g (List.range numProcs) 0
    let sends ← levelsSends size (levelMatches minlevel maxlevel) g mirrorData (List.range numProcs) 0
    some ⟨recvs, sends⟩

/-- `p4est_ghost_exchange_custom_levels`, src/p4est_ghost.c:2517-2526, on all ranks. -/
def exchangeLevels (order : ℕ → List GhostRecv → List GhostRecv) (numProcs : ℕ) (minlevel maxlevel : ℤ) (size : ℕ)
    (gs : List (GhostLayer d)) (mirrorData : ℕ → List (List Byte)) (mems : ℕ → List Byte) : Option (List (List Byte)) :=
  exchangeAll size (levelMatches minlevel maxlevel) order
    (fun r g => levelsBegin numProcs minlevel maxlevel size g (mirrorData r)) gs mems

end P4est
