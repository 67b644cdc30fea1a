import Verif.Model.Inflate
import Verif.Model.Partition

/-! # Files: `p4est_connectivity_sink`, `p4est_connectivity_source` (src/p4est_connectivity.c), `p4est_save_ext`,
`p4est_source_ext` (src/p4est.c)

A file is a list of bytes.  Numbers are written in the order of bytes of the machine, here the least significant one
first; nothing depends on this order.  `none` stands for `SC_CHECK_ABORT`, for the return of `NULL` and for an access
out of bounds. -/

namespace P4est

variable {d : ℕ}

abbrev Byte := Fin 256

/-! ### Numbers as bytes -/

/-- An unsigned number of `n` bytes in memory. -/
def encodeLE : ℕ → ℕ → List Byte
  | 0, _ => []
  | n + 1, x => ⟨x % 256, Nat.mod_lt _ (by norm_num)⟩ :: encodeLE n (x / 256)

/-- The value of an unsigned number in memory. -/
def decodeLE : List Byte → ℕ
  | [] => 0
  | b :: bs => b.val + 256 * decodeLE bs

/-- A signed number of `n` bytes in two's complement. -/
def encodeInt (n : ℕ) (x : ℤ) : List Byte := encodeLE n (x % 256 ^ n).toNat

/-- The value of an unsigned number of `n` bytes as a signed one, as in `(int) x`. -/
def toSigned (n : ℕ) (x : ℕ) : ℤ :=
  if 2 * (x % 256 ^ n) < 256 ^ n then (x % 256 ^ n : ℕ) else ((x % 256 ^ n : ℕ) : ℤ) - 256 ^ n

/-- The value of a signed number in memory. -/
def decodeInt (n : ℕ) (bs : List Byte) : ℤ := toSigned n (decodeLE bs)

/-! ### Reading and writing -/

/-- `sc_io_sink_write` of the first `count` numbers of an array. -/
def putInts (size count : ℕ) (a : List ℤ) : Option (List Byte) :=
  if count ≤ a.length then some ((a.take count).flatMap (encodeInt size)) else none

/-- `sc_io_sink_write` of the first `count` bytes of an array. -/
def putBytes (count : ℕ) (a : List Byte) : Option (List Byte) := if count ≤ a.length then some (a.take count) else none

/-- A part of a file that is written only under a condition. -/
def putIf (c : Bool) (x : Option (List Byte)) : Option (List Byte) := if c then x else some []

/-- `sc_io_source_t`: what is not read yet and `bytes_out`. -/
structure Source where
  rest : List Byte
  out : ℕ

/-- `sc_io_source_read` without a pointer to the number of bytes: all bytes must be available. -/
def Source.read (s : Source) (n : ℕ) : Option (List Byte × Source) :=
  if n ≤ s.rest.length then some (s.rest.take n, ⟨s.rest.drop n, s.out + n⟩) else none

/-- `sc_io_source_read` with `NULL` for the buffer. -/
def Source.skip (s : Source) (n : ℕ) : Option Source := (s.read n).map Prod.snd

def Source.skipIf (c : Bool) (s : Source) (n : ℕ) : Option Source := if c then s.skip n else some s

/-- An array of `count` elements of `size` bytes. -/
def chunks (size : ℕ) : ℕ → List Byte → List (List Byte)
  | 0, _ => []
  | count + 1, b => b.take size :: chunks size count (b.drop size)

/-- An array of signed numbers is read. -/
def Source.ints (s : Source) (size count : ℕ) : Option (List ℤ × Source) := do
  let (b, s) ← s.read (size * count)
  some ((chunks size count b).map (decodeInt size), s)

/-- An array of `uint64_t` is read. -/
def Source.u64s (s : Source) (count : ℕ) : Option (List ℕ × Source) := do
  let (b, s) ← s.read (8 * count)
  some ((chunks 8 count b).map decodeLE, s)

/-- An array that is read only under a condition; otherwise it is `NULL`. -/
def Source.intsIf (c : Bool) (s : Source) (size count : ℕ) : Option (List ℤ × Source) :=
  if c then s.ints size count else some ([], s)

def Source.readIf (c : Bool) (s : Source) (count : ℕ) : Option (List Byte × Source) :=
  if c then s.read count else some ([], s)

/-! ### Connectivity -/

/-- `p4est_connectivity_t`; arrays that are `NULL` are empty.  The vertices are the bytes of the coordinates.  The members
for edges are not used in 2D. -/
structure ConnFile where
  numVertices : ℕ
  numTrees : ℕ
  numEdges : ℕ
  numCorners : ℕ
  attrBytes : ℕ
  vertices : List Byte
  treeToEdge : List ℤ
  treeToVertex : List ℤ
  treeToCorner : List ℤ
  treeToTree : List ℤ
  treeToFace : List ℤ
  attr : List Byte
  ettOffset : List ℤ
  edgeToTree : List ℤ
  edgeToEdge : List ℤ
  cttOffset : List ℤ
  cornerToTree : List ℤ
  cornerToCorner : List ℤ
deriving DecidableEq

/-- `P4EST_STRING` in eight bytes, src/p4est_connectivity.h:94 and src/p8est_connectivity.h. -/
def magic (d : ℕ) : List Byte := [112, if d = 3 then 56 else 52, 101, 115, 116, 0, 0, 0]

/-- `P4EST_ONDISK_FORMAT`, src/p4est_connectivity.h:101 and src/p8est_connectivity.h:107. -/
def ondiskFormat (d : ℕ) : ℕ := if d = 3 then 0x3000009 else 0x2000009

/-- `num_ett`, src/p4est_connectivity.c:1266-1271. -/
def ConnFile.numEtt (d : ℕ) (c : ConnFile) : Option ℤ := if d = 3 then c.ettOffset[c.numEdges]? else some 0

/-- `array10`, src/p4est_connectivity.c:1288-1298. -/
def connHead (d : ℕ) (c : ConnFile) (numEtt numCtt : ℤ) : List ℤ :=
  [ondiskFormat d, 4, c.numVertices, c.numTrees, if d = 3 then c.numEdges else 0, numEtt, c.numCorners, numCtt, c.attrBytes, 0]

/-- `p4est_connectivity_sink`, src/p4est_connectivity.c:1248-1358.  `version` are the 24 bytes of the version of the
package. -/
def connSink (d : ℕ) (version : List Byte) (c : ConnFile) : Option (List Byte) := do
  let numEtt ← c.numEtt d
  let numCtt ← c.cttOffset[c.numCorners]?
  let v ← putIf (c.numVertices > 0) (putBytes (3 * c.numVertices * 8) c.vertices)
  let te ← putIf (d = 3 ∧ c.numEdges > 0) (putInts 4 (12 * c.numTrees) c.treeToEdge)
  let tv ← putIf (c.numVertices > 0) (putInts 4 (2 ^ d * c.numTrees) c.treeToVertex)
  let tc ← putIf (c.numCorners > 0) (putInts 4 (2 ^ d * c.numTrees) c.treeToCorner)
  let tt ← putInts 4 (2 * d * c.numTrees) c.treeToTree
  let tf ← putInts 1 (2 * d * c.numTrees) c.treeToFace
  let at' ← putIf (c.attrBytes > 0) (putBytes (c.numTrees * c.attrBytes) c.attr)
  let eo ← putIf (d = 3) (putInts 4 (c.numEdges + 1) c.ettOffset)
  let et ← putIf (d = 3 ∧ c.numEdges > 0) (putInts 4 numEtt.toNat c.edgeToTree)
  let ee ← putIf (d = 3 ∧ c.numEdges > 0) (putInts 1 numEtt.toNat c.edgeToEdge)
  let co ← putInts 4 (c.numCorners + 1) c.cttOffset
  let ct ← putIf (c.numCorners > 0) (putInts 4 numCtt.toNat c.cornerToTree)
  let cc ← putIf (c.numCorners > 0) (putInts 1 numCtt.toNat c.cornerToCorner)
  some (magic d ++ (version ++ ((connHead d c numEtt numCtt).flatMap (encodeInt 8) ++ (v ++ (te ++ (tv ++ (tc ++ (tt ++ (tf ++
    (at' ++ (eo ++ (et ++ (ee ++ (co ++ (ct ++ cc)))))))))))))))

/-- The numbers in the header of a connectivity, converted to `p4est_topidx_t`, src/p4est_connectivity.c:1444-1450. -/
structure ConnCounts where
  vertices : ℤ
  trees : ℤ
  edges : ℤ
  ett : ℤ
  corners : ℤ
  ctt : ℤ
  attrBytes : ℕ

/-- The header is read and checked, src/p4est_connectivity.c:1414-1490. -/
def connSourceHead (d : ℕ) (s : Source) : Option (ConnCounts × Source) := do
  let (m, s) ← s.read 8
  if m ≠ magic d then none
  else do
    let (_, s) ← s.read 24
    let (a, s) ← s.u64s 10
    let n := fun i => toSigned 4 (a.getD i 0)
    if a.getD 0 0 ≠ ondiskFormat d ∨ a.getD 1 0 ≠ 4 ∨ n 2 < 0 ∨ n 3 < 0 ∨ n 6 < 0 ∨ n 7 < 0 then none
    else if (if d = 3 then n 4 < 0 ∨ n 5 < 0 else n 4 ≠ 0 ∨ n 5 ≠ 0) then none
    else some (⟨n 2, n 3, n 4, n 5, n 6, n 7, a.getD 8 0⟩, s)

/-- The check of the last offset, src/p4est_connectivity.c:1582 and 1607. -/
def lastOffset (c : Bool) (num : ℤ) (offset : List ℤ) (i : ℤ) : Bool := !c || decide (offset[i.toNat]? = some num)

/-- `p4est_connectivity_source`, src/p4est_connectivity.c:1399-1632.  `valid` is `p4est_connectivity_is_valid`. -/
def connSource (d : ℕ) (valid : ConnFile → Bool) (s : Source) : Option (ConnFile × Source) := do
  let (n, s) ← connSourceHead d s
  let (v, s) ← s.readIf (n.vertices > 0) (3 * n.vertices.toNat * 8)
  let (te, s) ← s.intsIf (d = 3 ∧ n.edges > 0) 4 (12 * n.trees.toNat)
  let (tv, s) ← s.intsIf (n.vertices > 0) 4 (2 ^ d * n.trees.toNat)
  let (tc, s) ← s.intsIf (n.corners > 0) 4 (2 ^ d * n.trees.toNat)
  let (tt, s) ← s.ints 4 (2 * d * n.trees.toNat)
  let (tf, s) ← s.ints 1 (2 * d * n.trees.toNat)
  let (at', s) ← s.readIf (n.attrBytes > 0) (n.trees.toNat * n.attrBytes)
  let (eo, s) ← s.intsIf (d = 3) 4 (n.edges.toNat + 1)
  if !lastOffset (d = 3) n.ett eo n.edges then none
  else do
    let (et, s) ← s.intsIf (d = 3 ∧ n.edges > 0) 4 n.ett.toNat
    let (ee, s) ← s.intsIf (d = 3 ∧ n.edges > 0) 1 n.ett.toNat
    let (co, s) ← s.ints 4 (n.corners.toNat + 1)
    if !lastOffset true n.ctt co n.corners then none
    else do
      let (ct, s) ← s.intsIf (n.corners > 0) 4 n.ctt.toNat
      let (cc, s) ← s.intsIf (n.corners > 0) 1 n.ctt.toNat
      let c : ConnFile := ⟨n.vertices.toNat, n.trees.toNat, n.edges.toNat, n.corners.toNat, n.attrBytes, v, te, tv, tc, tt, tf, at',
        eo, et, ee, co, ct, cc⟩
      if valid c then some (c, s) else none

/-! ### Save -/

/-- The loops src/p4est.c:3530-3534 and 3567-3571: bytes are written until the length is a multiple of 32.  At most
`n` turns. -/
def alignFile : ℕ → List Byte → Option (List Byte)
  | 0, _ => none
  | n + 1, file => if file.length % 32 = 0 then some file else alignFile n (file ++ [0])

/-- `u64a`, src/p4est.c:3538-3556. -/
def saveHead (d sizeQuad dataSize : ℕ) (saveData savePartition : Bool) (P : ℕ) (gfq : ℕ → ℤ) (pertree : List ℤ) : List ℤ :=
  [(ondiskFormat d : ℤ), 4, (sizeQuad : ℤ), (dataSize : ℤ), if saveData then 1 else 0, if savePartition then (P : ℤ) else 1] ++
    (if savePartition then (List.range P).map fun i => gfq (i + 1) else [gfq P]) ++ pertree.tail

/-- One quadrant in `lbuf`, src/p4est.c:3626-3637. -/
def saveLeaf (saveData : Bool) (dataSize : ℕ) (x : Quad d × List Byte) : Option (List Byte) := do
  let b ← putIf saveData (putBytes dataSize x.2)
  some ((List.ofFn x.1.c ++ [(x.1.level : ℤ)]).flatMap (encodeInt 4) ++ b)

/-- The loop src/p4est.c:3616-3655 over the trees `t, ..., t + n - 1`: what is written. -/
def saveTrees (saveData : Bool) (dataSize : ℕ) (rt : RankTrees (Quad d × List Byte)) : ℕ → ℕ → Option (List Byte)
  | 0, _ => some []
  | n + 1, t => do
    let tree ← rt.trees[t]?
    let b ← tree.mapM (saveLeaf saveData dataSize)
    let rest ← saveTrees saveData dataSize rt n (t + 1)
    some (b.flatten ++ rest)

/-- `fseek` and `fwrite`; a gap is filled with zeros. -/
def writeAt (file : List Byte) (pos : ℕ) (b : List Byte) : List Byte :=
  file.take pos ++ List.replicate (pos - file.length) 0 ++ b ++ file.drop (pos + b.length)

/-- The ranks `rank, ..., rank + n - 1` write one after the other, src/p4est.c:3580-3675 without MPI I/O.  The position
`fpos` of the first quadrant is passed on unchanged. -/
def saveRanks (saveData : Bool) (dataSize : ℕ) (f : Forest d (List Byte)) (fpos : ℕ) : ℕ → ℕ → List Byte → Option (List Byte)
  | 0, _, file => some file
  | n + 1, rank, file => do
    let b ← saveTrees saveData dataSize (f.ranks rank) (localTrees (f.ranks rank)) (f.ranks rank).first.toNat
    saveRanks saveData dataSize f fpos n (rank + 1)
      (writeAt file (fpos + (f.gfq rank * ((d + 1) * 4 + dataSize : ℕ)).toNat) b)

/-- `p4est_save_ext`, src/p4est.c:3468-3686, on `P` ranks: the file.  `dataSize` is `p4est->data_size`, `sizeQuad` the size of
`p4est_quadrant_t`. -/
def saveExt (version : List Byte) (sizeQuad : ℕ) (c : ConnFile) (f : Forest d (List Byte)) (gfp : List (GPos d)) (P dataSize : ℕ)
    (saveData savePartition : Bool) : Option (List Byte) := do
  let dataSize := if saveData then dataSize else 0
  let saveData := saveData && decide (dataSize ≠ 0)
  let pertree ← countPertree f gfp P
  let file ← connSink d version c
  let file ← alignFile 32 file
  let file ← alignFile 32 (file ++ (saveHead d sizeQuad dataSize saveData savePartition P f.gfq pertree).flatMap (encodeInt 8))
  let b ← saveTrees saveData dataSize (f.ranks 0) (localTrees (f.ranks 0)) (f.ranks 0).first.toNat
  saveRanks saveData dataSize f file.length (P - 1) 1 (file ++ b)

/-! ### Load -/

/-- `zpadding`, src/p4est.c:4095 and 4209. -/
def zpadding (n : ℕ) : ℕ := (32 - n % 32) % 32

/-- What is known of the file before the quadrants. -/
structure LoadHead where
  conn : ConnFile
  connBytes : ℕ
  saveDataSize : ℕ
  saveNumProcs : ℤ
  gfq : ℕ → ℤ
  pertree : List ℤ

/-- The partition, src/p4est.c:4144-4167. -/
def loadPartition (rnd : ℚ → ℚ) (P : ℕ) (autopartition : Bool) (saveNumProcs : ℤ) (s : Source) : Option ((ℕ → ℤ) × Source) :=
  if !autopartition then do
    let (a, s) ← s.u64s P
    some (fun p => if p = 0 then 0 else toSigned 8 (a.getD (p - 1) 0), s)
  else do
    let s ← s.skip ((saveNumProcs - 1).toNat * 8)
    let (a, s) ← s.u64s 1
    some (globalFirstQuadrant rnd (toSigned 8 (a.getD 0 0)).toNat P, s)

/-- Connectivity and header, src/p4est.c:4088-4201 for a rank that reads them. -/
def loadHead (d : ℕ) (valid : ConnFile → Bool) (rnd : ℚ → ℚ) (sizeQuad P dataSize : ℕ) (load autopartition : Bool) (s : Source) :
    Option (LoadHead × Source) := do
  let (conn, s) ← connSource d valid s
  let s ← s.skip (zpadding s.out)
  let connBytes := s.out
  let (a, s) ← s.u64s 6
  let saveNumProcs := toSigned 4 (a.getD 5 0)
  if a.getD 0 0 ≠ ondiskFormat d ∨ a.getD 1 0 ≠ 4 ∨ a.getD 2 0 ≠ sizeQuad ∨
    (load ∧ (a.getD 3 0 ≠ dataSize ∨ toSigned 4 (a.getD 4 0) = 0)) ∨ ¬ (autopartition ∨ (P : ℤ) = saveNumProcs) then none
  else do
    let (gfq, s) ← loadPartition rnd P autopartition saveNumProcs s
    let (t, s) ← s.u64s conn.numTrees
    let pertree := 0 :: t.map (toSigned 8)
    if some (gfq P) ≠ pertree[conn.numTrees]? then none
    else some (⟨conn, connBytes, a.getD 3 0, saveNumProcs, gfq, pertree⟩, s)

/-- `file_offset` before line 4203: the number of bytes before the second alignment. -/
def LoadHead.fileOffset (h : LoadHead) : ℕ := h.connBytes + 6 * 8 + h.saveNumProcs.toNat * 8 + h.conn.numTrees * 8

/-- One quadrant, src/p4est.c:4232-4246: its entries of `qarr` and `darr`. -/
def loadLeaf (d saveDataSize : ℕ) (load : Bool) (s : Source) : Option ((List ℤ × List Byte) × Source) :=
  if load then do
    let (b, s) ← s.read ((d + 1) * 4 + saveDataSize)
    some (((chunks 4 (d + 1) b).map (decodeInt 4), (b.drop ((d + 1) * 4)).take saveDataSize), s)
  else do
    let (q, s) ← s.ints 4 (d + 1)
    let s ← s.skipIf (saveDataSize > 0) saveDataSize
    some ((q, []), s)

/-- The quadrants of a rank, src/p4est.c:4231-4249: `qarr` and `darr`. -/
def loadLeaves (d saveDataSize : ℕ) (load : Bool) : ℕ → Source → Option ((List ℤ × List (List Byte)) × Source)
  | 0, s => some (([], []), s)
  | n + 1, s => do
    let (x, s) ← loadLeaf d saveDataSize load s
    let (rest, s) ← loadLeaves d saveDataSize load n s
    some ((x.1 ++ rest.1, x.2 :: rest.2), s)

/-- A rank after the header, src/p4est.c:4203-4264: `qarr`, `darr`, and the source at the end.  With `own` the rank has read
the header itself. -/
def loadRank (d : ℕ) (load own : Bool) (h : LoadHead) (P rank : ℕ) (s : Source) :
    Option ((List ℤ × Option (List (List Byte))) × Source) := do
  let comb := (d + 1) * 4 + h.saveDataSize
  let fileOffset := if own then 0 else h.fileOffset
  let pad := zpadding ((6 + h.saveNumProcs.toNat + h.conn.numTrees) * 8)
  let s ← s.skipIf (pad > 0 ∨ rank > 0) (fileOffset + pad + (h.gfq rank).toNat * comb)
  let (x, s) ← loadLeaves d h.saveDataSize load (h.gfq (rank + 1) - h.gfq rank).toNat s
  let s ← s.skipIf (h.gfq P > h.gfq (rank + 1)) ((h.gfq P - h.gfq (rank + 1)).toNat * comb)
  some ((x.1, if load then some x.2 else none), s)

/-- One rank of `p4est_source_ext`, src/p4est.c:4039-4264.  With `broadcasthead` the header is that of the root. -/
def sourceRank (d : ℕ) (valid : ConnFile → Bool) (rnd : ℚ → ℚ) (sizeQuad P dataSize : ℕ) (load autopartition broadcasthead : Bool)
    (rank : ℕ) (s : Source) : Option ((LoadHead × List ℤ × Option (List (List Byte))) × Source) := do
  let (h, s') ← loadHead d valid rnd sizeQuad P dataSize load autopartition s
  let own := !broadcasthead || decide (rank = 0)
  let (r, s) ← loadRank d load own h P rank (if own then s' else s)
  some ((h, r), s)

/-- `p4est_source_ext`, src/p4est.c:4039-4283, on `P` ranks that read the same file, without the final validity check: the connectivity,
the forest, and for each rank the source after reading.  Without data the quadrants have none. -/
def sourceExt (d : ℕ) (valid : ConnFile → Bool) (rnd : ℚ → ℚ) (sizeQuad P dataSize : ℕ) (load autopartition broadcasthead : Bool)
    (file : List Byte) : Option (ConnFile × NewForest d (List Byte) × List Source) := do
  let load := load && decide (dataSize ≠ 0)
  let ranks ← (List.range P).mapM fun rank =>
    sourceRank d valid rnd sizeQuad P dataSize load autopartition broadcasthead rank ⟨file, 0⟩
  let (h, _) ← (ranks[0]?).map Prod.fst
  let f ← inflate (d := d) [] P h.conn.numTrees h.gfq h.pertree (fun p => ((ranks[p]?).map fun x => x.1.2.1).getD [])
    (fun p => ((ranks[p]?).map fun x => x.1.2.2).getD none)
  some (h.conn, f, ranks.map Prod.snd)

end P4est
