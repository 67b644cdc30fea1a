import Verif.Model.GhostCorner

/-! # Model of `p4est_connectivity_join_faces`, in two dimensions -/

namespace P4est

/-- The order of `p4est_topidx_compare_2`, src/p4est_connectivity.c:4484-4496, on pairs of a tree and a corner. -/
def pairLe (x y : ℕ × ℕ) : Prop := x.1 < y.1 ∨ (x.1 = y.1 ∧ x.2 ≤ y.2)

instance (x y : ℕ × ℕ) : Decidable (pairLe x y) := by unfold pairLe; infer_instance

/-- Insertion into a sorted list. -/
def insertPair (x : ℕ × ℕ) : List (ℕ × ℕ) → List (ℕ × ℕ)
  | [] => [x]
  | y :: l => if pairLe x y then x :: y :: l else y :: insertPair x l

/-- `sc_array_sort` of libsc, which is not part of the repository, on pairs. -/
def sortPairs (l : List (ℕ × ℕ)) : List (ℕ × ℕ) := l.foldr insertPair []

/-- `sc_array_uniq` of libsc, which is not part of the repository, on pairs: equal neighbors in the array are removed. -/
def uniqPairs : List (ℕ × ℕ) → List (ℕ × ℕ)
  | [] => []
  | [x] => [x]
  | x :: y :: l => if x = y then uniqPairs (y :: l) else x :: uniqPairs (y :: l)

/-- The corner met across the face with index `i` at the corner, if this face is connected,
src/p4est_connectivity.c:4532-4548. -/
def storeAcross (conn : FaceConn) (t c i : ℕ) : Option (List (ℕ × ℕ)) := do
  let f ← entry cornerFacesTable c i
  let nt ← conn.treeToTree[4 * t + f]?
  let code ← conn.treeToFace[4 * t + f]?
  if nt = t ∧ code % 4 = f then some []
  else do
    let nc ← faceNeighborCorner 2 c f (code % 4) (code / 4)
    some [(nt, nc)]

/-- Entries of `tree_to_corner` are set to the number of a corner, src/p4est_connectivity.c:4528, 4550 and 4762-4767. -/
def setCorners (k : ℕ) (ttc : List ℤ) (l : List (ℕ × ℕ)) : Option (List ℤ) :=
  l.foldlM (fun ttc x => if 4 * x.1 + x.2 < ttc.length then some (ttc.set (4 * x.1 + x.2) (k : ℤ)) else none) ttc

/-- `p4est_connectivity_store_corner`, src/p4est_connectivity.c:4499-4602, in two dimensions.  A pointer NULL to
`tree_to_corner` is an empty list. -/
def storeCorner (conn : FaceConn) (cc : CornerConn) (t c : ℕ) : Option CornerConn := do
  let last ← cc.cttOffset[cc.numCorners]?
  let ttc := if cc.treeToCorner = [] then List.replicate (4 * conn.numTrees) (-1) else cc.treeToCorner
  let l0 ← storeAcross conn t c 0
  let l1 ← storeAcross conn t c 1
  let l := (t, c) :: (l0 ++ l1)
  let ttc' ← setCorners cc.numCorners ttc l
  let s := uniqPairs (sortPairs l)
  some ⟨cc.numCorners + 1, ttc', cc.cttOffset ++ [last + s.length], cc.cornerToTree.take last ++ s.map Prod.fst,
    cc.cornerToCorner.take last ++ s.map Prod.snd⟩

/-- The corner is stored if it is not yet, src/p4est_connectivity.c:4726-4733. -/
def ensureCorner (conn : FaceConn) (cc : CornerConn) (t c : ℕ) : Option CornerConn :=
  if cc.treeToCorner = [] then storeCorner conn cc t c
  else do
    let v ← cc.treeToCorner[4 * t + c]?
    if v < 0 then storeCorner conn cc t c else some cc

/-- The entries from `startt` up to `endt` are moved to the position `end0`, and those in between move up,
src/p4est_connectivity.c:4772-4780 and 4783-4791. -/
def moveBlock {β : Type} (end0 startt endt : ℕ) (l : List β) : List β :=
  l.take end0 ++ ((l.drop startt).take (endt - startt) ++ ((l.drop end0).take (startt - end0) ++ l.drop endt))

/-- The list of corner `c1` is appended to the list of corner `c0`, src/p4est_connectivity.c:4755-4797. -/
def mergeCorners (cc : CornerConn) (c0 c1 : ℕ) : Option CornerConn := do
  let startt ← cc.cttOffset[c1]?
  let endt ← cc.cttOffset[c1 + 1]?
  let l ← (List.range' startt (endt - startt)).mapM fun it => do
    let nt ← cc.cornerToTree[it]?
    let ntc ← cc.cornerToCorner[it]?
    some (nt, ntc)
  let ttc ← setCorners c0 cc.treeToCorner l
  let end0 ← cc.cttOffset[c0 + 1]?
  some ⟨cc.numCorners, ttc, cc.cttOffset.mapIdx fun c off => if c0 + 1 ≤ c ∧ c ≤ c1 then off + (endt - startt) else off,
    moveBlock end0 startt endt cc.cornerToTree, moveBlock end0 startt endt cc.cornerToCorner⟩

/-- `p4est_connectivity_join_corners`, src/p4est_connectivity.c:4705-4800. -/
def joinCorners (conn : FaceConn) (cc : CornerConn) (treeLeft treeRight cornerLeft cornerRight : ℕ) : Option CornerConn := do
  let cc ← ensureCorner conn cc treeLeft cornerLeft
  let cc ← ensureCorner conn cc treeRight cornerRight
  let v0 ← cc.treeToCorner[4 * treeLeft + cornerLeft]?
  let v1 ← cc.treeToCorner[4 * treeRight + cornerRight]?
  let c0 ← index v0
  let c1 ← index v1
  if c0 = c1 then some cc
  else if c1 < c0 then mergeCorners cc c1 c0
  else mergeCorners cc c0 c1

/-- The corners of the two faces are joined, src/p4est_connectivity.c:4965-4979. -/
def joinFaceCorners (conn : FaceConn) (treeLeft treeRight faceLeft faceRight orientation : ℕ) (cc : CornerConn) (i : ℕ) : Option CornerConn := do
  let cl ← entry (faceCornersTable 2) faceLeft i
  let cr ← entry (faceCornersTable 2) faceRight (if orientation ≠ 0 then 1 ^^^ i else i)
  joinCorners conn cc treeLeft treeRight cl cr

/-- `p4est_connectivity_join_faces`, src/p4est_connectivity.c:4908-4991, in two dimensions.  The assertions are left
out. -/
def joinFaces (conn : FaceConn) (cc : CornerConn) (treeLeft treeRight faceLeft faceRight orientation : ℕ) : Option (FaceConn × CornerConn) := do
  let cc' ← (List.range 2).foldlM (joinFaceCorners conn treeLeft treeRight faceLeft faceRight orientation) cc
  let a := 4 * treeLeft + faceLeft
  let b := 4 * treeRight + faceRight
  if a < conn.treeToTree.length ∧ b < conn.treeToTree.length ∧ a < conn.treeToFace.length ∧ b < conn.treeToFace.length then
    some (⟨conn.numTrees, (conn.treeToTree.set a treeRight).set b treeLeft,
      (conn.treeToFace.set a (faceRight + 4 * orientation)).set b (faceLeft + 4 * orientation)⟩, cc')
  else none

end P4est
