import Verif.Model.GhostCorner

/-! # Model of the corner part of `p4est_connectivity_is_valid`, in two dimensions -/

namespace P4est

/-- A loop of checks that ends at the first failure; `none` is an access out of bounds. -/
def checkAll {β : Type} (f : β → Option Bool) : List β → Option Bool
  | [] => some true
  | x :: l => do if ← f x then checkAll f l else some false

/-- The range check of the lists, src/p4est_connectivity.c:939-949, for one entry. -/
def cornerRangeCheck (numTrees : ℕ) (cc : CornerConn) (j : ℕ) : Option Bool := do
  let t ← cc.cornerToTree[j]?
  if t ≥ numTrees then some false
  else do
    let c ← cc.cornerToCorner[j]?
    some (decide (c < 4))

/-- One turn of the loop over the list of a corner, src/p4est_connectivity.c:1105-1121.  The state is `cfound`, or `none`
after a failure. -/
def cornerListStep (cc : CornerConn) (tree corner : ℕ) (acorner : ℤ) (s : Option Bool) (j : ℕ) : Option (Option Bool) :=
  match s with
  | none => some none
  | some found => do
    let ntree ← cc.cornerToTree[j]?
    let ncorner ← cc.cornerToCorner[j]?
    let v ← cc.treeToCorner[ntree * 4 + ncorner]?
    if v ≠ acorner then some none
    else if ntree = tree ∧ ncorner = corner then
      some (if found then none else some true)
    else some (some found)

/-- One corner of a tree, src/p4est_connectivity.c:1085-1132.  The transforms are computed first and not used. -/
def cornerCheck (conn : FaceConn) (cc : CornerConn) (tree corner : ℕ) : Option Bool := do
  let _ ← findCornerTransform conn cc tree corner
  let acorner ← cc.treeToCorner[tree * 4 + corner]?
  if acorner < -1 ∨ acorner ≥ cc.numCorners then some false
  else if acorner = -1 then some true
  else do
    let a ← index acorner
    let b ← cc.cttOffset[a]?
    let e ← cc.cttOffset[a + 1]?
    let numCtt ← cc.cttOffset[cc.numCorners]?
    if b ≥ numCtt ∨ e > numCtt then some false
    else do
      let s ← (List.range' b (e - b)).foldlM (cornerListStep cc tree corner acorner) (some false)
      some (s.getD false)

/-- The order of the offsets, src/p4est_connectivity.c:1077-1082, for one corner. -/
def offsetCheck (cc : CornerConn) (a : ℕ) : Option Bool := do
  let x ← cc.cttOffset[a]?
  let y ← cc.cttOffset[a + 1]?
  some (decide (x ≤ y))

/-- The corner part of `p4est_connectivity_is_valid`, src/p4est_connectivity.c:939-949 and 1077-1134.  The checks of
vertices, attributes and faces in between are left out. -/
def cornersCheck (conn : FaceConn) (cc : CornerConn) : Option Bool := do
  let numCtt ← cc.cttOffset[cc.numCorners]?
  if ← checkAll (cornerRangeCheck conn.numTrees cc) (List.range numCtt) then
    checkAll (fun tree => do
      if ← checkAll (offsetCheck cc) (List.range cc.numCorners) then
        if cc.numCorners > 0 then checkAll (cornerCheck conn cc tree) (List.range 4) else some true
      else some false) (List.range conn.numTrees)
  else some false

end P4est
