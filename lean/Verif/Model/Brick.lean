import Verif.Model.GhostCorner

/-! # The connectivity of a rectangular grid of trees, in two dimensions

`p4est_connectivity_new_brick`.  The vertices are modelled by their first two coordinates, which are integers; the third one is
always zero.  Integers are unbounded, and a size that does not fit into 32 bits gives `none`. -/

namespace P4est

/-- `SC_LOG2_32 (m - 1) + 1`, src/p4est_connectivity.c:2940-2941.  The macro belongs to libsc: it is the logarithm rounded down, and -1
for zero. -/
def brickLog (m : ℕ) : ℕ := if m - 1 = 0 then 0 else Nat.log2 (m - 1) + 1

/-- `logx[rankx[0]]`, src/p4est_connectivity.c:2943-2950. -/
def brickLow (lx ly : ℕ) : ℕ := if lx ≤ ly then lx else ly

/-- The value `tempx[k]` after the loop over `j`, src/p4est_connectivity.c:2780-2791, with `P4EST_DIM` = 2, `i` = 0 and `idx[k]` = `k`. -/
def brickGather (a ti k : ℕ) : ℕ :=
  (List.range a).foldl (fun t j => t ||| ((ti &&& (1 <<< (2 * j + k))) >>> (j + k))) 0

/-- `brick_linear_to_xyz`, src/p4est_connectivity.c:2753-2799.  In two dimensions the loop over `i` has one turn. -/
def brickCoords (lx ly ti : ℕ) : ℕ × ℕ :=
  let a := brickLow lx ly
  let high := (ti >>> (2 * a)) <<< a
  if lx ≤ ly then (brickGather a ti 0, brickGather a ti 1 + high) else (brickGather a ti 0 + high, brickGather a ti 1)

/-- One turn of the loop over `j` in `brick_xyz_to_linear`, src/p4est_connectivity.c:2833-2843. -/
def brickSpread (x y ti j : ℕ) : ℕ :=
  (ti ||| ((x &&& (1 <<< j)) <<< j)) ||| ((y &&& (1 <<< j)) <<< (j + 1))

/-- `brick_xyz_to_linear`, src/p4est_connectivity.c:2801-2847.  In two dimensions the loop over `i` has one turn. -/
def brickLinear (lx ly x y : ℕ) : ℕ :=
  let a := brickLow lx ly
  (List.range a).foldl (brickSpread x y) (((if lx ≤ ly then y else x) >>> a) <<< (2 * a))

/-- The arrays and counters of the first loop. -/
structure BrickNumbers where
  linearToTree : List ℤ
  treeToCorner2 : List ℤ
  tj : ℕ
  tk : ℕ

/-- One turn of the first loop, src/p4est_connectivity.c:2984-3047.  The entries are written in order, so they are appended. -/
def brickNumber (m n : ℕ) (pa pb : Bool) (lx ly : ℕ) (s : BrickNumbers) (ti : ℕ) : BrickNumbers :=
  let p := brickCoords lx ly ti
  if p.1 < m ∧ p.2 < n then
    if (p.1 < m - 1 ∨ pa) ∧ (p.2 < n - 1 ∨ pb) then
      ⟨s.linearToTree ++ [(s.tj : ℤ)], s.treeToCorner2 ++ [(s.tk : ℤ)], s.tj + 1, s.tk + 1⟩
    else ⟨s.linearToTree ++ [(s.tj : ℤ)], s.treeToCorner2 ++ [-1], s.tj + 1, s.tk⟩
  else { s with linearToTree := s.linearToTree ++ [-1] }

/-- The coordinate `((x + (s - 1)) + m) % m`, src/p4est_connectivity.c:3074-3075 and 3104-3105. -/
def brickWrap (m x s : ℕ) : ℕ := (x + s + m - 1) % m

/-- The tree at a position, with the assertions, as in src/p4est_connectivity.c:3079-3082. -/
def brickTree (lx ly : ℕ) (linearToTree : List ℤ) (x y : ℕ) : Option ℕ :=
  (linearToTree[brickLinear lx ly x y]?).bind index

/-- The entries `tf[l]`, src/p4est_connectivity.c:3070-3083. -/
def brickFaceTree (m n lx ly : ℕ) (linearToTree : List ℤ) (x y l : ℕ) : Option ℕ :=
  brickTree lx ly linearToTree (brickWrap m x (if l / 2 = 0 then 2 * (l % 2) else 1)) (brickWrap n y (if l / 2 = 1 then 2 * (l % 2) else 1))

/-- The entries `tc[i]`, src/p4est_connectivity.c:3103-3113. -/
def brickCornerTree (m n lx ly : ℕ) (linearToTree : List ℤ) (x y i : ℕ) : Option ℕ :=
  brickTree lx ly linearToTree (brickWrap m x (if i % 2 = 0 then 0 else 2)) (brickWrap n y (if (i / 2) % 2 = 0 then 0 else 2))

/-- The condition that side `j` of a tree is on the boundary, src/p4est_connectivity.c:3117-3118: `max` is `m - 1`. -/
def brickEnd (m : ℕ) (per : Bool) (x j : ℕ) : Bool := !per && ((x == 0 && j == 0) || (x == m - 1 && j == 1))

/-- The entries at face `l`, src/p4est_connectivity.c:3114-3126: the index, and what is written there into tree_to_tree and
tree_to_face. -/
def brickFace (m n : ℕ) (pa pb : Bool) (x y tj : ℕ) (tf : List ℕ) (l : ℕ) : Option (ℕ × ℕ × ℕ) :=
  if (if l / 2 = 0 then brickEnd m pa x (l % 2) else brickEnd n pb y (l % 2)) then some (tj * 4 + l, tj, l)
  else (tf[l]?).map fun t => (tj * 4 + l, t, l / 2 * 2 + ((l % 2) ^^^ 1))

/-- The tree whose number in `tree_to_corner2` is taken for corner `i`, src/p4est_connectivity.c:3190-3203. -/
def brickSource (tj : ℕ) (tf tc : List ℕ) : ℕ → Option ℕ
  | 0 => tc[0]?
  | 1 => tf[2]?
  | 2 => tf[0]?
  | 3 => some tj
  | _ => none

/-- The entries at corner `i`, src/p4est_connectivity.c:3169-3240: what is written into tree_to_corner, and into corner_to_tree and
corner_to_corner. -/
def brickCorner (m n : ℕ) (pa pb : Bool) (treeToCorner2 : List ℤ) (x y tj : ℕ) (tf tc : List ℕ) (i : ℕ) :
    Option ((ℕ × ℤ) × List (ℕ × ℕ × ℕ)) :=
  if brickEnd m pa x (i % 2) || brickEnd n pb y ((i / 2) % 2) then some ((tj * 4 + i, -1), [])
  else do
    let t ← brickSource tj tf tc i
    let v ← treeToCorner2[t]?
    let k ← index v
    some ((tj * 4 + i, (k : ℤ)), [(k * 4 + (3 - i), tj, i)])

/-- What one turn of the second loop writes into the arrays for faces and corners. -/
structure BrickWrites where
  faces : List (ℕ × ℕ × ℕ)
  treeCorners : List (ℕ × ℤ)
  corners : List (ℕ × ℕ × ℕ)

/-- The loop over the corners, src/p4est_connectivity.c:3169-3240.  Nothing is written if there are no corners. -/
def brickCorners (m n : ℕ) (pa pb : Bool) (numCorners : ℕ) (treeToCorner2 : List ℤ) (x y tj : ℕ) (tf tc : List ℕ) :
    Option (List ((ℕ × ℤ) × List (ℕ × ℕ × ℕ))) :=
  if numCorners = 0 then some [] else (List.range 4).mapM (brickCorner m n pa pb treeToCorner2 x y tj tf tc)

/-- One turn of the second loop without the vertices, src/p4est_connectivity.c:3054-3240.  The loop does not read these arrays, so its
effect is the list of what it writes. -/
def brickCell (m n : ℕ) (pa pb : Bool) (lx ly numCorners : ℕ) (s : BrickNumbers) (ti : ℕ) : Option BrickWrites :=
  let p := brickCoords lx ly ti
  if p.1 < m ∧ p.2 < n then do
    let tj ← (s.linearToTree[ti]?).bind index
    let tf ← (List.range 4).mapM (brickFaceTree m n lx ly s.linearToTree p.1 p.2)
    let tc ← (List.range 4).mapM (brickCornerTree m n lx ly s.linearToTree p.1 p.2)
    let fs ← (List.range 4).mapM (brickFace m n pa pb p.1 p.2 tj tf)
    let cs ← brickCorners m n pa pb numCorners s.treeToCorner2 p.1 p.2 tj tf tc
    some ⟨fs, cs.map Prod.fst, cs.flatMap Prod.snd⟩
  else some ⟨[], [], []⟩

/-- An array of the given size after a list of assignments; it has to be written everywhere, and nowhere out of bounds. -/
def storeAll {α : Type} (size : ℕ) (ws : List (ℕ × α)) : Option (List α) :=
  (ws.foldlM (fun (mem : List (Option α)) w => if w.1 < size then some (mem.set w.1 (some w.2)) else none) (List.replicate size none)).bind
    fun mem => mem.mapM id

/-- The arrays for the vertices: `vertices` contains the first two coordinates, and `vcount` is its length. -/
structure BrickVertices where
  treeToVertex : List ℤ
  vertices : List (ℕ × ℕ)

/-- The vertex at corner `i`, src/p4est_connectivity.c:3248-3268. -/
def brickVertex (numVertices x y tj : ℕ) (tf : List ℕ) (s : BrickVertices) (i : ℕ) : Option BrickVertices :=
  if y > 0 ∧ (i / 2) % 2 = 0 then do
    let t ← tf[2]?
    let v ← s.treeToVertex[t * 4 + i + 2]?
    some { s with treeToVertex := s.treeToVertex.set (tj * 4 + i) v }
  else if x > 0 ∧ i % 2 = 0 then do
    let t ← tf[0]?
    let v ← s.treeToVertex[t * 4 + i + 1]?
    some { s with treeToVertex := s.treeToVertex.set (tj * 4 + i) v }
  else if s.vertices.length < numVertices then
    some ⟨s.treeToVertex.set (tj * 4 + i) s.vertices.length, s.vertices ++ [(x + i % 2, y + (i / 2) % 2)]⟩
  else none

/-- The vertices in one turn of the second loop, src/p4est_connectivity.c:3169 and 3248-3268. -/
def brickVertexCell (m n lx ly numVertices : ℕ) (linearToTree : List ℤ) (s : BrickVertices) (ti : ℕ) : Option BrickVertices :=
  let p := brickCoords lx ly ti
  if p.1 < m ∧ p.2 < n then do
    let tj ← (linearToTree[ti]?).bind index
    let tf ← (List.range 4).mapM (brickFaceTree m n lx ly linearToTree p.1 p.2)
    (List.range 4).foldlM (brickVertex numVertices p.1 p.2 tj tf) s
  else some s

/-- The connectivity that is returned. -/
structure Brick where
  conn : FaceConn
  corners : CornerConn
  points : BrickVertices

/-- The second loop, src/p4est_connectivity.c:3054-3273. -/
def brickFill (m n : ℕ) (pa pb : Bool) (lx ly numCorners : ℕ) (s : BrickNumbers) : Option Brick := do
  let ws ← (List.range (2 ^ lx * 2 ^ ly)).mapM (brickCell m n pa pb lx ly numCorners s)
  let fs ← storeAll (4 * (m * n)) (ws.flatMap BrickWrites.faces)
  let tc ← storeAll (if numCorners = 0 then 0 else 4 * (m * n)) (ws.flatMap BrickWrites.treeCorners)
  let cs ← storeAll (4 * numCorners) (ws.flatMap BrickWrites.corners)
  let vs ← (List.range (2 ^ lx * 2 ^ ly)).foldlM (brickVertexCell m n lx ly ((m + 1) * (n + 1)) s.linearToTree)
    ⟨List.replicate (4 * (m * n)) (-1), []⟩
  if vs.vertices.length = (m + 1) * (n + 1) then
    some ⟨⟨m * n, fs.map Prod.fst, fs.map Prod.snd⟩,
      ⟨numCorners, tc, (List.range (numCorners + 1)).map (4 * ·), cs.map Prod.fst, cs.map Prod.snd⟩, vs⟩
  else none

/-- `p4est_connectivity_new_brick`, src/p4est_connectivity.c:2849-3284, in two dimensions.  The loop of the code that fills the arrays is
run once for faces and corners and once for vertices, since these are in different arrays. -/
def newBrick (m n : ℕ) (pa pb : Bool) : Option Brick :=
  let mc := if pa then m else m - 1
  let nc := if pb then n else n - 1
  let lx := brickLog m
  let ly := brickLog n
  if 0 < m ∧ 0 < n ∧ 2 ^ lx * 2 ^ ly < 2 ^ 31 ∧ 4 * (m * n) < 2 ^ 31 ∧ (m + 1) * (n + 1) < 2 ^ 31 then
    let s := (List.range (2 ^ lx * 2 ^ ly)).foldl (brickNumber m n pa pb lx ly) ⟨[], [], 0, 0⟩
    if s.tj = m * n ∧ s.tk = mc * nc then brickFill m n pa pb lx ly (mc * nc) s else none
  else none

end P4est
