import Verif.Lemmas.Brick

/-! # The second loop of the construction of a grid -/

namespace P4est

open Spec

section
variable {m n : ℕ} {pa pb : Bool}

/-- What is written at face `l` of the tree at a position. -/
def faceVal (m n : ℕ) (pa pb : Bool) (x y l : ℕ) : ℕ × ℕ :=
  if (if l / 2 = 0 then brickEnd m pa x (l % 2) else brickEnd n pb y (l % 2)) then (gridTree m n x y, l)
  else (gridTree m n (brickWrap m x (if l / 2 = 0 then 2 * (l % 2) else 1)) (brickWrap n y (if l / 2 = 1 then 2 * (l % 2) else 1)),
    l / 2 * 2 + ((l % 2) ^^^ 1))

/-- The corner is on the boundary. -/
def cornerEnd (m n : ℕ) (pa pb : Bool) (x y i : ℕ) : Bool := brickEnd m pa x (i % 2) || brickEnd n pb y ((i / 2) % 2)

/-- The number of the inner point at corner `i`. -/
def cornerNumber (m n : ℕ) (pa pb : Bool) (x y i : ℕ) : ℕ := gridCorner m n pa pb (brickWrap m x (i % 2)) (brickWrap n y ((i / 2) % 2))

/-- What is written at corner `i` of the tree at a position. -/
def cornerVal (m n : ℕ) (pa pb : Bool) (x y i : ℕ) : ℤ :=
  if cornerEnd m n pa pb x y i then -1 else cornerNumber m n pa pb x y i

theorem brickTree_spec {s : BrickNumbers} (hs : Numbered m n pa pb s) {x y : ℕ} (hx : x < m) (hy : y < n) :
    brickTree (brickLog m) (brickLog n) s.linearToTree x y = some (gridTree m n x y) := by
  unfold brickTree
  rw [show brickLinear (brickLog m) (brickLog n) x y = gridIndex m n x y from rfl, hs.tree x y hx hy]
  simp [index]

theorem brickCorner_spec {s : BrickNumbers} (hs : Numbered m n pa pb s) {x y : ℕ} (hx : x < m) (hy : y < n) {tf tc : List ℕ}
    (h0 : tc[0]? = some (gridTree m n (brickWrap m x 0) (brickWrap n y 0)))
    (h1 : tf[2]? = some (gridTree m n x (brickWrap n y 0))) (h2 : tf[0]? = some (gridTree m n (brickWrap m x 0) y)) {i : ℕ} (hi : i < 4) :
    brickCorner m n pa pb s.treeToCorner2 x y (gridTree m n x y) tf tc i = some ((gridTree m n x y * 4 + i, cornerVal m n pa pb x y i),
      if cornerEnd m n pa pb x y i then [] else [(cornerNumber m n pa pb x y i * 4 + (3 - i), gridTree m n x y, i)]) := by
  unfold brickCorner cornerVal
  by_cases he : cornerEnd m n pa pb x y i = true
  · rw [if_pos (show (brickEnd m pa x (i % 2) || brickEnd n pb y ((i / 2) % 2)) = true from he), if_pos he, if_pos he]
  · rw [if_neg (show ¬ (brickEnd m pa x (i % 2) || brickEnd n pb y ((i / 2) % 2)) = true from he), if_neg he, if_neg he]
    have hm : 0 < m := by omega
    have hn : 0 < n := by omega
    have src : brickSource (gridTree m n x y) tf tc i = some (gridTree m n (brickWrap m x (i % 2)) (brickWrap n y ((i / 2) % 2))) := by
      interval_cases i
      · exact h0
      · rw [show brickWrap m x (1 % 2) = x from wrap_one hx]; exact h1
      · rw [show brickWrap n y (2 / 2 % 2) = y from wrap_one hy]; exact h2
      · rw [show brickWrap m x (3 % 2) = x from wrap_one hx, show brickWrap n y (3 / 2 % 2) = y from wrap_one hy]; rfl
    rw [src]
    simp only [Option.bind_eq_bind, Option.bind_some]
    have he' : brickEnd m pa x (i % 2) = false ∧ brickEnd n pb y ((i / 2) % 2) = false := by
      simpa [cornerEnd] using he
    rw [hs.corner _ _ (wrap_lt hm _ _) (wrap_lt hn _ _),
      if_pos ⟨wrap_corner hx (by omega) he'.1, wrap_corner hy (by omega) he'.2⟩]
    simp [index, cornerNumber]

/-- What one turn of the second loop writes. -/
def cellWrites (m n : ℕ) (pa pb : Bool) (numCorners x y : ℕ) : BrickWrites :=
  ⟨(List.range 4).map fun l => (gridTree m n x y * 4 + l, faceVal m n pa pb x y l),
   if numCorners = 0 then [] else (List.range 4).map fun i => (gridTree m n x y * 4 + i, cornerVal m n pa pb x y i),
   if numCorners = 0 then [] else (List.range 4).flatMap fun i =>
    if cornerEnd m n pa pb x y i then [] else [(cornerNumber m n pa pb x y i * 4 + (3 - i), gridTree m n x y, i)]⟩

theorem faceTree_spec {s : BrickNumbers} (hs : Numbered m n pa pb s) (hm : 0 < m) (hn : 0 < n) (x y l : ℕ) :
    brickFaceTree m n (brickLog m) (brickLog n) s.linearToTree x y l = some
      (gridTree m n (brickWrap m x (if l / 2 = 0 then 2 * (l % 2) else 1)) (brickWrap n y (if l / 2 = 1 then 2 * (l % 2) else 1))) :=
  brickTree_spec hs (wrap_lt hm _ _) (wrap_lt hn _ _)

theorem faceTrees_spec {s : BrickNumbers} (hs : Numbered m n pa pb s) (hm : 0 < m) (hn : 0 < n) (x y : ℕ) :
    (List.range 4).mapM (brickFaceTree m n (brickLog m) (brickLog n) s.linearToTree x y) = some ((List.range 4).map fun l =>
      gridTree m n (brickWrap m x (if l / 2 = 0 then 2 * (l % 2) else 1)) (brickWrap n y (if l / 2 = 1 then 2 * (l % 2) else 1))) :=
  mapM_fun fun l _ => faceTree_spec hs hm hn x y l

theorem cornerTrees_spec {s : BrickNumbers} (hs : Numbered m n pa pb s) (hm : 0 < m) (hn : 0 < n) (x y : ℕ) :
    (List.range 4).mapM (brickCornerTree m n (brickLog m) (brickLog n) s.linearToTree x y) = some ((List.range 4).map fun i =>
      gridTree m n (brickWrap m x (if i % 2 = 0 then 0 else 2)) (brickWrap n y (if (i / 2) % 2 = 0 then 0 else 2))) :=
  mapM_fun fun _ _ => brickTree_spec hs (wrap_lt hm _ _) (wrap_lt hn _ _)

theorem cell_spec {s : BrickNumbers} (hs : Numbered m n pa pb s) {x y : ℕ} (hx : x < m) (hy : y < n) (numCorners : ℕ) :
    brickCell m n pa pb (brickLog m) (brickLog n) numCorners s (gridIndex m n x y) = some (cellWrites m n pa pb numCorners x y) := by
  have hm : 0 < m := by omega
  have hn : 0 < n := by omega
  unfold brickCell
  simp only
  rw [coords_index hx hy, if_pos ⟨hx, hy⟩, hs.tree x y hx hy]
  simp only [Option.bind_eq_bind, Option.bind_some]
  rw [show index (gridTree m n x y : ℤ) = some (gridTree m n x y) by simp [index], Option.bind_some, faceTrees_spec hs hm hn, Option.bind_some,
    cornerTrees_spec hs hm hn, Option.bind_some,
    mapM_fun (g := fun l => (gridTree m n x y * 4 + l, faceVal m n pa pb x y l)), Option.bind_some]
  · unfold brickCorners cellWrites
    by_cases hc : numCorners = 0
    · rw [if_pos hc, if_pos hc, if_pos hc]; rfl
    · rw [if_neg hc, if_neg hc, if_neg hc, mapM_fun (g := fun i => ((gridTree m n x y * 4 + i, cornerVal m n pa pb x y i),
        if cornerEnd m n pa pb x y i then [] else [(cornerNumber m n pa pb x y i * 4 + (3 - i), gridTree m n x y, i)])), Option.bind_some]
      · rw [List.map_map, List.flatMap_map]; rfl
      · intro i hi
        refine brickCorner_spec hs hx hy ?_ ?_ ?_ (List.mem_range.mp hi)
        · rfl
        · rw [List.getElem?_map, List.getElem?_range (by norm_num), Option.map_some]
          simp only [show ¬ (2 : ℕ) / 2 = 0 by decide, if_false, show (2 : ℕ) / 2 = 1 from rfl, if_true]
          rw [wrap_one hx]
        · rw [List.getElem?_map, List.getElem?_range (by norm_num), Option.map_some]
          simp only [show ¬ (0 : ℕ) / 2 = 1 by decide, if_false, show (0 : ℕ) / 2 = 0 from rfl, if_true]
          rw [wrap_one hy]
  · intro l hl
    unfold brickFace faceVal
    rw [List.getElem?_map, List.getElem?_range (List.mem_range.mp hl)]
    generalize (if l / 2 = 0 then brickEnd m pa x (l % 2) else brickEnd n pb y (l % 2)) = e
    cases e <;> rfl

theorem cells_spec {s : BrickNumbers} (hs : Numbered m n pa pb s) (numCorners : ℕ) :
    (List.range (gridSize m n)).mapM (brickCell m n pa pb (brickLog m) (brickLog n) numCorners s) = some ((List.range (gridSize m n)).map
      fun ti => if gridCell m n ti then cellWrites m n pa pb numCorners (brickCoords (brickLog m) (brickLog n) ti).1
        (brickCoords (brickLog m) (brickLog n) ti).2 else ⟨[], [], []⟩) := by
  refine mapM_fun fun ti _ => ?_
  by_cases h : gridCell m n ti
  · obtain ⟨x, y, hx, hy, rfl, e⟩ := gridCell_eq h
    rw [if_pos h, e, cell_spec hs hx hy]
  · rw [if_neg h]
    unfold brickCell
    simp only
    rw [if_neg (show ¬ (_ ∧ _) from h)]

theorem mem_writes {β : Type} {numCorners : ℕ} (get : BrickWrites → List β) (h0 : get ⟨[], [], []⟩ = []) (w : β) :
    w ∈ ((List.range (gridSize m n)).map fun ti => if gridCell m n ti then
      cellWrites m n pa pb numCorners (brickCoords (brickLog m) (brickLog n) ti).1 (brickCoords (brickLog m) (brickLog n) ti).2
      else ⟨[], [], []⟩).flatMap get ↔ ∃ x y, x < m ∧ y < n ∧ w ∈ get (cellWrites m n pa pb numCorners x y) := by
  rw [List.mem_flatMap]
  constructor
  · rintro ⟨ws, hws, hw⟩
    obtain ⟨ti, hti, rfl⟩ := List.mem_map.mp hws
    by_cases h : gridCell m n ti
    · rw [if_pos h] at hw
      exact ⟨_, _, h.1, h.2, hw⟩
    · rw [if_neg h, h0] at hw
      simp at hw
  · rintro ⟨x, y, hx, hy, hw⟩
    refine ⟨_, List.mem_map.mpr ⟨gridIndex m n x y, List.mem_range.mpr (index_lt hx hy), rfl⟩, ?_⟩
    rw [if_pos (cell_index hx hy), coords_index hx hy]
    exact hw

theorem wrap_not_end {x c : ℕ} (hx : x < rowCorners m pa) (hc : c < 2) : brickEnd m pa (brickWrap m x (2 - c)) c = false := by
  have hxm := hx.trans_le (rowCorners_le _ _)
  rw [wrap_cases hxm (by omega)]
  unfold rowCorners at hx
  unfold brickEnd
  cases pa
  · simp only [Bool.false_eq_true, if_false] at hx
    rcases Nat.eq_zero_or_pos c with rfl | hc'
    · rw [if_neg (by omega), if_pos (by omega)]
      simp
    · have : c = 1 := by omega
      subst this
      rw [if_neg (by omega), if_pos (by omega)]
      simp
      omega
  · simp

/-- The arrays of faces. -/
noncomputable def faceArray (m n : ℕ) (pa pb : Bool) (p : ℕ) : ℕ × ℕ :=
  faceVal m n pa pb (gridPos m n (p / 4)).1 (gridPos m n (p / 4)).2 (p % 4)

/-- The array of the corners of trees. -/
noncomputable def cornerArray (m n : ℕ) (pa pb : Bool) (p : ℕ) : ℤ :=
  cornerVal m n pa pb (gridPos m n (p / 4)).1 (gridPos m n (p / 4)).2 (p % 4)

/-- The arrays of the trees at corners. -/
noncomputable def listArray (m n : ℕ) (pa pb : Bool) (p : ℕ) : ℕ × ℕ :=
  (gridTree m n (brickWrap m (cornerPos m n pa pb (p / 4)).1 (2 - (3 - p % 4) % 2))
    (brickWrap n (cornerPos m n pa pb (p / 4)).2 (2 - ((3 - p % 4) / 2) % 2)), 3 - p % 4)

theorem mem_cases {p : ℕ} (hp : p < 4 * (m * n)) : ∃ x y l, x < m ∧ y < n ∧ l < 4 ∧ p = gridTree m n x y * 4 + l := by
  obtain ⟨x, y, hx, hy, h⟩ := exists_gridTree (show p / 4 < m * n by omega)
  exact ⟨x, y, p % 4, hx, hy, by omega, by omega⟩

theorem faces_store {numCorners : ℕ} : storeAll (4 * (m * n)) (((List.range (gridSize m n)).map fun ti => if gridCell m n ti then
      cellWrites m n pa pb numCorners (brickCoords (brickLog m) (brickLog n) ti).1 (brickCoords (brickLog m) (brickLog n) ti).2
      else ⟨[], [], []⟩).flatMap BrickWrites.faces) = some ((List.range (4 * (m * n))).map (faceArray m n pa pb)) := by
  apply storeAll_spec
  · intro w hw
    obtain ⟨x, y, hx, hy, hw⟩ := (mem_writes BrickWrites.faces rfl w).mp hw
    obtain ⟨l, hl, rfl⟩ := List.mem_map.mp hw
    have hl := List.mem_range.mp hl
    have := gridTree_lt hx hy
    refine ⟨by simp only; omega, ?_⟩
    simp only [faceArray]
    rw [show (gridTree m n x y * 4 + l) / 4 = gridTree m n x y by omega, show (gridTree m n x y * 4 + l) % 4 = l by omega,
      gridPos_tree hx hy]
  · intro p hp
    obtain ⟨x, y, l, hx, hy, hl, rfl⟩ := mem_cases hp
    exact ⟨_, (mem_writes BrickWrites.faces rfl _).mpr ⟨x, y, hx, hy, List.mem_map.mpr ⟨l, List.mem_range.mpr hl, rfl⟩⟩, rfl⟩

theorem treeCorners_store {numCorners : ℕ} : storeAll (if numCorners = 0 then 0 else 4 * (m * n))
    (((List.range (gridSize m n)).map fun ti => if gridCell m n ti then
      cellWrites m n pa pb numCorners (brickCoords (brickLog m) (brickLog n) ti).1 (brickCoords (brickLog m) (brickLog n) ti).2
      else ⟨[], [], []⟩).flatMap BrickWrites.treeCorners) =
    some ((List.range (if numCorners = 0 then 0 else 4 * (m * n))).map (cornerArray m n pa pb)) := by
  apply storeAll_spec
  · intro w hw
    obtain ⟨x, y, hx, hy, hw⟩ := (mem_writes BrickWrites.treeCorners rfl w).mp hw
    unfold cellWrites at hw
    simp only at hw
    split at hw
    · simp at hw
    · rename_i hc
      obtain ⟨l, hl, rfl⟩ := List.mem_map.mp hw
      have hl := List.mem_range.mp hl
      have := gridTree_lt hx hy
      refine ⟨by rw [if_neg hc]; simp only; omega, ?_⟩
      simp only [cornerArray]
      rw [show (gridTree m n x y * 4 + l) / 4 = gridTree m n x y by omega, show (gridTree m n x y * 4 + l) % 4 = l by omega,
        gridPos_tree hx hy]
  · intro p hp
    split at hp
    · omega
    · rename_i hc
      obtain ⟨x, y, l, hx, hy, hl, rfl⟩ := mem_cases hp
      refine ⟨_, (mem_writes BrickWrites.treeCorners rfl (_, cornerVal m n pa pb x y l)).mpr ⟨x, y, hx, hy, ?_⟩, rfl⟩
      unfold cellWrites
      simp only
      rw [if_neg hc]
      exact List.mem_map.mpr ⟨l, List.mem_range.mpr hl, rfl⟩

theorem corners_store : storeAll (4 * (rowCorners m pa * rowCorners n pb))
    (((List.range (gridSize m n)).map fun ti => if gridCell m n ti then
      cellWrites m n pa pb (rowCorners m pa * rowCorners n pb) (brickCoords (brickLog m) (brickLog n) ti).1
      (brickCoords (brickLog m) (brickLog n) ti).2 else ⟨[], [], []⟩).flatMap BrickWrites.corners) =
    some ((List.range (4 * (rowCorners m pa * rowCorners n pb))).map (listArray m n pa pb)) := by
  apply storeAll_spec
  · intro w hw
    obtain ⟨x, y, hx, hy, hw⟩ := (mem_writes BrickWrites.corners rfl w).mp hw
    unfold cellWrites at hw
    simp only at hw
    split at hw
    · simp at hw
    · obtain ⟨i, hi, hw⟩ := List.mem_flatMap.mp hw
      have hi := List.mem_range.mp hi
      split at hw
      · simp at hw
      · rename_i he
        obtain rfl := List.mem_singleton.mp hw
        have he' : brickEnd m pa x (i % 2) = false ∧ brickEnd n pb y ((i / 2) % 2) = false := by
          simpa [cornerEnd] using he
        have g1 := wrap_corner hx (by omega) he'.1
        have g2 := wrap_corner hy (by omega) he'.2
        have g3 := gridCorner_lt g1 g2
        refine ⟨by simp only [cornerNumber]; omega, ?_⟩
        simp only [listArray, cornerNumber]
        rw [show ∀ k, (k * 4 + (3 - i)) / 4 = k by omega, show ∀ k, (k * 4 + (3 - i)) % 4 = 3 - i by omega,
          show 3 - (3 - i) = i by omega, cornerPos_corner g1 g2]
        simp only
        rw [wrap_back hx (by omega), wrap_back hy (by omega)]
  · intro p hp
    obtain ⟨x, y, hx, hy, h⟩ := exists_gridCorner (m := m) (n := n) (pa := pa) (pb := pb) (show p / 4 < _ by omega)
    have hxm := hx.trans_le (rowCorners_le _ _)
    have hyn := hy.trans_le (rowCorners_le _ _)
    obtain ⟨i, hi, hpi⟩ : ∃ i < 4, p % 4 = 3 - i := ⟨3 - p % 4, by omega, by omega⟩
    have b1 := wrap_not_end hx (c := i % 2) (by omega)
    have b2 := wrap_not_end hy (c := (i / 2) % 2) (by omega)
    have w1 := wrap_back hxm (s := 2 - i % 2) (by omega)
    have w2 := wrap_back hyn (s := 2 - (i / 2) % 2) (by omega)
    rw [show 2 - (2 - i % 2) = i % 2 by omega] at w1
    rw [show 2 - (2 - (i / 2) % 2) = (i / 2) % 2 by omega] at w2
    refine ⟨(p, gridTree m n (brickWrap m x (2 - i % 2)) (brickWrap n y (2 - (i / 2) % 2)), i), (mem_writes BrickWrites.corners rfl _).mpr
      ⟨_, _, wrap_lt (by omega) x (2 - i % 2), wrap_lt (by omega) y (2 - (i / 2) % 2), ?_⟩, rfl⟩
    unfold cellWrites
    simp only
    rw [if_neg (by intro h0; rw [h0] at hp; omega), List.mem_flatMap]
    refine ⟨i, List.mem_range.mpr hi, ?_⟩
    rw [if_neg (by unfold cornerEnd; rw [b1, b2]; simp), List.mem_singleton]
    unfold cornerNumber
    rw [w1, w2, ← h]
    congr 1
    omega

end

end P4est
