import Verif.Lemmas.BrickVertices
import Verif.Props.Canonical

/-! # C76: a rectangular grid of trees -/

namespace P4est

open Spec

section
variable {m n : ℕ} {pa pb : Bool}

/-! ## Rows -/

theorem next_eq {x : ℕ} (hx : x < m) (up : Bool) : nextInRow m pa up x =
    if brickEnd m pa x up.toNat then none else some (brickWrap m x (2 * up.toNat)) := by
  rw [wrap_cases hx (by cases up <;> decide)]
  unfold nextInRow brickEnd
  cases up <;> cases pa <;> simp <;> grind

theorem next_back {x x' : ℕ} {up : Bool} (hx : x < m) (h : nextInRow m pa up x = some x') : x' < m ∧ nextInRow m pa (!up) x' = some x := by
  unfold nextInRow at h ⊢
  cases up <;> cases pa <;> simp at h ⊢ <;> grind

theorem point_eq {x : ℕ} (hx : x ≤ m) : pointInRow m pa x = if pa ∧ x = m then 0 else x := by
  unfold pointInRow
  cases pa
  · simp
  · simp only [if_true, true_and]
    split
    · rename_i h; rw [h, Nat.mod_self]
    · exact Nat.mod_eq_of_lt (by omega)

theorem next_point {x x' : ℕ} {up : Bool} (hx : x < m) (h : nextInRow m pa up x = some x') :
    pointInRow m pa (x' + (!up).toNat) = pointInRow m pa (x + up.toNat) := by
  have h' := (next_back hx h).1
  rw [point_eq (by cases up <;> simp <;> omega), point_eq (by cases up <;> simp <;> omega)]
  unfold nextInRow at h
  cases up <;> cases pa <;> simp at h ⊢ <;> grind

theorem point_next {x x' : ℕ} {c c' : Bool} (hx : x < m) (hx' : x' < m)
    (h : pointInRow m pa (x' + c'.toNat) = pointInRow m pa (x + c.toNat)) :
    (x' = x ∧ c' = c) ∨ (c' = !c ∧ nextInRow m pa c x = some x') := by
  rw [point_eq (by cases c' <;> simp <;> omega), point_eq (by cases c <;> simp <;> omega)] at h
  unfold nextInRow
  cases c <;> cases c' <;> cases pa <;> simp at h ⊢ <;> grind

theorem end_iff {x : ℕ} (hx : x < m) (c : Bool) : brickEnd m pa x c.toNat = false ↔ pa = true ∨ 0 < x + c.toNat ∧ x + c.toNat < m := by
  unfold brickEnd
  cases c <;> cases pa <;> simp <;> omega

theorem wrap_point {x x' : ℕ} {c c' : Bool} (hx : x < m) (hx' : x' < m) (h : brickEnd m pa x c.toNat = false) :
    (brickEnd m pa x' c'.toNat = false ∧ brickWrap m x' c'.toNat = brickWrap m x c.toNat) ↔
      pointInRow m pa (x + c.toNat) = pointInRow m pa (x' + c'.toNat) := by
  have b : ∀ c : Bool, c.toNat ≤ 1 := by decide
  have b1 := b c
  have b2 := b c'
  rw [end_iff hx] at h
  rw [end_iff hx', wrap_cases hx (by omega), wrap_cases hx' (by omega), point_eq (by omega), point_eq (by omega)]
  cases pa <;> simp at h ⊢ <;> grind

/-! ## Faces -/

/-- The opposite face. -/
def oppositeFace (f : ℕ) : ℕ := if f.testBit 0 then f - 1 else f + 1

theorem faceVal_next {x y f : ℕ} (hx : x < m) (hy : y < n) (hf : f < 4) : faceVal m n pa pb x y f =
    match nextInGrid m n pa pb (x, y) f with
    | none => (gridTree m n x y, f)
    | some p => (gridTree m n p.1 p.2, oppositeFace f) := by
  unfold faceVal nextInGrid oppositeFace
  simp only
  rw [next_eq hx, next_eq hy]
  interval_cases f
  · cases h : brickEnd m pa x 0 <;> simp [h, Nat.testBit, wrap_one hy]
  · cases h : brickEnd m pa x 1 <;> simp [h, Nat.testBit, wrap_one hy]
  · cases h : brickEnd n pb y 0 <;> simp [h, Nat.testBit, wrap_one hx]
  · cases h : brickEnd n pb y 1 <;> simp [h, Nat.testBit, wrap_one hx]

theorem opposite_lt {f : ℕ} (hf : f < 4) : oppositeFace f < 4 ∧ oppositeFace (oppositeFace f) = f ∧ oppositeFace f ≠ f := by
  interval_cases f <;> decide

theorem grid_back {p q : ℕ × ℕ} {f : ℕ} (hp : p.1 < m ∧ p.2 < n) (hf : f < 4) (h : nextInGrid m n pa pb p f = some q) :
    (q.1 < m ∧ q.2 < n) ∧ nextInGrid m n pa pb q (oppositeFace f) = some p := by
  unfold nextInGrid at h ⊢
  interval_cases f <;> simp [Nat.testBit, oppositeFace] at h ⊢ <;> obtain ⟨z, h, rfl⟩ := h <;>
    first
    | exact ⟨⟨(next_back hp.1 h).1, hp.2⟩, _, (next_back hp.1 h).2, rfl⟩
    | exact ⟨⟨hp.1, (next_back hp.2 h).1⟩, _, (next_back hp.2 h).2, rfl⟩

/-- The tables of the result. -/
structure BrickArrays (m n : ℕ) (pa pb : Bool) (b : Brick) : Prop where
  conn : b.conn = ⟨m * n, ((List.range (4 * (m * n))).map (faceArray m n pa pb)).map Prod.fst,
    ((List.range (4 * (m * n))).map (faceArray m n pa pb)).map Prod.snd⟩
  corners : b.corners = ⟨rowCorners m pa * rowCorners n pb,
    (List.range (if rowCorners m pa * rowCorners n pb = 0 then 0 else 4 * (m * n))).map (cornerArray m n pa pb),
    (List.range (rowCorners m pa * rowCorners n pb + 1)).map (4 * ·),
    ((List.range (4 * (rowCorners m pa * rowCorners n pb))).map (listArray m n pa pb)).map Prod.fst,
    ((List.range (4 * (rowCorners m pa * rowCorners n pb))).map (listArray m n pa pb)).map Prod.snd⟩
  points : VInv m n (gridSize m n) 0 b.points

theorem newBrick_arrays (hm : 0 < m) (hn : 0 < n) (h : 4 * (m * n) < 2 ^ 31) : ∃ b, newBrick m n pa pb = some b ∧ BrickArrays m n pa pb b := by
  obtain ⟨h1, h2, h3⟩ := numbers_spec m n pa pb
  obtain ⟨vs, v1, v2⟩ := vertices_spec h3
  have hl : 2 ^ brickLog m * 2 ^ brickLog n < 2 ^ 31 := by
    have a1 := brickLog_le hm
    have a2 := brickLog_le hn
    have : 2 ^ brickLog m * 2 ^ brickLog n ≤ (2 * m) * (2 * n) := Nat.mul_le_mul a1.le a2.le
    have e : (2 * m) * (2 * n) = 4 * (m * n) := by ring
    omega
  have hv : (m + 1) * (n + 1) < 2 ^ 31 := by
    have : (m + 1) * (n + 1) ≤ (2 * m) * (2 * n) := Nat.mul_le_mul (by omega) (by omega)
    have e : (2 * m) * (2 * n) = 4 * (m * n) := by ring
    omega
  refine ⟨⟨_, _, vs⟩, ?_, ⟨rfl, rfl, v2⟩⟩
  unfold newBrick
  simp only
  rw [if_pos ⟨hm, hn, hl, h, hv⟩, show 2 ^ brickLog m * 2 ^ brickLog n = gridSize m n from rfl]
  rw [if_pos ⟨h1, h2⟩]
  unfold brickFill
  rw [show 2 ^ brickLog m * 2 ^ brickLog n = gridSize m n from rfl,
    show ((if pa then m else m - 1) * if pb then n else n - 1) = rowCorners m pa * rowCorners n pb from rfl, cells_spec h3]
  simp only [Option.bind_eq_bind, Option.bind_some]
  rw [faces_store, Option.bind_some, treeCorners_store, Option.bind_some, corners_store, Option.bind_some, v1, Option.bind_some,
    if_pos (vInv_length hm hn v2)]

variable {b : Brick}

theorem face_entry (hb : BrickArrays m n pa pb b) {x y f : ℕ} (hx : x < m) (hy : y < n) (hf : f < 4) :
    b.conn.treeToTree[4 * gridTree m n x y + f]? = some (faceVal m n pa pb x y f).1 ∧
    b.conn.treeToFace[4 * gridTree m n x y + f]? = some (faceVal m n pa pb x y f).2 := by
  have hlt := gridTree_lt hx hy
  have e : faceArray m n pa pb (4 * gridTree m n x y + f) = faceVal m n pa pb x y f := by
    unfold faceArray
    rw [show (4 * gridTree m n x y + f) / 4 = gridTree m n x y by omega, show (4 * gridTree m n x y + f) % 4 = f by omega,
      gridPos_tree hx hy]
  rw [hb.conn]
  simp only [List.getElem?_map]
  rw [List.getElem?_range (by omega)]
  simp [e]

theorem brick_faces (hb : BrickArrays m n pa pb b) : FaceConsistent 2 b.conn := by
  have hnt : b.conn.numTrees = m * n := by rw [hb.conn]
  have key : ∀ t f, t < b.conn.numTrees → f < 2 * 2 → ∃ x y, x < m ∧ y < n ∧ t = gridTree m n x y ∧
      b.conn.treeToTree[2 * 2 * t + f]? = some (faceVal m n pa pb x y f).1 ∧
      b.conn.treeToFace[2 * 2 * t + f]? = some (faceVal m n pa pb x y f).2 := by
    intro t f ht hf
    rw [hnt] at ht
    obtain ⟨x, y, hx, hy, rfl⟩ := exists_gridTree ht
    exact ⟨x, y, hx, hy, rfl, face_entry hb hx hy hf⟩
  refine ⟨by rw [hb.conn]; simp, by rw [hb.conn]; simp, ?_, ?_, ?_⟩
  · intro t f t' c ht hf h1 h2
    obtain ⟨x, y, hx, hy, rfl, e1, e2⟩ := key t f ht hf
    rw [e1, Option.some_inj] at h1
    rw [e2, Option.some_inj] at h2
    rw [faceVal_next hx hy hf] at h1 h2
    rw [hnt]
    have := opposite_lt hf
    cases h : nextInGrid m n pa pb (x, y) f with
    | none =>
      rw [h] at h1 h2
      simp only at h1 h2
      refine ⟨by rw [← h1]; exact gridTree_lt hx hy, by norm_num; omega⟩
    | some p =>
      rw [h] at h1 h2
      simp only at h1 h2
      obtain ⟨g, -⟩ := grid_back (p := (x, y)) ⟨hx, hy⟩ hf h
      refine ⟨by rw [← h1]; exact gridTree_lt g.1 g.2, by norm_num; omega⟩
  · intro t f t' nf o ht hf hnf h1 h2
    obtain ⟨x, y, hx, hy, rfl, e1, e2⟩ := key t f ht hf
    rw [e1, Option.some_inj] at h1
    have h2' := h2
    rw [e2, Option.some_inj] at h2
    rw [faceVal_next hx hy hf] at h1 h2
    have hop := opposite_lt hf
    cases h : nextInGrid m n pa pb (x, y) f with
    | none =>
      rw [h] at h1 h2
      simp only at h1 h2
      have ho : o = 0 := by omega
      subst ho
      have : nf = f := by omega
      subst this
      rw [← h1]
      exact ⟨by rw [e1, faceVal_next hx hy hf, h], h2'⟩
    | some p =>
      rw [h] at h1 h2
      simp only at h1 h2
      have ho : o = 0 := by omega
      subst ho
      obtain ⟨g, gb⟩ := grid_back (p := (x, y)) ⟨hx, hy⟩ hf h
      have : nf = oppositeFace f := by omega
      subst this
      rw [← h1]
      obtain ⟨k1, k2⟩ := face_entry (f := oppositeFace f) hb g.1 g.2 (by omega)
      rw [faceVal_next g.1 g.2 (by omega), gb] at k1 k2
      simp only at k1 k2
      rw [hop.2.1] at k2
      exact ⟨k1, k2⟩
  · intro t f o ht hf h1 h2
    obtain ⟨x, y, hx, hy, rfl, e1, e2⟩ := key t f ht hf
    rw [e2, Option.some_inj, faceVal_next hx hy hf] at h2
    have := opposite_lt hf
    cases h : nextInGrid m n pa pb (x, y) f with
    | none => rw [h] at h2; simp only at h2; omega
    | some p => rw [h] at h2; simp only at h2; omega

/-! ## Corners -/

theorem corner_entry (hb : BrickArrays m n pa pb b) (h0 : b.corners.numCorners ≠ 0) {x y c : ℕ} (hx : x < m) (hy : y < n) (hc : c < 4) :
    b.corners.treeToCorner[4 * gridTree m n x y + c]? = some (cornerVal m n pa pb x y c) := by
  have hlt := gridTree_lt hx hy
  have e : cornerArray m n pa pb (4 * gridTree m n x y + c) = cornerVal m n pa pb x y c := by
    unfold cornerArray
    rw [show (4 * gridTree m n x y + c) / 4 = gridTree m n x y by omega, show (4 * gridTree m n x y + c) % 4 = c by omega,
      gridPos_tree hx hy]
  rw [hb.corners] at h0 ⊢
  simp only at h0 ⊢
  rw [if_neg h0, List.getElem?_map, List.getElem?_range (by omega), Option.map_some, e]

theorem cornerVal_eq {x y c k : ℕ} : cornerVal m n pa pb x y c = (k : ℤ) ↔
    cornerEnd m n pa pb x y c = false ∧ cornerNumber m n pa pb x y c = k := by
  unfold cornerVal
  cases cornerEnd m n pa pb x y c
  · simp
  · simp only [if_true]
    constructor
    · intro h; omega
    · rintro ⟨h, -⟩; exact absurd h (by simp)

theorem cornerEnd_eq {x y c : ℕ} : cornerEnd m n pa pb x y c = false ↔
    brickEnd m pa x (c % 2) = false ∧ brickEnd n pb y ((c / 2) % 2) = false := by
  simp [cornerEnd]

theorem cornerNumber_lt {x y c : ℕ} (hx : x < m) (hy : y < n) (h : cornerEnd m n pa pb x y c = false) :
    cornerNumber m n pa pb x y c < rowCorners m pa * rowCorners n pb := by
  have := cornerEnd_eq.mp h
  exact gridCorner_lt (wrap_corner hx (by omega) this.1) (wrap_corner hy (by omega) this.2)

theorem listed_iff (hb : BrickArrays m n pa pb b) {k t c : ℕ} (hk : k < b.corners.numCorners) : Listed b.corners k t c ↔
    c < 4 ∧ ∃ x y, x < m ∧ y < n ∧ t = gridTree m n x y ∧ cornerEnd m n pa pb x y c = false ∧ cornerNumber m n pa pb x y c = k := by
  have hnc : b.corners.numCorners = rowCorners m pa * rowCorners n pb := by rw [hb.corners]
  rw [hnc] at hk
  have off : ∀ k, k ≤ rowCorners m pa * rowCorners n pb → b.corners.cttOffset[k]? = some (4 * k) := by
    intro k hk
    rw [hb.corners]
    simp only [List.getElem?_map]
    rw [List.getElem?_range (by omega)]
    rfl
  have ent : ∀ p, p < 4 * (rowCorners m pa * rowCorners n pb) → b.corners.cornerToTree[p]? = some (listArray m n pa pb p).1 ∧
      b.corners.cornerToCorner[p]? = some (listArray m n pa pb p).2 := by
    intro p hp
    rw [hb.corners]
    simp only [List.getElem?_map]
    rw [List.getElem?_range hp]
    exact ⟨rfl, rfl⟩
  constructor
  · rintro ⟨a, e, p, h1, h2, h3, h4, h5, h6⟩
    rw [off k (by omega), Option.some_inj] at h1
    rw [off (k + 1) (by omega), Option.some_inj] at h2
    obtain ⟨g1, g2⟩ := ent p (by omega)
    rw [g1, Option.some_inj] at h5
    rw [g2, Option.some_inj] at h6
    obtain ⟨x, y, hx, hy, hxy⟩ := exists_gridCorner hk
    have hpk : p / 4 = k := by omega
    unfold listArray at h5 h6
    simp only at h5 h6
    rw [h6, hpk, hxy, cornerPos_corner hx hy] at h5
    simp only at h5
    have hxm := hx.trans_le (rowCorners_le _ _)
    have hyn := hy.trans_le (rowCorners_le _ _)
    have w1 := wrap_back hxm (s := 2 - c % 2) (by omega)
    have w2 := wrap_back hyn (s := 2 - (c / 2) % 2) (by omega)
    rw [show 2 - (2 - c % 2) = c % 2 by omega] at w1
    rw [show 2 - (2 - (c / 2) % 2) = (c / 2) % 2 by omega] at w2
    refine ⟨by omega, _, _, wrap_lt (by omega) _ _, wrap_lt (by omega) _ _, h5.symm,
      cornerEnd_eq.mpr ⟨wrap_not_end hx (by omega), wrap_not_end hy (by omega)⟩, ?_⟩
    unfold cornerNumber
    rw [w1, w2, hxy]
  · rintro ⟨hc, x, y, hx, hy, rfl, he, hn⟩
    have := cornerEnd_eq.mp he
    have g1 := wrap_corner hx (by omega) this.1
    have g2 := wrap_corner hy (by omega) this.2
    obtain ⟨k1, k2⟩ := ent (4 * k + (3 - c)) (by omega)
    have e : listArray m n pa pb (4 * k + (3 - c)) = (gridTree m n x y, c) := by
      unfold listArray
      rw [show (4 * k + (3 - c)) / 4 = k by omega, show (4 * k + (3 - c)) % 4 = 3 - c by omega, show 3 - (3 - c) = c by omega, ← hn]
      unfold cornerNumber
      rw [cornerPos_corner g1 g2]
      simp only
      rw [wrap_back hx (by omega), wrap_back hy (by omega)]
    rw [e] at k1 k2
    exact ⟨4 * k, 4 * (k + 1), 4 * k + (3 - c), off k (by omega), off (k + 1) (by omega), by omega, by omega, k1, k2⟩

theorem brick_corners (hm : 0 < m) (hn : 0 < n) (hb : BrickArrays m n pa pb b) : CornerConsistent (m * n) b.corners := by
  have hnc : b.corners.numCorners = rowCorners m pa * rowCorners n pb := by rw [hb.corners]
  refine ⟨⟨?_, ?_, ?_, ?_⟩, ?_, ?_, ?_, ?_, ?_, ?_⟩
  · intro h
    rw [hb.corners] at h ⊢
    simp only at h ⊢
    rw [if_neg h]
    simp
  · rw [hb.corners]; simp
  · rw [hb.corners]
    simp only [List.getElem?_map, List.length_map, List.length_range]
    rw [List.getElem?_range (by omega)]
    rfl
  · rw [hb.corners]; simp
  · intro k u v h1 h2
    rw [hb.corners] at h1 h2
    simp only [List.getElem?_map] at h1 h2
    obtain ⟨k1, e1, rfl⟩ := Option.map_eq_some_iff.mp h1
    obtain ⟨k2, e2, rfl⟩ := Option.map_eq_some_iff.mp h2
    obtain ⟨l1, e1⟩ := List.getElem?_eq_some_iff.mp e1
    obtain ⟨l2, e2⟩ := List.getElem?_eq_some_iff.mp e2
    rw [List.getElem_range] at e1 e2
    omega
  · intro t ht
    rw [hb.corners] at ht
    simp only [List.map_map, List.mem_map] at ht
    obtain ⟨p, -, rfl⟩ := ht
    exact gridTree_lt (wrap_lt hm _ _) (wrap_lt hn _ _)
  · intro c hc
    rw [hb.corners] at hc
    simp only [List.map_map, List.mem_map] at hc
    obtain ⟨p, -, rfl⟩ := hc
    simp only [Function.comp, listArray]
    omega
  · intro h0 t c v ht hc hv
    obtain ⟨x, y, hx, hy, rfl⟩ := exists_gridTree ht
    rw [corner_entry hb h0 hx hy hc, Option.some_inj] at hv
    cases he : cornerEnd m n pa pb x y c with
    | true =>
      left
      rw [← hv]
      unfold cornerVal
      rw [he]; rfl
    | false =>
      right
      have hlt := cornerNumber_lt hx hy he
      rw [← hnc] at hlt
      exact ⟨_, by rw [← hv]; exact cornerVal_eq.mpr ⟨he, rfl⟩, hlt, (listed_iff hb hlt).mpr ⟨hc, x, y, hx, hy, rfl, he, rfl⟩⟩
  · intro t c k u v i j ht hc hk h1 h2 h3 h4 h5 h6 h7 h8 h9 h10 h11
    have off : ∀ k w, b.corners.cttOffset[k]? = some w → w = 4 * k := by
      intro k w h
      rw [hb.corners] at h
      simp only [List.getElem?_map] at h
      obtain ⟨k1, e1, rfl⟩ := Option.map_eq_some_iff.mp h
      obtain ⟨l1, e1⟩ := List.getElem?_eq_some_iff.mp e1
      rw [List.getElem_range] at e1
      omega
    have co : ∀ i, b.corners.cornerToCorner[i]? = some c → 3 - i % 4 = c := by
      intro i h
      rw [hb.corners] at h
      simp only [List.getElem?_map] at h
      obtain ⟨z, e1, rfl⟩ := Option.map_eq_some_iff.mp h
      obtain ⟨w, e2, rfl⟩ := Option.map_eq_some_iff.mp e1
      obtain ⟨l1, e3⟩ := List.getElem?_eq_some_iff.mp e2
      rw [List.getElem_range] at e3
      subst e3
      rfl
    have := off _ _ h2
    have := off _ _ h3
    have := co _ h9
    have := co _ h11
    omega
  · intro t c k t' c' ht hc hk h1 h2
    obtain ⟨hc', x, y, hx, hy, rfl, he, hn⟩ := (listed_iff hb hk).mp h2
    rw [corner_entry hb (by omega) hx hy hc', cornerVal_eq.mpr ⟨he, hn⟩]

theorem bit_mod (c : ℕ) : (if c.testBit 0 then 1 else 0) = c % 2 := by
  rw [Nat.testBit_zero]
  rcases Nat.mod_two_eq_zero_or_one c with h | h <;> simp [h]

theorem bit_div (c : ℕ) : (if c.testBit 1 then 1 else 0) = (c / 2) % 2 := by
  rw [Nat.testBit_succ, Nat.testBit_zero]
  rcases Nat.mod_two_eq_zero_or_one (c / 2) with h | h <;> simp [h]

theorem cornerOf_eq (p : ℕ × ℕ) (c : ℕ) : cornerOf p c = (p.1 + c % 2, p.2 + (c / 2) % 2) := by
  unfold cornerOf; rw [bit_mod, bit_div]

theorem toNat_bit (c : ℕ) : ∃ e : Bool, c % 2 = e.toNat := by
  rcases Nat.mod_two_eq_zero_or_one c with h | h
  · exact ⟨false, h⟩
  · exact ⟨true, h⟩

theorem inner_iff {x y c : ℕ} (hx : x < m) (hy : y < n) :
    InnerPoint m n pa pb (cornerOf (x, y) c) ↔ cornerEnd m n pa pb x y c = false := by
  rw [cornerEnd_eq, cornerOf_eq]
  obtain ⟨e, he⟩ := toNat_bit c
  obtain ⟨e', he'⟩ := toNat_bit (c / 2)
  unfold InnerPoint
  simp only
  rw [he, he', end_iff hx, end_iff hy]

theorem same_iff (hb : BrickArrays m n pa pb b) {x y x' y' c c' : ℕ} (hx : x < m) (hy : y < n) (hx' : x' < m) (hy' : y' < n) (hc : c < 4)
    (hc' : c' < 4) : SameCorner b.corners (gridTree m n x y, c) (gridTree m n x' y', c') ↔ InnerPoint m n pa pb (cornerOf (x, y) c) ∧
      pointInGrid m n pa pb (cornerOf (x, y) c) = pointInGrid m n pa pb (cornerOf (x', y') c') := by
  have hnc : b.corners.numCorners = rowCorners m pa * rowCorners n pb := by rw [hb.corners]
  have pts : cornerEnd m n pa pb x y c = false →
      ((cornerEnd m n pa pb x' y' c' = false ∧ cornerNumber m n pa pb x' y' c' = cornerNumber m n pa pb x y c) ↔
      pointInGrid m n pa pb (cornerOf (x, y) c) = pointInGrid m n pa pb (cornerOf (x', y') c')) := by
    intro he
    rw [cornerEnd_eq] at he
    have a1 := wrap_corner hx (by omega) he.1
    have a2 := wrap_corner hy (by omega) he.2
    have num : cornerEnd m n pa pb x' y' c' = false → (cornerNumber m n pa pb x' y' c' = cornerNumber m n pa pb x y c ↔
        brickWrap m x' (c' % 2) = brickWrap m x (c % 2) ∧ brickWrap n y' ((c' / 2) % 2) = brickWrap n y ((c / 2) % 2)) := by
      intro he'
      rw [cornerEnd_eq] at he'
      have a3 := wrap_corner hx' (by omega) he'.1
      have a4 := wrap_corner hy' (by omega) he'.2
      constructor
      · intro h
        have := congrArg (cornerPos m n pa pb) h
        unfold cornerNumber at this
        rwa [cornerPos_corner a3 a4, cornerPos_corner a1 a2, Prod.mk.injEq] at this
      · rintro ⟨h1, h2⟩
        unfold cornerNumber
        rw [h1, h2]
    have step : (cornerEnd m n pa pb x' y' c' = false ∧ cornerNumber m n pa pb x' y' c' = cornerNumber m n pa pb x y c) ↔
        (brickEnd m pa x' (c' % 2) = false ∧ brickWrap m x' (c' % 2) = brickWrap m x (c % 2)) ∧
        (brickEnd n pb y' ((c' / 2) % 2) = false ∧ brickWrap n y' ((c' / 2) % 2) = brickWrap n y ((c / 2) % 2)) := by
      constructor
      · rintro ⟨h1, h2⟩
        have h3 := (num h1).mp h2
        have h4 := cornerEnd_eq.mp h1
        exact ⟨⟨h4.1, h3.1⟩, h4.2, h3.2⟩
      · rintro ⟨⟨h1, h2⟩, h3, h4⟩
        have h5 := cornerEnd_eq.mpr ⟨h1, h3⟩
        exact ⟨h5, (num h5).mpr ⟨h2, h4⟩⟩
    rw [step, cornerOf_eq, cornerOf_eq]
    unfold pointInGrid
    rw [Prod.mk.injEq]
    simp only
    obtain ⟨e1, h1⟩ := toNat_bit c
    obtain ⟨e2, h2⟩ := toNat_bit (c / 2)
    obtain ⟨e3, h3⟩ := toNat_bit c'
    obtain ⟨e4, h4⟩ := toNat_bit (c' / 2)
    rw [h1, h2] at he
    rw [h1, h2, h3, h4, wrap_point hx hx' he.1, wrap_point hy hy' he.2]
  rw [inner_iff hx hy]
  constructor
  · rintro ⟨k, hk, h1, h2⟩
    simp only at h1 h2
    rw [corner_entry hb (by omega) hx hy hc, Option.some_inj, cornerVal_eq] at h1
    obtain ⟨-, a, a', ha, ha', e, h3, h4⟩ := (listed_iff hb hk).mp h2
    obtain ⟨rfl, rfl⟩ := gridTree_inj hx' hy' ha ha' e
    exact ⟨h1.1, (pts h1.1).mp ⟨h3, h4.trans h1.2.symm⟩⟩
  · rintro ⟨h1, h2⟩
    obtain ⟨h3, h4⟩ := (pts h1).mpr h2
    have hlt := cornerNumber_lt hx hy h1
    rw [← hnc] at hlt
    refine ⟨_, hlt, ?_, (listed_iff hb hlt).mpr ⟨hc', x', y', hx', hy', rfl, h3, h4⟩⟩
    simp only
    rw [corner_entry hb (by omega) hx hy hc, cornerVal_eq.mpr ⟨h1, rfl⟩]

theorem brick_layout (hb : BrickArrays m n pa pb b) (hm : 0 < m) (hn : 0 < n) : BrickLayout m n pa pb b (gridPos m n) := by
  refine ⟨by rw [hb.conn], ⟨?_, ?_, ?_⟩, ?_, ?_, ?_, ⟨vInv_length hm hn hb.points, hb.points.nodup⟩, ?_⟩
  · intro t ht
    obtain ⟨x, y, hx, hy, rfl⟩ := exists_gridTree (show t < m * n from ht)
    rw [gridPos_tree hx hy]
    exact ⟨hx, hy⟩
  · intro t ht t' ht' h
    obtain ⟨x, y, hx, hy, rfl⟩ := exists_gridTree (show t < m * n from ht)
    obtain ⟨x', y', hx', hy', rfl⟩ := exists_gridTree (show t' < m * n from ht')
    rw [gridPos_tree hx hy, gridPos_tree hx' hy', Prod.mk.injEq] at h
    rw [h.1, h.2]
  · rintro ⟨x, y⟩ ⟨hx, hy⟩
    exact ⟨gridTree m n x y, gridTree_lt hx hy, gridPos_tree hx hy⟩
  · intro t f p ht hf h
    obtain ⟨x, y, hx, hy, rfl⟩ := exists_gridTree ht
    rw [gridPos_tree hx hy] at h
    obtain ⟨g, -⟩ := grid_back (p := (x, y)) ⟨hx, hy⟩ hf h
    obtain ⟨k1, k2⟩ := face_entry hb hx hy hf
    rw [faceVal_next hx hy hf, h] at k1 k2
    exact ⟨gridTree m n p.1 p.2, gridTree_lt g.1 g.2, gridPos_tree g.1 g.2, k1, k2⟩
  · intro t f ht hf h
    obtain ⟨x, y, hx, hy, rfl⟩ := exists_gridTree ht
    rw [gridPos_tree hx hy] at h
    obtain ⟨k1, k2⟩ := face_entry hb hx hy hf
    rw [faceVal_next hx hy hf, h] at k1 k2
    exact ⟨k1, k2⟩
  · intro t t' c c' ht ht' hc hc'
    obtain ⟨x, y, hx, hy, rfl⟩ := exists_gridTree ht
    obtain ⟨x', y', hx', hy', rfl⟩ := exists_gridTree ht'
    rw [gridPos_tree hx hy, gridPos_tree hx' hy']
    exact same_iff hb hx hy hx' hy' hc hc'
  · intro t c ht hc
    obtain ⟨x, y, hx, hy, rfl⟩ := exists_gridTree ht
    obtain ⟨v, h1, h2⟩ := hb.points.ent x y c hx hy hc (Or.inl (index_lt hx hy))
    rw [gridPos_tree hx hy, cornerOf_eq, mul_comm]
    exact ⟨v, h1, h2⟩

/-! ## All corners are listed -/

theorem corner_flip {c : ℕ} (hc : c < 4) (i : Fin 2) :
    faceNeighborCorner 2 c (faceOf c i) (oppositeFace (faceOf c i)) 0 = some (c ^^^ (1 <<< (i : ℕ))) := by
  revert i
  interval_cases c <;> decide +kernel

theorem across_iff (hb : BrickArrays m n pa pb b) {x y c : ℕ} (hx : x < m) (hy : y < n) (hc : c < 4) (e : ℕ × ℕ) :
    AcrossFace b.conn (gridTree m n x y) c e ↔ ∃ (i : Fin 2) (p : ℕ × ℕ), nextInGrid m n pa pb (x, y) (faceOf c i) = some p ∧
      e = (gridTree m n p.1 p.2, c ^^^ (1 <<< (i : ℕ))) := by
  constructor
  · rintro ⟨i, nf, o, hnf, ho, h1, h2, h3, h4⟩
    have hf := faceOf_lt c i
    have hop := opposite_lt hf
    obtain ⟨k1, k2⟩ := face_entry hb hx hy hf
    rw [h1, Option.some_inj, faceVal_next hx hy hf] at k1
    rw [h2, Option.some_inj, faceVal_next hx hy hf] at k2
    cases h : nextInGrid m n pa pb (x, y) (faceOf c i) with
    | none =>
      rw [h] at k1 k2
      simp only at k1 k2
      rcases h3 with h3 | h3
      · exact absurd k1 h3
      · omega
    | some p =>
      rw [h] at k1 k2
      simp only at k1 k2
      have ho : o = 0 := by omega
      subst ho
      have : nf = oppositeFace (faceOf c i) := by omega
      rw [this, corner_flip hc, Option.some_inj] at h4
      exact ⟨i, p, h, Prod.ext k1 h4.symm⟩
  · rintro ⟨i, p, h, rfl⟩
    have hf := faceOf_lt c i
    have hop := opposite_lt hf
    obtain ⟨k1, k2⟩ := face_entry hb hx hy hf
    rw [faceVal_next hx hy hf, h] at k1 k2
    exact ⟨i, oppositeFace (faceOf c i), 0, hop.1, by norm_num, k1, k2, Or.inr hop.2.2, corner_flip hc i⟩

/-- The corner of the next tree is the same point. -/
theorem across_point {x y c : ℕ} (hx : x < m) (hy : y < n) (hc : c < 4) {i : Fin 2} {p : ℕ × ℕ}
    (h : nextInGrid m n pa pb (x, y) (faceOf c i) = some p) :
    pointInGrid m n pa pb (cornerOf p (c ^^^ (1 <<< (i : ℕ)))) = pointInGrid m n pa pb (cornerOf (x, y) c) := by
  unfold nextInGrid at h
  unfold pointInGrid cornerOf
  fin_cases i <;> interval_cases c <;> simp [faceOf, Nat.testBit] at h ⊢ <;> obtain ⟨z, h, rfl⟩ := h <;>
    first
    | exact ⟨next_point hx h, rfl⟩
    | exact ⟨rfl, next_point hy h⟩

/-- Corners at the same point of the boundary. -/
theorem point_across {x y c x' y' c' : ℕ} (hx : x < m) (hy : y < n) (hx' : x' < m) (hy' : y' < n) (hc : c < 4) (hc' : c' < 4)
    (h : pointInGrid m n pa pb (cornerOf (x', y') c') = pointInGrid m n pa pb (cornerOf (x, y) c))
    (hi : ¬ InnerPoint m n pa pb (cornerOf (x, y) c)) :
    ((x', y') = (x, y) ∧ c' = c) ∨ ∃ i : Fin 2, nextInGrid m n pa pb (x, y) (faceOf c i) = some (x', y') ∧ c' = c ^^^ (1 <<< (i : ℕ)) := by
  rw [cornerOf_eq, cornerOf_eq] at h
  unfold pointInGrid at h
  rw [Prod.mk.injEq] at h
  simp only at h
  rw [inner_iff hx hy, cornerEnd_eq] at hi
  obtain ⟨e1, h1⟩ := toNat_bit c
  obtain ⟨e2, h2⟩ := toNat_bit (c / 2)
  obtain ⟨e3, h3⟩ := toNat_bit c'
  obtain ⟨e4, h4⟩ := toNat_bit (c' / 2)
  rw [h1, h2, end_iff hx, end_iff hy] at hi
  rw [h1, h2, h3, h4] at h
  have b1 := point_next hx hx' h.1
  have b2 := point_next hy hy' h.2
  have ec : c = e1.toNat + 2 * e2.toNat := by omega
  have ec' : c' = e3.toNat + 2 * e4.toNat := by omega
  subst ec
  subst ec'
  have notBoth : ¬ ((e3 = !e1) ∧ (e4 = !e2)) := by
    rintro ⟨rfl, rfl⟩
    apply hi
    have r1 := h.1
    have r2 := h.2
    unfold pointInRow at r1 r2
    cases pa <;> cases pb <;> cases e1 <;> cases e2 <;> simp at r1 r2 ⊢ <;> omega
  rcases b1 with ⟨rfl, rfl⟩ | ⟨rfl, b1⟩
  · rcases b2 with ⟨rfl, rfl⟩ | ⟨rfl, b2⟩
    · exact Or.inl ⟨rfl, rfl⟩
    · refine Or.inr ⟨1, ?_, ?_⟩
      · unfold nextInGrid
        cases e3 <;> cases e2 <;> simp [faceOf, Nat.testBit] at b2 ⊢ <;> exact b2
      · cases e3 <;> cases e2 <;> rfl
  · rcases b2 with ⟨rfl, rfl⟩ | ⟨rfl, b2⟩
    · refine Or.inr ⟨0, ?_, ?_⟩
      · unfold nextInGrid
        cases e1 <;> cases e4 <;> simp [faceOf, Nat.testBit] at b1 ⊢ <;> exact b1
      · cases e1 <;> cases e4 <;> rfl
    · exact absurd ⟨rfl, rfl⟩ notBoth

theorem brick_complete (hm : 0 < m) (hn : 0 < n) (hb : BrickArrays m n pa pb b) : CornersComplete b.conn b.corners := by
  have hnt : b.conn.numTrees = m * n := by rw [hb.conn]
  have hfc := brick_faces hb
  have hcc : CornerConsistent b.conn.numTrees b.corners := by rw [hnt]; exact brick_corners hm hn hb
  refine cornersComplete_of hfc hcc (fun e => pointInGrid m n pa pb (cornerOf (gridPos m n e.1) e.2)) ?_ ?_
  · intro t ht c hc e he
    have ht' := ht
    rw [hnt] at ht'
    obtain ⟨x, y, hx, hy, rfl⟩ := exists_gridTree ht'
    rw [hnt]
    simp only
    rw [gridPos_tree hx hy]
    rcases List.mem_append.mp he with he | he
    · obtain ⟨i, p, h1, rfl⟩ := (across_iff hb hx hy hc e).mp (of_acrossList hfc ht he)
      obtain ⟨g, -⟩ := grid_back (p := (x, y)) ⟨hx, hy⟩ (faceOf_lt c i) h1
      refine ⟨gridTree_lt g.1 g.2, ?_, ?_⟩
      · have all : ∀ c < 4, ∀ i : Fin 2, c ^^^ (1 <<< (i : ℕ)) < 4 := by decide
        exact all c hc i
      · rw [gridPos_tree g.1 g.2]
        exact across_point hx hy hc h1
    · obtain ⟨l, g1, g2, -⟩ := findCornerTransform_spec hfc hcc ht hc
      rw [g1] at he
      have hs := g2 e he
      obtain ⟨k, hk, -, hl⟩ := id hs
      obtain ⟨hc', x', y', hx', hy', e1, -⟩ := (listed_iff hb hk).mp hl
      have hs' : SameCorner b.corners (gridTree m n x y, c) (gridTree m n x' y', e.2) := by rw [← e1]; exact hs
      rw [e1, gridPos_tree hx' hy']
      exact ⟨gridTree_lt hx' hy', hc', (((same_iff hb hx hy hx' hy' hc hc').mp hs').2).symm⟩
  · intro e he e' he'
    obtain ⟨h1, h2⟩ := List.mem_product.mp he
    obtain ⟨h3, h4⟩ := List.mem_product.mp he'
    rw [List.mem_range] at h1 h2 h3 h4
    have k1 := h1
    rw [hnt] at h1 h3
    obtain ⟨x, y, hx, hy, e1⟩ := exists_gridTree h1
    obtain ⟨x', y', hx', hy', e2⟩ := exists_gridTree h3
    by_cases hV : pointInGrid m n pa pb (cornerOf (gridPos m n e'.1) e'.2) = pointInGrid m n pa pb (cornerOf (gridPos m n e.1) e.2)
    · right
      rw [e1, e2, gridPos_tree hx hy, gridPos_tree hx' hy'] at hV
      by_cases hi : InnerPoint m n pa pb (cornerOf (x, y) e.2)
      · have hs := (same_iff hb hx hy hx' hy' h2 h4).mpr ⟨hi, hV.symm⟩
        obtain ⟨l, g1, -, g3⟩ := findCornerTransform_spec hfc hcc k1 h2
        rw [← e1, ← e2] at hs
        rcases g3 _ hs with h | h | h
        · exact Or.inr (List.mem_append_right _ (by rw [g1]; exact h))
        · exact Or.inl h
        · exact Or.inr (List.mem_append_left _ (acrossList_of h))
      · rcases point_across hx hy hx' hy' h2 h4 hV hi with ⟨h, hc⟩ | ⟨i, h, hc⟩
        · rw [Prod.mk.injEq] at h
          exact Or.inl (Prod.ext (by rw [e1, e2, h.1, h.2]) hc)
        · right
          refine List.mem_append_left _ (acrossList_of ?_)
          rw [e1]
          exact (across_iff hb hx hy h2 e').mpr ⟨i, (x', y'), h, Prod.ext e2 hc⟩
    · exact Or.inl hV

end

/-- C76. The connectivity of a rectangular grid of trees exists for all sizes whose tables can be numbered with 32 bits, and
for each choice of periodic directions.  It is valid, its corner tables are complete, and its trees are the unit squares of the grid,
connected, numbered and placed as the grid says. -/
theorem C76_brick (m n : ℕ) (pa pb : Bool) (hm : 0 < m) (hn : 0 < n) (h : 4 * (m * n) < 2 ^ 31) :
    ∃ b, newBrick m n pa pb = some b ∧ FaceConsistent 2 b.conn ∧ CornerConsistent (m * n) b.corners ∧ CornersComplete b.conn b.corners ∧
      ∃ pos, BrickLayout m n pa pb b pos := by
  obtain ⟨b, h1, h2⟩ := newBrick_arrays (pa := pa) (pb := pb) hm hn h
  exact ⟨b, h1, brick_faces h2, brick_corners hm hn h2, brick_complete hm hn h2, _, brick_layout h2 hm hn⟩

/-- C76. As a consequence the function for canonical coordinates tells which points of a grid are the same. -/
theorem C76_same_point (m n : ℕ) (pa pb : Bool) (hm : 0 < m) (hn : 0 < n) (h : 4 * (m * n) < 2 ^ 31) :
    ∃ b, newBrick m n pa pb = some b ∧ ∀ t t' x x' mem mem', t < m * n → t' < m * n → InCube x → InCube x' →
      (canonicalize mem b.conn b.corners t x = canonicalize mem' b.conn b.corners t' x' ↔
        SamePoint b.conn b.corners (t, x) (t', x')) := by
  obtain ⟨b, h1, h2, h3, h4, pos, h5⟩ := C76_brick m n pa pb hm hn h
  rw [← h5.trees] at h3
  refine ⟨b, h1, fun t t' x x' mem mem' ht ht' hx hx' => ?_⟩
  rw [← h5.trees] at ht ht'
  exact C74_same_point_partial b.conn h2 b.corners h3 h4 t t' ht ht' x x' hx hx' mem mem'

/-- A grid of three by two trees that is periodic in the first direction.  The trees are numbered along the curve that fills a grid of four
by two. -/
example : 4 * (3 * 2) < 2 ^ 31 ∧ (newBrick 3 2 true false).map (fun b => (b.conn.treeToTree, b.conn.treeToFace)) = some
      ([4, 1, 0, 2, 0, 4, 1, 3, 5, 3, 0, 2, 2, 5, 1, 3, 1, 0, 4, 5, 3, 2, 4, 5],
       [1, 0, 2, 2, 1, 0, 2, 2, 1, 0, 3, 3, 1, 0, 3, 3, 1, 0, 2, 2, 1, 0, 3, 3]) ∧
    (newBrick 3 2 true false).map (fun b => (b.corners.numCorners, b.corners.cornerToTree, b.points.vertices.length)) = some
      (3, [0, 1, 2, 3, 1, 4, 3, 5, 4, 0, 5, 2], 12) := by
  decide +kernel

end P4est
