import Verif.Lemmas.BrickFill

/-! # The vertices of a grid -/

namespace P4est

open Spec

section
variable {m n : ℕ} {pa pb : Bool}

theorem brick_fold {σ : Type} {f : σ → ℕ → Option σ} {I : ℕ → σ → Prop} : ∀ {N : ℕ},
    (∀ i < N, ∀ s, I i s → ∃ s', f s i = some s' ∧ I (i + 1) s') → ∀ {s}, I 0 s → ∃ s', (List.range N).foldlM f s = some s' ∧ I N s' := by
  intro N
  induction N with
  | zero => intro _ s hs; exact ⟨s, rfl, hs⟩
  | succ N ih =>
    intro h s hs
    obtain ⟨s', h1, h2⟩ := ih (fun i hi => h i (by omega)) hs
    obtain ⟨s'', h3, h4⟩ := h N (by omega) s' h2
    refine ⟨s'', ?_, h4⟩
    rw [List.range_succ, List.foldlM_append, h1]
    simp only [Option.bind_eq_bind, Option.bind_some, List.foldlM_cons, List.foldlM_nil, h3]
    rfl

theorem index_le {x y x' y' : ℕ} (hx' : x' < m) (hy' : y' < n) (hx : x ≤ x') (hy : y ≤ y') : gridIndex m n x y ≤ gridIndex m n x' y' := by
  have h1 : gridIndex m n x y ≤ gridIndex m n x' y := by
    rcases Nat.lt_or_ge x x' with h | h
    · exact (linear_lt_x (brickLog_lt hx') h).le
    · rw [show x = x' by omega]
  have h2 : gridIndex m n x' y ≤ gridIndex m n x' y' := by
    rcases Nat.lt_or_ge y y' with h | h
    · exact (linear_lt_y (brickLog_lt hy') h).le
    · rw [show y = y' by omega]
  omega

theorem index_inj {x y x' y' : ℕ} (hx : x < m) (hy : y < n) (hx' : x' < m) (hy' : y' < n) (h : gridIndex m n x y = gridIndex m n x' y') :
    x = x' ∧ y = y' := by
  have := congrArg (brickCoords (brickLog m) (brickLog n)) h
  rw [coords_index hx hy, coords_index hx' hy', Prod.mk.injEq] at this
  exact this

/-- The point at corner `i`. -/
def gridPoint (x y i : ℕ) : ℕ × ℕ := (x + i % 2, y + (i / 2) % 2)

/-- The corners that have a vertex before corner `j` of the tree with index `N`. -/
def Before (m n N j x y i : ℕ) : Prop := gridIndex m n x y < N ∨ (gridIndex m n x y = N ∧ i < j)

/-- The arrays of vertices before corner `j` of the tree with index `N`. -/
structure VInv (m n N j : ℕ) (s : BrickVertices) : Prop where
  len : s.treeToVertex.length = 4 * (m * n)
  nodup : s.vertices.Nodup
  mem : ∀ v, v ∈ s.vertices ↔ ∃ x y i, x < m ∧ y < n ∧ i < 4 ∧ Before m n N j x y i ∧ v = gridPoint x y i
  ent : ∀ x y i, x < m → y < n → i < 4 → Before m n N j x y i → ∃ v : ℕ, s.treeToVertex[gridTree m n x y * 4 + i]? = some (v : ℤ) ∧
    s.vertices[v]? = some (gridPoint x y i)

theorem points_length {l : List (ℕ × ℕ)} (h : l.Nodup) (hm : ∀ v ∈ l, v.1 ≤ m ∧ v.2 ≤ n) : l.length ≤ (m + 1) * (n + 1) := by
  rw [← List.toFinset_card_of_nodup h, show (m + 1) * (n + 1) = (Finset.range (m + 1) ×ˢ Finset.range (n + 1)).card by simp]
  refine Finset.card_le_card fun v hv => ?_
  have := hm v (List.mem_toFinset.mp hv)
  rw [Finset.mem_product, Finset.mem_range, Finset.mem_range]
  omega

theorem points_all {l : List (ℕ × ℕ)} (h : l.Nodup) (hm : ∀ v, v ∈ l ↔ v.1 ≤ m ∧ v.2 ≤ n) : l.length = (m + 1) * (n + 1) := by
  rw [← List.toFinset_card_of_nodup h, show (m + 1) * (n + 1) = (Finset.range (m + 1) ×ˢ Finset.range (n + 1)).card by simp]
  congr 1
  ext v
  rw [List.mem_toFinset, hm, Finset.mem_product, Finset.mem_range, Finset.mem_range]
  omega

theorem before_succ {x y j x' y' i' : ℕ} (hx : x < m) (hy : y < n) (hx' : x' < m) (hy' : y' < n) :
    Before m n (gridIndex m n x y) (j + 1) x' y' i' ↔ Before m n (gridIndex m n x y) j x' y' i' ∨ (x' = x ∧ y' = y ∧ i' = j) := by
  unfold Before
  constructor
  · rintro (h | ⟨h1, h2⟩)
    · exact Or.inl (Or.inl h)
    · by_cases hij : i' = j
      · obtain ⟨rfl, rfl⟩ := index_inj hx' hy' hx hy h1
        exact Or.inr ⟨rfl, rfl, hij⟩
      · exact Or.inl (Or.inr ⟨h1, by omega⟩)
  · rintro ((h | ⟨h1, h2⟩) | ⟨rfl, rfl, rfl⟩)
    · exact Or.inl h
    · exact Or.inr ⟨h1, by omega⟩
    · exact Or.inr ⟨rfl, by omega⟩

theorem ent_set {x y j N : ℕ} {t : List ℤ} {w : ℤ} (hl : t.length = 4 * (m * n)) (hx : x < m) (hy : y < n) (hj : j < 4)
    (hN : N = gridIndex m n x y) {x' y' i' : ℕ} (hx' : x' < m) (hy' : y' < n) (hi' : i' < 4) :
    (Before m n N j x' y' i' → (t.set (gridTree m n x y * 4 + j) w)[gridTree m n x' y' * 4 + i']? = t[gridTree m n x' y' * 4 + i']?) ∧
    (t.set (gridTree m n x y * 4 + j) w)[gridTree m n x y * 4 + j]? = some w := by
  constructor
  · intro hb
    rw [List.getElem?_set_ne]
    intro h
    obtain ⟨rfl, rfl⟩ := gridTree_inj hx hy hx' hy' (by omega)
    unfold Before at hb
    omega
  · have := gridTree_lt hx hy
    rw [List.getElem?_set_self (by omega)]

theorem vertex_step {x y j : ℕ} (hx : x < m) (hy : y < n) (hj : j < 4) {tf : List ℕ} {s : BrickVertices}
    (h1 : tf[2]? = some (gridTree m n x (brickWrap n y 0))) (h2 : tf[0]? = some (gridTree m n (brickWrap m x 0) y))
    (hs : VInv m n (gridIndex m n x y) j s) :
    ∃ s', brickVertex ((m + 1) * (n + 1)) x y (gridTree m n x y) tf s j = some s' ∧ VInv m n (gridIndex m n x y) (j + 1) s' := by
  have copy : ∀ x' y' i', x' < m → y' < n → i' < 4 → Before m n (gridIndex m n x y) j x' y' i' → gridPoint x' y' i' = gridPoint x y j →
      ∃ v : ℤ, s.treeToVertex[gridTree m n x' y' * 4 + i']? = some v ∧
        VInv m n (gridIndex m n x y) (j + 1) { s with treeToVertex := s.treeToVertex.set (gridTree m n x y * 4 + j) v } := by
    intro x' y' i' hx' hy' hi' hb hp
    obtain ⟨v, g1, g2⟩ := hs.ent x' y' i' hx' hy' hi' hb
    refine ⟨v, g1, ⟨by rw [List.length_set]; exact hs.len, hs.nodup, fun w => ?_, fun a b c ha hb' hc hab => ?_⟩⟩
    · simp only
      rw [hs.mem w]
      constructor
      · rintro ⟨a, b, c, ha, hb, hc, hB, e⟩
        exact ⟨a, b, c, ha, hb, hc, (before_succ hx hy ha hb).mpr (Or.inl hB), e⟩
      · rintro ⟨a, b, c, ha, hb', hc, hB, e⟩
        rcases (before_succ hx hy ha hb').mp hB with hB | ⟨rfl, rfl, rfl⟩
        · exact ⟨a, b, c, ha, hb', hc, hB, e⟩
        · exact ⟨x', y', i', hx', hy', hi', hb, e.trans hp.symm⟩
    · obtain ⟨k1, k2⟩ := ent_set (w := (v : ℤ)) hs.len hx hy hj rfl ha hb' hc
      rcases (before_succ hx hy ha hb').mp hab with hB | ⟨rfl, rfl, rfl⟩
      · simp only
        rw [k1 hB]
        exact hs.ent a b c ha hb' hc hB
      · exact ⟨v, k2, by rw [← hp]; exact g2⟩
  unfold brickVertex
  by_cases c1 : y > 0 ∧ (j / 2) % 2 = 0
  · rw [if_pos c1, h1]
    simp only [Option.bind_eq_bind, Option.bind_some]
    have hw : brickWrap n y 0 = y - 1 := by
      rw [wrap_cases hy (by omega), if_neg (by omega), if_pos (by omega)]; omega
    rw [hw]
    obtain ⟨v, g1, g2⟩ := copy x (y - 1) (j + 2) hx (by omega) (by omega) (Or.inl (linear_lt_y (brickLog_lt hy) (by omega))) (by
      unfold gridPoint
      refine Prod.ext ?_ ?_ <;> simp only <;> omega)
    rw [show gridTree m n x (y - 1) * 4 + j + 2 = gridTree m n x (y - 1) * 4 + (j + 2) by omega, g1]
    exact ⟨_, rfl, g2⟩
  · rw [if_neg c1]
    by_cases c2 : x > 0 ∧ j % 2 = 0
    · rw [if_pos c2, h2]
      simp only [Option.bind_eq_bind, Option.bind_some]
      have hw : brickWrap m x 0 = x - 1 := by
        rw [wrap_cases hx (by omega), if_neg (by omega), if_pos (by omega)]; omega
      rw [hw]
      obtain ⟨v, g1, g2⟩ := copy (x - 1) y (j + 1) (by omega) hy (by omega) (Or.inl (linear_lt_x (brickLog_lt hx) (by omega))) (by
        unfold gridPoint
        refine Prod.ext ?_ ?_ <;> simp only <;> omega)
      rw [show gridTree m n (x - 1) y * 4 + j + 1 = gridTree m n (x - 1) y * 4 + (j + 1) by omega, g1]
      exact ⟨_, rfl, g2⟩
    · rw [if_neg c2]
      have hnew : gridPoint x y j ∉ s.vertices := by
        intro h
        obtain ⟨a, b, c, ha, hb, hc, hB, e⟩ := (hs.mem _).mp h
        unfold gridPoint at e
        rw [Prod.mk.injEq] at e
        have hle := index_le (x := x) (y := y) ha hb (by omega) (by omega)
        rcases hB with hB | ⟨hB, hcj⟩
        · omega
        · obtain ⟨rfl, rfl⟩ := index_inj ha hb hx hy hB
          omega
      have hnd : (s.vertices ++ [gridPoint x y j]).Nodup := by
        rw [List.nodup_append]
        refine ⟨hs.nodup, List.nodup_singleton _, ?_⟩
        intro a ha b hb e
        rw [List.mem_singleton] at hb
        exact hnew (by rw [← hb, ← e]; exact ha)
      have hmem : ∀ w, w ∈ s.vertices ++ [gridPoint x y j] ↔
          ∃ a b c, a < m ∧ b < n ∧ c < 4 ∧ Before m n (gridIndex m n x y) (j + 1) a b c ∧ w = gridPoint a b c := by
        intro w
        rw [List.mem_append, hs.mem, List.mem_singleton]
        constructor
        · rintro (⟨a, b, c, ha, hb, hc, hB, e⟩ | rfl)
          · exact ⟨a, b, c, ha, hb, hc, (before_succ hx hy ha hb).mpr (Or.inl hB), e⟩
          · exact ⟨x, y, j, hx, hy, hj, (before_succ hx hy hx hy).mpr (Or.inr ⟨rfl, rfl, rfl⟩), rfl⟩
        · rintro ⟨a, b, c, ha, hb, hc, hB, e⟩
          rcases (before_succ hx hy ha hb).mp hB with hB | ⟨rfl, rfl, rfl⟩
          · exact Or.inl ⟨a, b, c, ha, hb, hc, hB, e⟩
          · exact Or.inr e
      have hlen : (s.vertices ++ [gridPoint x y j]).length ≤ (m + 1) * (n + 1) := by
        refine points_length hnd fun v hv => ?_
        obtain ⟨a, b, c, ha, hb, hc, -, rfl⟩ := (hmem v).mp hv
        unfold gridPoint
        simp only
        omega
      rw [List.length_append, List.length_singleton] at hlen
      rw [if_pos (by omega)]
      refine ⟨_, rfl, ⟨by rw [List.length_set]; exact hs.len, hnd, hmem, fun a b c ha hb hc hab => ?_⟩⟩
      obtain ⟨k1, k2⟩ := ent_set (w := (s.vertices.length : ℤ)) hs.len hx hy hj rfl ha hb hc
      rcases (before_succ hx hy ha hb).mp hab with hB | ⟨rfl, rfl, rfl⟩
      · simp only
        rw [k1 hB]
        obtain ⟨v, g1, g2⟩ := hs.ent a b c ha hb hc hB
        exact ⟨v, g1, by rw [List.getElem?_append_left (List.getElem?_eq_some_iff.mp g2).1]; exact g2⟩
      · exact ⟨_, k2, by simp [gridPoint]⟩

theorem vInv_congr {N j N' j' : ℕ} {s : BrickVertices} (h : ∀ x y i, x < m → y < n → i < 4 → (Before m n N j x y i ↔ Before m n N' j' x y i))
    (hs : VInv m n N j s) : VInv m n N' j' s := by
  refine ⟨hs.len, hs.nodup, fun v => (hs.mem v).trans ?_, fun x y i hx hy hi hb => hs.ent x y i hx hy hi ((h x y i hx hy hi).mpr hb)⟩
  constructor
  · rintro ⟨x, y, i, hx, hy, hi, hb, e⟩
    exact ⟨x, y, i, hx, hy, hi, (h x y i hx hy hi).mp hb, e⟩
  · rintro ⟨x, y, i, hx, hy, hi, hb, e⟩
    exact ⟨x, y, i, hx, hy, hi, (h x y i hx hy hi).mpr hb, e⟩

theorem vertices_spec {t : BrickNumbers} (ht : Numbered m n pa pb t) :
    ∃ s, (List.range (gridSize m n)).foldlM (brickVertexCell m n (brickLog m) (brickLog n) ((m + 1) * (n + 1)) t.linearToTree)
      ⟨List.replicate (4 * (m * n)) (-1), []⟩ = some s ∧ VInv m n (gridSize m n) 0 s := by
  refine brick_fold (I := fun N s => VInv m n N 0 s) ?_ ?_
  · intro N _ s hs
    unfold brickVertexCell
    simp only
    by_cases h : gridCell m n N
    · obtain ⟨x, y, hx, hy, rfl, e⟩ := gridCell_eq h
      rw [e, if_pos ⟨hx, hy⟩, ht.tree x y hx hy]
      simp only [Option.bind_eq_bind, Option.bind_some]
      rw [show index (gridTree m n x y : ℤ) = some (gridTree m n x y) by simp [index], Option.bind_some,
        faceTrees_spec ht (by omega) (by omega), Option.bind_some]
      obtain ⟨s', g1, g2⟩ := brick_fold (I := fun j s => VInv m n (gridIndex m n x y) j s) (N := 4)
        (f := brickVertex ((m + 1) * (n + 1)) x y (gridTree m n x y) ((List.range 4).map fun l => gridTree m n
          (brickWrap m x (if l / 2 = 0 then 2 * (l % 2) else 1)) (brickWrap n y (if l / 2 = 1 then 2 * (l % 2) else 1))))
        (by
          intro j hj s hs
          refine vertex_step hx hy hj ?_ ?_ hs
          · rw [List.getElem?_map, List.getElem?_range (by norm_num), Option.map_some]
            simp only [show ¬ (2 : ℕ) / 2 = 0 by decide, if_false, show (2 : ℕ) / 2 = 1 from rfl, if_true]
            rw [wrap_one hx]
          · rw [List.getElem?_map, List.getElem?_range (by norm_num), Option.map_some]
            simp only [show ¬ (0 : ℕ) / 2 = 1 by decide, if_false, show (0 : ℕ) / 2 = 0 from rfl, if_true]
            rw [wrap_one hy]) hs
      refine ⟨s', g1, vInv_congr (fun a b c ha hb hc => ?_) g2⟩
      unfold Before
      omega
    · rw [if_neg (show ¬ (_ ∧ _) from h)]
      refine ⟨s, rfl, vInv_congr (fun a b c ha hb hc => ?_) hs⟩
      have : gridIndex m n a b ≠ N := by rintro rfl; exact h (cell_index ha hb)
      unfold Before
      omega
  · refine ⟨List.length_replicate, List.nodup_nil, fun v => ?_, fun x y i _ _ _ h => ?_⟩
    · constructor
      · intro h; simp at h
      · rintro ⟨x, y, i, -, -, -, h, -⟩
        unfold Before at h
        omega
    · unfold Before at h
      omega

theorem vInv_length (hm : 0 < m) (hn : 0 < n) {s : BrickVertices} (hs : VInv m n (gridSize m n) 0 s) :
    s.vertices.length = (m + 1) * (n + 1) := by
  refine points_all hs.nodup fun v => (hs.mem v).trans ⟨?_, ?_⟩
  · rintro ⟨x, y, i, hx, hy, hi, -, rfl⟩
    unfold gridPoint
    simp only
    omega
  · rintro ⟨h1, h2⟩
    refine ⟨v.1 - 1, v.2 - 1, (if v.1 = 0 then 0 else 1) + 2 * (if v.2 = 0 then 0 else 1), by omega, by omega, ?_, ?_, ?_⟩
    · split <;> split <;> omega
    · exact Or.inl (index_lt (by omega) (by omega))
    · unfold gridPoint
      refine Prod.ext ?_ ?_
      · simp only
        split <;> split <;> omega
      · simp only
        split <;> split <;> omega

end

end P4est
