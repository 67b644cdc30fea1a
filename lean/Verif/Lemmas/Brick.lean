import Mathlib.Data.Nat.Nth
import Mathlib.Data.Finset.Prod
import Verif.Lemmas.BrickBits
import Verif.Lemmas.BalancedTest
import Verif.Lemmas.IterateFace
import Verif.Spec.Brick

/-! # The tables of a grid of trees -/

namespace P4est

open Spec

/-- The index belongs to a tree of the grid. -/
def gridCell (m n ti : ℕ) : Prop :=
  (brickCoords (brickLog m) (brickLog n) ti).1 < m ∧ (brickCoords (brickLog m) (brickLog n) ti).2 < n

/-- The index belongs to a tree whose last corner is an inner point. -/
def cornerCell (m n : ℕ) (pa pb : Bool) (ti : ℕ) : Prop :=
  gridCell m n ti ∧ ((brickCoords (brickLog m) (brickLog n) ti).1 < m - 1 ∨ pa) ∧
    ((brickCoords (brickLog m) (brickLog n) ti).2 < n - 1 ∨ pb)

instance (m n : ℕ) : DecidablePred (gridCell m n) := fun _ => inferInstanceAs (Decidable (_ ∧ _))

instance (m n : ℕ) (pa pb : Bool) : DecidablePred (cornerCell m n pa pb) := fun _ => inferInstanceAs (Decidable (_ ∧ _))

theorem number_fold (m n : ℕ) (pa pb : Bool) (N : ℕ) :
    let s := (List.range N).foldl (brickNumber m n pa pb (brickLog m) (brickLog n)) ⟨[], [], 0, 0⟩
    s.linearToTree = (List.range N).map (fun ti => if gridCell m n ti then (Nat.count (gridCell m n) ti : ℤ) else -1) ∧
    s.tj = Nat.count (gridCell m n) N ∧ s.tk = Nat.count (cornerCell m n pa pb) N ∧ s.treeToCorner2.length = s.tj ∧
    ∀ ti < N, gridCell m n ti → s.treeToCorner2[Nat.count (gridCell m n) ti]? =
      some (if cornerCell m n pa pb ti then (Nat.count (cornerCell m n pa pb) ti : ℤ) else -1) := by
  induction N with
  | zero => simp
  | succ N ih =>
    simp only at ih
    obtain ⟨h1, h2, h3, h4, h5⟩ := ih
    simp only [List.range_succ, List.foldl_append, List.foldl_cons, List.foldl_nil, List.map_append, List.map_cons, List.map_nil,
      Nat.count_succ]
    generalize hs : (List.range N).foldl (brickNumber m n pa pb (brickLog m) (brickLog n)) ⟨[], [], 0, 0⟩ = s at *
    have last : ∀ (v : ℤ), (∀ ti < N + 1, gridCell m n ti → gridCell m n N →
        v = (if cornerCell m n pa pb N then (Nat.count (cornerCell m n pa pb) N : ℤ) else -1) →
        (s.treeToCorner2 ++ [v])[Nat.count (gridCell m n) ti]? =
        some (if cornerCell m n pa pb ti then (Nat.count (cornerCell m n pa pb) ti : ℤ) else -1)) := by
      intro v ti hti hg hN hv
      by_cases h : ti = N
      · subst h
        rw [hv, ← h2, ← h4]
        simp
      · have hlt := Nat.count_strict_mono hg (show ti < N by omega)
        rw [List.getElem?_append_left (by omega)]
        exact h5 ti (by omega) hg
    by_cases hg : gridCell m n N
    · by_cases hc : cornerCell m n pa pb N
      · have e : brickNumber m n pa pb (brickLog m) (brickLog n) s N =
            ⟨s.linearToTree ++ [(s.tj : ℤ)], s.treeToCorner2 ++ [(s.tk : ℤ)], s.tj + 1, s.tk + 1⟩ := by
          unfold brickNumber
          simp only
          rw [if_pos (show _ ∧ _ from hg), if_pos hc.2]
        rw [e, if_pos hg, if_pos hg, if_pos hc]
        refine ⟨by rw [h1, h2], by simp only [h2], by simp only [h3], by simp [h4], fun ti hti hgt => last _ ti hti hgt hg ?_⟩
        rw [if_pos hc, h3]
      · have e : brickNumber m n pa pb (brickLog m) (brickLog n) s N =
            ⟨s.linearToTree ++ [(s.tj : ℤ)], s.treeToCorner2 ++ [-1], s.tj + 1, s.tk⟩ := by
          unfold brickNumber
          simp only
          rw [if_pos (show _ ∧ _ from hg), if_neg (fun h => hc ⟨hg, h⟩)]
        rw [e, if_pos hg, if_pos hg, if_neg hc]
        refine ⟨by rw [h1, h2], by simp only [h2], by simp only [h3, add_zero], by simp [h4], fun ti hti hgt => last _ ti hti hgt hg ?_⟩
        rw [if_neg hc]
    · have hc : ¬ cornerCell m n pa pb N := fun h => hg h.1
      have e : brickNumber m n pa pb (brickLog m) (brickLog n) s N = { s with linearToTree := s.linearToTree ++ [-1] } := by
        unfold brickNumber
        simp only
        rw [if_neg (show ¬ (_ ∧ _) from hg)]
      rw [e, if_neg hg, if_neg hg, if_neg hc]
      refine ⟨by rw [h1], by simp only [h2, add_zero], by simp only [h3, add_zero], h4, fun ti hti hgt => ?_⟩
      by_cases h : ti = N
      · subst h; exact absurd hgt hg
      · exact h5 ti (by omega) hgt

section
variable {m n : ℕ} {pa pb : Bool}

/-- The index of a position. -/
def gridIndex (m n x y : ℕ) : ℕ := brickLinear (brickLog m) (brickLog n) x y

/-- The number of the tree at a position. -/
def gridTree (m n x y : ℕ) : ℕ := Nat.count (gridCell m n) (gridIndex m n x y)

/-- The position of a tree. -/
noncomputable def gridPos (m n t : ℕ) : ℕ × ℕ := brickCoords (brickLog m) (brickLog n) (Nat.nth (gridCell m n) t)

/-- The number of indices. -/
def gridSize (m n : ℕ) : ℕ := 2 ^ brickLog m * 2 ^ brickLog n

theorem coords_index {x y : ℕ} (hx : x < m) (hy : y < n) : brickCoords (brickLog m) (brickLog n) (gridIndex m n x y) = (x, y) :=
  coords_linear (brickLog_lt hx) (brickLog_lt hy)

theorem cell_index {x y : ℕ} (hx : x < m) (hy : y < n) : gridCell m n (gridIndex m n x y) := by
  unfold gridCell; rw [coords_index hx hy]; exact ⟨hx, hy⟩

theorem index_lt {x y : ℕ} (hx : x < m) (hy : y < n) : gridIndex m n x y < gridSize m n :=
  linear_lt (brickLog_lt hx) (brickLog_lt hy)

/-- The length of a row of inner points. -/
def rowCorners (m : ℕ) (pa : Bool) : ℕ := if pa then m else m - 1

theorem rowCorners_le (m : ℕ) (pa : Bool) : rowCorners m pa ≤ m := by unfold rowCorners; split <;> omega

theorem cornerCell_index {x y : ℕ} (hx : x < m) (hy : y < n) :
    cornerCell m n pa pb (gridIndex m n x y) ↔ x < rowCorners m pa ∧ y < rowCorners n pb := by
  unfold cornerCell rowCorners
  rw [coords_index hx hy]
  have := cell_index hx hy
  cases pa <;> cases pb <;> simp [this, hx, hy]

theorem gridCell_eq {ti : ℕ} (h : gridCell m n ti) : ∃ x y, x < m ∧ y < n ∧ ti = gridIndex m n x y ∧
    brickCoords (brickLog m) (brickLog n) ti = (x, y) :=
  ⟨_, _, h.1, h.2, (linear_coords _ _ ti).symm, rfl⟩

theorem count_grid (m n : ℕ) : Nat.count (gridCell m n) (gridSize m n) = m * n := by
  rw [Nat.count_eq_card_filter_range, show m * n = (Finset.range m ×ˢ Finset.range n).card by simp]
  refine Finset.card_nbij' (fun ti => brickCoords (brickLog m) (brickLog n) ti) (fun p => gridIndex m n p.1 p.2) ?_ ?_ ?_ ?_
  · intro ti hti
    simp only [Finset.coe_filter, Finset.mem_range, Set.mem_setOf_eq] at hti
    simp only [Finset.coe_product, Finset.coe_range, Set.mem_prod, Set.mem_Iio]
    exact hti.2
  · intro p hp
    simp only [Finset.coe_product, Finset.coe_range, Set.mem_prod, Set.mem_Iio] at hp
    simp only [Finset.coe_filter, Finset.mem_range, Set.mem_setOf_eq]
    exact ⟨index_lt hp.1 hp.2, cell_index hp.1 hp.2⟩
  · intro ti _
    exact linear_coords _ _ ti
  · intro p hp
    simp only [Finset.coe_product, Finset.coe_range, Set.mem_prod, Set.mem_Iio] at hp
    exact coords_index hp.1 hp.2

theorem count_corner (m n : ℕ) (pa pb : Bool) :
    Nat.count (cornerCell m n pa pb) (gridSize m n) = rowCorners m pa * rowCorners n pb := by
  rw [Nat.count_eq_card_filter_range,
    show rowCorners m pa * rowCorners n pb = (Finset.range (rowCorners m pa) ×ˢ Finset.range (rowCorners n pb)).card by simp]
  have lm := rowCorners_le m pa
  have ln := rowCorners_le n pb
  refine Finset.card_nbij' (fun ti => brickCoords (brickLog m) (brickLog n) ti) (fun p => gridIndex m n p.1 p.2) ?_ ?_ ?_ ?_
  · intro ti hti
    simp only [Finset.coe_filter, Finset.mem_range, Set.mem_setOf_eq] at hti
    simp only [Finset.coe_product, Finset.coe_range, Set.mem_prod, Set.mem_Iio]
    obtain ⟨x, y, hx, hy, rfl, e⟩ := gridCell_eq hti.2.1
    rw [e]
    exact (cornerCell_index hx hy).mp hti.2
  · intro p hp
    simp only [Finset.coe_product, Finset.coe_range, Set.mem_prod, Set.mem_Iio] at hp
    simp only [Finset.coe_filter, Finset.mem_range, Set.mem_setOf_eq]
    exact ⟨index_lt (by omega) (by omega), (cornerCell_index (by omega) (by omega)).mpr hp⟩
  · intro ti _
    exact linear_coords _ _ ti
  · intro p hp
    simp only [Finset.coe_product, Finset.coe_range, Set.mem_prod, Set.mem_Iio] at hp
    exact coords_index (by omega) (by omega)

theorem exists_count {p : ℕ → Prop} [DecidablePred p] {t : ℕ} : ∀ {N : ℕ}, t < Nat.count p N → ∃ ti < N, p ti ∧ Nat.count p ti = t := by
  intro N
  induction N with
  | zero => simp
  | succ N ih =>
    intro h
    rw [Nat.count_succ] at h
    by_cases ht : t < Nat.count p N
    · obtain ⟨ti, h1, h2⟩ := ih ht
      exact ⟨ti, by omega, h2⟩
    · split at h
      · rename_i hp
        exact ⟨N, by omega, hp, by omega⟩
      · omega

theorem gridTree_lt {x y : ℕ} (hx : x < m) (hy : y < n) : gridTree m n x y < m * n := by
  rw [← count_grid]
  exact Nat.count_strict_mono (cell_index hx hy) (index_lt hx hy)

theorem gridPos_tree {x y : ℕ} (hx : x < m) (hy : y < n) : gridPos m n (gridTree m n x y) = (x, y) := by
  unfold gridPos gridTree
  rw [Nat.nth_count (cell_index hx hy), coords_index hx hy]

theorem exists_gridTree {t : ℕ} (ht : t < m * n) : ∃ x y, x < m ∧ y < n ∧ t = gridTree m n x y := by
  rw [← count_grid] at ht
  obtain ⟨ti, h1, h2, h3⟩ := exists_count ht
  obtain ⟨x, y, hx, hy, rfl, -⟩ := gridCell_eq h2
  exact ⟨x, y, hx, hy, h3.symm⟩

theorem gridTree_inj {x y x' y' : ℕ} (hx : x < m) (hy : y < n) (hx' : x' < m) (hy' : y' < n) (h : gridTree m n x y = gridTree m n x' y') :
    x = x' ∧ y = y' := by
  have := congrArg (gridPos m n) h
  rw [gridPos_tree hx hy, gridPos_tree hx' hy', Prod.mk.injEq] at this
  exact this

/-- The number of the inner point that is the last corner of the tree at a position. -/
def gridCorner (m n : ℕ) (pa pb : Bool) (x y : ℕ) : ℕ := Nat.count (cornerCell m n pa pb) (gridIndex m n x y)

/-- The position of the tree with that last corner. -/
noncomputable def cornerPos (m n : ℕ) (pa pb : Bool) (k : ℕ) : ℕ × ℕ :=
  brickCoords (brickLog m) (brickLog n) (Nat.nth (cornerCell m n pa pb) k)

theorem cornerCell_of {x y : ℕ} (hx : x < rowCorners m pa) (hy : y < rowCorners n pb) :
    cornerCell m n pa pb (gridIndex m n x y) :=
  (cornerCell_index (hx.trans_le (rowCorners_le _ _)) (hy.trans_le (rowCorners_le _ _))).mpr ⟨hx, hy⟩

theorem gridCorner_lt {x y : ℕ} (hx : x < rowCorners m pa) (hy : y < rowCorners n pb) :
    gridCorner m n pa pb x y < rowCorners m pa * rowCorners n pb := by
  rw [← count_corner]
  exact Nat.count_strict_mono (cornerCell_of hx hy) (index_lt (hx.trans_le (rowCorners_le _ _)) (hy.trans_le (rowCorners_le _ _)))

theorem cornerPos_corner {x y : ℕ} (hx : x < rowCorners m pa) (hy : y < rowCorners n pb) :
    cornerPos m n pa pb (gridCorner m n pa pb x y) = (x, y) := by
  unfold cornerPos gridCorner
  rw [Nat.nth_count (cornerCell_of hx hy), coords_index (hx.trans_le (rowCorners_le _ _)) (hy.trans_le (rowCorners_le _ _))]

theorem exists_gridCorner {k : ℕ} (hk : k < rowCorners m pa * rowCorners n pb) :
    ∃ x y, x < rowCorners m pa ∧ y < rowCorners n pb ∧ k = gridCorner m n pa pb x y := by
  rw [← count_corner] at hk
  obtain ⟨ti, h1, h2, h3⟩ := exists_count hk
  obtain ⟨x, y, hx, hy, rfl, -⟩ := gridCell_eq h2.1
  obtain ⟨a, b⟩ := (cornerCell_index hx hy).mp h2
  exact ⟨x, y, a, b, h3.symm⟩

/-- The arrays of the first loop. -/
structure Numbered (m n : ℕ) (pa pb : Bool) (s : BrickNumbers) : Prop where
  tree : ∀ x y, x < m → y < n → s.linearToTree[gridIndex m n x y]? = some (gridTree m n x y : ℤ)
  corner : ∀ x y, x < m → y < n → s.treeToCorner2[gridTree m n x y]? =
    some (if x < rowCorners m pa ∧ y < rowCorners n pb then (gridCorner m n pa pb x y : ℤ) else -1)

theorem numbers_spec (m n : ℕ) (pa pb : Bool) :
    let s := (List.range (gridSize m n)).foldl (brickNumber m n pa pb (brickLog m) (brickLog n)) ⟨[], [], 0, 0⟩
    s.tj = m * n ∧ s.tk = rowCorners m pa * rowCorners n pb ∧ Numbered m n pa pb s := by
  obtain ⟨h1, h2, h3, h4, h5⟩ := number_fold m n pa pb (gridSize m n)
  refine ⟨h2.trans (count_grid m n), h3.trans (count_corner m n pa pb), ⟨fun x y hx hy => ?_, fun x y hx hy => ?_⟩⟩
  · rw [h1, List.getElem?_map, List.getElem?_range (index_lt hx hy)]
    simp only [Option.map_some]
    rw [if_pos (cell_index hx hy)]
    rfl
  · have := h5 _ (index_lt hx hy) (cell_index hx hy)
    rw [show gridTree m n x y = Nat.count (gridCell m n) (gridIndex m n x y) from rfl, this]
    congr 1
    by_cases h : cornerCell m n pa pb (gridIndex m n x y)
    · rw [if_pos h, if_pos ((cornerCell_index hx hy).mp h)]; rfl
    · rw [if_neg h, if_neg (fun h' => h ((cornerCell_index hx hy).mpr h'))]

/-! ## Arrays -/

theorem storeAll_spec {α : Type} {size : ℕ} {ws : List (ℕ × α)} {val : ℕ → α} (h1 : ∀ w ∈ ws, w.1 < size ∧ w.2 = val w.1)
    (h2 : ∀ p < size, ∃ w ∈ ws, w.1 = p) : storeAll size ws = some ((List.range size).map val) := by
  have key : ∀ (ws : List (ℕ × α)) (mem : List (Option α)), mem.length = size → (∀ w ∈ ws, w.1 < size ∧ w.2 = val w.1) →
      (∀ p < size, mem[p]? = some none ∨ mem[p]? = some (some (val p))) →
      ∃ mem', ws.foldlM (fun (mem : List (Option α)) w => if w.1 < size then some (mem.set w.1 (some w.2)) else none) mem = some mem' ∧
        mem'.length = size ∧ ∀ p < size, (mem[p]? = some (some (val p)) ∨ ∃ w ∈ ws, w.1 = p) → mem'[p]? = some (some (val p)) := by
    intro ws
    induction ws with
    | nil =>
      intro mem hl _ hm
      exact ⟨mem, rfl, hl, fun p hp h => h.resolve_right (by simp)⟩
    | cons w ws ih =>
      intro mem hl hw hm
      rw [List.foldlM_cons]
      have hw0 := hw w List.mem_cons_self
      rw [if_pos hw0.1]
      simp only [Option.bind_eq_bind, Option.bind_some]
      obtain ⟨mem', g1, g2, g3⟩ := ih (mem.set w.1 (some w.2)) (by rw [List.length_set, hl])
        (fun v hv => hw v (List.mem_cons_of_mem _ hv)) (by
          intro p hp
          rw [List.getElem?_set]
          split
          · rename_i h
            subst h
            right
            rw [if_pos (by omega), hw0.2]
          · exact hm p hp)
      refine ⟨mem', g1, g2, fun p hp h => g3 p hp ?_⟩
      rw [List.getElem?_set]
      split
      · rename_i h'
        subst h'
        left
        rw [if_pos (by omega), hw0.2]
      · rename_i hne
        rcases h with h | ⟨v, hv, hvp⟩
        · exact Or.inl h
        · rcases List.mem_cons.mp hv with rfl | hv
          · exact absurd hvp hne
          · exact Or.inr ⟨v, hv, hvp⟩
  obtain ⟨mem', g1, g2, g3⟩ := key ws (List.replicate size none) List.length_replicate h1 (by
    intro p hp
    left
    rw [List.getElem?_replicate, if_pos hp])
  unfold storeAll
  rw [g1, Option.bind_some]
  have : mem' = ((List.range size).map val).map some := by
    apply List.ext_getElem?
    intro p
    by_cases hp : p < size
    · rw [g3 p hp (Or.inr (h2 p hp)), List.getElem?_map, List.getElem?_map, List.getElem?_range hp]
      rfl
    · rw [List.getElem?_eq_none (by omega), List.getElem?_eq_none (by simp; omega)]
  rw [this, mapM_id_some]

/-! ## Rows -/

theorem wrap_lt {m : ℕ} (hm : 0 < m) (x s : ℕ) : brickWrap m x s < m := Nat.mod_lt _ hm

theorem wrap_cases {m x s : ℕ} (hx : x < m) (hs : s ≤ 2) : brickWrap m x s =
    if x + s = 0 then m - 1 else if x + s ≤ m then x + s - 1 else 0 := by
  unfold brickWrap
  split
  · rw [Nat.mod_eq_of_lt (by omega)]; omega
  · split
    · rw [show x + s + m - 1 = (x + s - 1) + m by omega, Nat.add_mod_right, Nat.mod_eq_of_lt (by omega)]
    · rw [show x + s + m - 1 = m + m by omega]
      simp

theorem wrap_back {m x s : ℕ} (hx : x < m) (hs : s ≤ 2) : brickWrap m (brickWrap m x s) (2 - s) = x := by
  have h := wrap_lt (by omega : 0 < m) x s
  rw [wrap_cases h (by omega)]
  rw [wrap_cases hx hs] at h ⊢
  split_ifs at * <;> omega

theorem wrap_one {m x : ℕ} (hx : x < m) : brickWrap m x 1 = x := by
  rw [wrap_cases hx (by omega), if_neg (by omega), if_pos (by omega)]; omega

theorem wrap_corner {m x c : ℕ} {pa : Bool} (hx : x < m) (hc : c < 2) (h : brickEnd m pa x c = false) :
    brickWrap m x c < rowCorners m pa := by
  rw [wrap_cases hx (by omega)]
  unfold brickEnd at h
  unfold rowCorners
  cases pa
  · simp at h
    obtain ⟨h1, h2⟩ := h
    simp only [Bool.false_eq_true, if_false]
    rcases Nat.eq_zero_or_pos c with rfl | hc'
    · have : x ≠ 0 := fun h0 => (h1 h0) rfl
      split_ifs <;> omega
    · have : c = 1 := by omega
      subst this
      have : x ≠ m - 1 := fun h0 => (h2 h0) rfl
      rw [if_neg (by omega), if_pos (by omega)]
      omega
  · simp only [if_true]
    split_ifs <;> omega

end

end P4est
