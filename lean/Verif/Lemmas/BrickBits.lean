import Mathlib.Data.Nat.Bitwise
import Mathlib.Tactic.Ring
import Mathlib.Tactic.Linarith
import Verif.Model.Brick

/-! # The order of the trees in a grid -/

namespace P4est

theorem maskBit (t p s b : ℕ) (h : s ≤ p) : ((t &&& (1 <<< p)) >>> s).testBit b = (t.testBit p && decide (b + s = p)) := by
  rw [Nat.testBit_shiftRight, Nat.testBit_and, Nat.testBit_shiftLeft]
  by_cases hb : b + s = p
  · rw [show s + b = p by omega, show p - p = 0 by omega]
    simp [hb]
  · rw [decide_eq_false hb, Bool.and_false]
    have : Nat.testBit 1 (s + b - p) = false ∨ ¬ s + b ≥ p := by
      by_cases hle : s + b ≥ p
      · left
        exact Nat.testBit_lt_two_pow (Nat.one_lt_two_pow (by omega))
      · exact Or.inr hle
    rcases this with h | h <;> simp [h]

theorem foldl_or (f : ℕ → ℕ) (b : ℕ) : ∀ (l : List ℕ) (s : ℕ),
    (l.foldl (fun t j => t ||| f j) s).testBit b = (s.testBit b || l.any fun j => (f j).testBit b) := by
  intro l
  induction l with
  | nil => intro s; simp
  | cons j l ih => intro s; rw [List.foldl_cons, ih, Nat.testBit_or, List.any_cons, Bool.or_assoc]

theorem gather_bit (a ti k b : ℕ) : (brickGather a ti k).testBit b = (decide (b < a) && ti.testBit (2 * b + k)) := by
  unfold brickGather
  rw [foldl_or, Nat.zero_testBit, Bool.false_or, Bool.eq_iff_iff, List.any_eq_true]
  constructor
  · rintro ⟨j, hj, h⟩
    rw [maskBit _ _ _ _ (by omega), Bool.and_eq_true, decide_eq_true_eq] at h
    have : j = b := by omega
    subst this
    rw [Bool.and_eq_true, decide_eq_true_eq]
    exact ⟨List.mem_range.mp hj, h.1⟩
  · rw [Bool.and_eq_true, decide_eq_true_eq]
    rintro ⟨h1, h2⟩
    refine ⟨b, List.mem_range.mpr h1, ?_⟩
    rw [maskBit _ _ _ _ (by omega), h2, Bool.true_and, decide_eq_true_eq]
    omega

theorem gather_lt (a ti k : ℕ) : brickGather a ti k < 2 ^ a := by
  apply Nat.lt_pow_two_of_testBit
  intro i hi
  rw [gather_bit, decide_eq_false (by omega), Bool.false_and]

theorem gather_high (a ti k h b : ℕ) : (brickGather a ti k + h <<< a).testBit b =
    if b < a then ti.testBit (2 * b + k) else h.testBit (b - a) := by
  rw [Nat.shiftLeft_eq, add_comm, mul_comm, Nat.testBit_two_pow_mul_add _ (gather_lt a ti k), gather_bit]
  split <;> simp_all

/-- The number of bits of the axis with the smaller number of bits. -/
theorem brickLow_eq (lx ly : ℕ) : brickLow lx ly = min lx ly := by
  unfold brickLow; split <;> omega

theorem coords_fst (lx ly ti b : ℕ) : (brickCoords lx ly ti).1.testBit b =
    if b < min lx ly then ti.testBit (2 * b) else if lx ≤ ly then false else ti.testBit (b + min lx ly) := by
  unfold brickCoords
  rw [brickLow_eq]
  simp only
  by_cases h : lx ≤ ly
  · rw [if_pos h, gather_bit, if_pos h, add_zero]
    split <;> simp_all
  · rw [if_neg h, gather_high, if_neg h, add_zero, Nat.testBit_shiftRight]
    split
    · rfl
    · congr 1; omega

theorem coords_snd (lx ly ti b : ℕ) : (brickCoords lx ly ti).2.testBit b =
    if b < min lx ly then ti.testBit (2 * b + 1) else if lx ≤ ly then ti.testBit (b + min lx ly) else false := by
  unfold brickCoords
  rw [brickLow_eq]
  simp only
  by_cases h : lx ≤ ly
  · rw [if_pos h, gather_high, if_pos h, Nat.testBit_shiftRight]
    split
    · rfl
    · congr 1; omega
  · rw [if_neg h, gather_bit, if_neg h]
    split <;> simp_all

theorem spread_bit (x y s j b : ℕ) : (brickSpread x y s j).testBit b =
    (s.testBit b || (x.testBit j && decide (b = 2 * j)) || (y.testBit j && decide (b = 2 * j + 1))) := by
  have key : ∀ z e : ℕ, ((z &&& (1 <<< j)) <<< e).testBit b = (z.testBit j && decide (b = j + e)) := by
    intro z e
    rw [Nat.testBit_shiftLeft]
    by_cases hb : e ≤ b
    · have := maskBit z j 0 (b - e) (by omega)
      rw [Nat.shiftRight_zero] at this
      rw [this, decide_eq_true (by exact hb), Bool.true_and]
      congr 1
      rw [decide_eq_decide]
      omega
    · rw [decide_eq_false (by omega), Bool.false_and, decide_eq_false (by omega), Bool.and_false]
  unfold brickSpread
  rw [Nat.testBit_or, Nat.testBit_or, key, key]
  rw [show j + j = 2 * j by omega, show j + (j + 1) = 2 * j + 1 by omega]

theorem spread_all (x y s b : ℕ) : ∀ a, ((List.range a).foldl (brickSpread x y) s).testBit b =
    (s.testBit b || (decide (b < 2 * a) && if b % 2 = 0 then x.testBit (b / 2) else y.testBit (b / 2))) := by
  intro a
  induction a with
  | zero => simp
  | succ a ih =>
    rw [List.range_succ, List.foldl_append, List.foldl_cons, List.foldl_nil, spread_bit, ih]
    by_cases h1 : b < 2 * a
    · rw [decide_eq_true h1, decide_eq_true (show b < 2 * (a + 1) by omega), decide_eq_false (show b ≠ 2 * a by omega),
        decide_eq_false (show b ≠ 2 * a + 1 by omega)]
      simp
    · rw [decide_eq_false h1]
      by_cases h2 : b = 2 * a
      · subst h2
        rw [decide_eq_true (show 2 * a < 2 * (a + 1) by omega), decide_eq_false (show 2 * a ≠ 2 * a + 1 by omega)]
        simp
      · by_cases h3 : b = 2 * a + 1
        · subst h3
          rw [decide_eq_true (show 2 * a + 1 < 2 * (a + 1) by omega), if_neg (by omega), show (2 * a + 1) / 2 = a by omega]
          simp
        · rw [decide_eq_false h2, decide_eq_false h3, decide_eq_false (show ¬ b < 2 * (a + 1) by omega)]
          simp

theorem linear_bit (lx ly x y b : ℕ) : (brickLinear lx ly x y).testBit b =
    if b < 2 * min lx ly then (if b % 2 = 0 then x.testBit (b / 2) else y.testBit (b / 2))
    else (if lx ≤ ly then y else x).testBit (b - min lx ly) := by
  unfold brickLinear
  rw [brickLow_eq]
  simp only
  rw [spread_all, Nat.testBit_shiftLeft, Nat.testBit_shiftRight]
  by_cases h : b < 2 * min lx ly
  · rw [if_pos h, decide_eq_false (show ¬ b ≥ 2 * min lx ly by omega), decide_eq_true h]; simp
  · rw [if_neg h, decide_eq_true (show b ≥ 2 * min lx ly by omega), decide_eq_false h,
      show min lx ly + (b - 2 * min lx ly) = b - min lx ly by omega]
    simp

theorem coords_linear {lx ly x y : ℕ} (hx : x < 2 ^ lx) (hy : y < 2 ^ ly) : brickCoords lx ly (brickLinear lx ly x y) = (x, y) := by
  refine Prod.ext (Nat.eq_of_testBit_eq fun b => ?_) (Nat.eq_of_testBit_eq fun b => ?_)
  · rw [coords_fst]
    by_cases h : b < min lx ly
    · rw [if_pos h, linear_bit, if_pos (by omega), if_pos (by omega), show 2 * b / 2 = b by omega]
    · rw [if_neg h]
      by_cases hl : lx ≤ ly
      · rw [if_pos hl]
        exact (Nat.testBit_lt_two_pow (hx.trans_le (Nat.pow_le_pow_right (by norm_num) (by omega)))).symm
      · rw [if_neg hl, linear_bit, if_neg (by omega), if_neg hl]
        congr 1; omega
  · rw [coords_snd]
    by_cases h : b < min lx ly
    · rw [if_pos h, linear_bit, if_pos (by omega), if_neg (by omega), show (2 * b + 1) / 2 = b by omega]
    · rw [if_neg h]
      by_cases hl : lx ≤ ly
      · rw [if_pos hl, linear_bit, if_neg (by omega), if_pos hl]
        congr 1; omega
      · rw [if_neg hl]
        exact (Nat.testBit_lt_two_pow (hy.trans_le (Nat.pow_le_pow_right (by norm_num) (by omega)))).symm

theorem linear_coords (lx ly ti : ℕ) : brickLinear lx ly (brickCoords lx ly ti).1 (brickCoords lx ly ti).2 = ti := by
  refine Nat.eq_of_testBit_eq fun b => ?_
  rw [linear_bit]
  by_cases h : b < 2 * min lx ly
  · have hb : b / 2 < min lx ly := by omega
    rw [if_pos h, coords_fst, coords_snd, if_pos hb, if_pos hb]
    split
    · congr 1; omega
    · congr 1; omega
  · rw [if_neg h]
    by_cases hl : lx ≤ ly
    · rw [if_pos hl, coords_snd, if_neg (by omega), if_pos hl]
      congr 1; omega
    · rw [if_neg hl, coords_fst, if_neg (by omega), if_neg hl]
      congr 1; omega

theorem linear_lt {lx ly x y : ℕ} (hx : x < 2 ^ lx) (hy : y < 2 ^ ly) : brickLinear lx ly x y < 2 ^ lx * 2 ^ ly := by
  rw [← pow_add]
  apply Nat.lt_pow_two_of_testBit
  intro b hb
  rw [linear_bit, if_neg (by omega)]
  by_cases hl : lx ≤ ly
  · rw [if_pos hl]
    exact Nat.testBit_lt_two_pow (hy.trans_le (Nat.pow_le_pow_right (by norm_num) (by omega)))
  · rw [if_neg hl]
    exact Nat.testBit_lt_two_pow (hx.trans_le (Nat.pow_le_pow_right (by norm_num) (by omega)))

theorem top_bit {x y : ℕ} (h : x < y) : ∃ i, x.testBit i = false ∧ y.testBit i = true ∧ ∀ j, i < j → x.testBit j = y.testBit j := by
  have hne : x ^^^ y ≠ 0 := by rw [Ne, Nat.xor_eq_zero_iff]; omega
  obtain ⟨i, h1, h2⟩ := Nat.exists_most_significant_bit hne
  rw [Nat.testBit_xor] at h1
  have h2' : ∀ j, i < j → x.testBit j = y.testBit j := by
    intro j hj
    have := h2 j hj
    rw [Nat.testBit_xor] at this
    simpa using this
  rcases hx : x.testBit i with _ | _
  · exact ⟨i, hx, by simpa [hx] using h1, h2'⟩
  · exfalso
    have hy : y.testBit i = false := by simpa [hx] using h1
    have := Nat.lt_of_testBit i hy hx (fun j hj => (h2' j hj).symm)
    omega

theorem linear_lt_x {lx ly x x' y : ℕ} (hx : x' < 2 ^ lx) (h : x < x') : brickLinear lx ly x y < brickLinear lx ly x' y := by
  obtain ⟨i, h1, h2, h3⟩ := top_bit h
  by_cases hi : i < min lx ly
  · refine Nat.lt_of_testBit (2 * i) ?_ ?_ ?_
    · rw [linear_bit, if_pos (by omega), if_pos (by omega), show 2 * i / 2 = i by omega, h1]
    · rw [linear_bit, if_pos (by omega), if_pos (by omega), show 2 * i / 2 = i by omega, h2]
    · intro j hj
      rw [linear_bit, linear_bit]
      split
      · split
        · exact h3 _ (by omega)
        · rfl
      · split
        · rfl
        · exact h3 _ (by omega)
  · have hl : ¬ lx ≤ ly := by
      intro hl
      rw [Nat.testBit_lt_two_pow (hx.trans_le (Nat.pow_le_pow_right (by norm_num) (by omega)))] at h2
      exact absurd h2 (by simp)
    refine Nat.lt_of_testBit (i + min lx ly) ?_ ?_ ?_
    · rw [linear_bit, if_neg (by omega), if_neg hl, show i + min lx ly - min lx ly = i by omega, h1]
    · rw [linear_bit, if_neg (by omega), if_neg hl, show i + min lx ly - min lx ly = i by omega, h2]
    · intro j hj
      have hj' : ¬ j < 2 * min lx ly := by omega
      rw [linear_bit, linear_bit, if_neg hj', if_neg hj', if_neg hl, if_neg hl]
      exact h3 _ (by omega)

theorem linear_lt_y {lx ly x y y' : ℕ} (hy : y' < 2 ^ ly) (h : y < y') : brickLinear lx ly x y < brickLinear lx ly x y' := by
  obtain ⟨i, h1, h2, h3⟩ := top_bit h
  by_cases hi : i < min lx ly
  · refine Nat.lt_of_testBit (2 * i + 1) ?_ ?_ ?_
    · rw [linear_bit, if_pos (by omega), if_neg (by omega), show (2 * i + 1) / 2 = i by omega, h1]
    · rw [linear_bit, if_pos (by omega), if_neg (by omega), show (2 * i + 1) / 2 = i by omega, h2]
    · intro j hj
      rw [linear_bit, linear_bit]
      split
      · split
        · rfl
        · exact h3 _ (by omega)
      · split
        · exact h3 _ (by omega)
        · rfl
  · have hl : lx ≤ ly := by
      by_contra hl
      rw [Nat.testBit_lt_two_pow (hy.trans_le (Nat.pow_le_pow_right (by norm_num) (by omega)))] at h2
      exact absurd h2 (by simp)
    refine Nat.lt_of_testBit (i + min lx ly) ?_ ?_ ?_
    · rw [linear_bit, if_neg (by omega), if_pos hl, show i + min lx ly - min lx ly = i by omega, h1]
    · rw [linear_bit, if_neg (by omega), if_pos hl, show i + min lx ly - min lx ly = i by omega, h2]
    · intro j hj
      have hj' : ¬ j < 2 * min lx ly := by omega
      rw [linear_bit, linear_bit, if_neg hj', if_neg hj', if_pos hl, if_pos hl]
      exact h3 _ (by omega)

theorem brickLog_lt {m x : ℕ} (h : x < m) : x < 2 ^ brickLog m := by
  unfold brickLog
  split
  · simp; omega
  · have := @Nat.lt_log2_self (m - 1)
    omega

theorem brickLog_le {m : ℕ} (h : 0 < m) : 2 ^ brickLog m < 2 * m := by
  unfold brickLog
  split
  · simp; omega
  · rename_i h0
    have := Nat.log2_self_le h0
    rw [pow_succ]
    omega

end P4est
