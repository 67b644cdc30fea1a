import Mathlib.Data.Int.Bitwise
import Mathlib.Data.Nat.Bitwise
import Mathlib.Tactic.Linarith
import Mathlib.Tactic.Ring
import Mathlib.Tactic.Positivity
import Mathlib.Tactic.NormNum

/-! Auxiliary facts: two's complement bit operations on `ℤ` in terms of division and remainder. -/

namespace P4est

/-- Bit `k` of an integer, by division. -/
theorem tb_eq (a : ℤ) (k : ℕ) : Int.testBit a k = decide (a / 2 ^ k % 2 = 1) := by
  cases a with
  | ofNat m =>
    simp only [Int.testBit, Nat.testBit_eq_decide_div_mod_eq, Int.ofNat_eq_natCast]
    congr 1
    have : ((m : ℤ) / 2 ^ k % 2 = 1) ↔ (m / 2 ^ k % 2 = 1) := by
      constructor
      · intro h; exact_mod_cast h
      · intro h; exact_mod_cast h
    exact propext this.symm
  | negSucc m =>
    simp only [Int.testBit, Nat.testBit_eq_decide_div_mod_eq]
    have h1 : (Int.negSucc m) / 2 ^ k = -((m / 2 ^ k : ℕ) : ℤ) - 1 := by
      have hpos : (0 : ℤ) < 2 ^ k := by positivity
      have := Int.negSucc_ediv m hpos
      rw [this]
      push_cast
      change -((m : ℤ) / 2 ^ k + 1) = _
      ring
    rw [h1]
    generalize m / 2 ^ k = n
    rw [← decide_not]
    congr 1
    apply propext
    omega

theorem tb_ext {a b : ℤ} (h : ∀ k, Int.testBit a k = Int.testBit b k) : a = b := by
  cases a with
  | ofNat m =>
    cases b with
    | ofNat n =>
      have : m = n := Nat.eq_of_testBit_eq (fun k => h k)
      rw [this]
    | negSucc n =>
      exfalso
      have hk := h (m + n)
      simp only [Int.testBit] at hk
      rw [Nat.testBit_eq_false_of_lt, Nat.testBit_eq_false_of_lt] at hk
      · simp at hk
      · exact lt_of_le_of_lt (Nat.le_add_left n m) Nat.lt_two_pow_self
      · exact lt_of_le_of_lt (Nat.le_add_right m n) Nat.lt_two_pow_self
  | negSucc m =>
    cases b with
    | ofNat n =>
      exfalso
      have hk := h (m + n)
      simp only [Int.testBit] at hk
      rw [Nat.testBit_eq_false_of_lt, Nat.testBit_eq_false_of_lt] at hk
      · simp at hk
      · exact lt_of_le_of_lt (Nat.le_add_left n m) Nat.lt_two_pow_self
      · exact lt_of_le_of_lt (Nat.le_add_right m n) Nat.lt_two_pow_self
    | negSucc n =>
      have : m = n := Nat.eq_of_testBit_eq (fun k => by
        have := h k
        simp only [Int.testBit] at this
        simpa using this)
      rw [this]

theorem tb_div (a : ℤ) (k j : ℕ) : Int.testBit (a / 2 ^ k) j = Int.testBit a (k + j) := by
  rw [tb_eq, tb_eq, Int.ediv_ediv_of_nonneg (by positivity : (0:ℤ) ≤ 2^k), ← pow_add]

theorem tb_mul_pow (a : ℤ) (k j : ℕ) :
    Int.testBit (2 ^ k * a) j = if j < k then false else Int.testBit a (j - k) := by
  split
  · rename_i h
    rw [tb_eq]
    have : (2:ℤ) ^ k * a / 2 ^ j = 2 * (2 ^ (k - j - 1) * a) := by
      have e : (2:ℤ) ^ k = 2 ^ j * (2 * 2 ^ (k - j - 1)) := by
        rw [← pow_succ', ← pow_add]; congr 1; omega
      rw [e, mul_assoc, Int.mul_ediv_cancel_left _ (by positivity)]
      ring
    rw [this]
    simp
  · rename_i h
    rw [tb_eq, tb_eq]
    have : (2:ℤ) ^ k * a / 2 ^ j = a / 2 ^ (j - k) := by
      have e : (2:ℤ) ^ j = 2 ^ k * 2 ^ (j - k) := by
        rw [← pow_add]; congr 1; omega
      rw [e, Int.mul_ediv_mul_of_pos _ _ (by positivity)]
    rw [this]

theorem tb_mod (a : ℤ) (k j : ℕ) :
    Int.testBit (a % 2 ^ k) j = (decide (j < k) && Int.testBit a j) := by
  have hd := Int.emod_add_mul_ediv a (2 ^ k)
  by_cases h : j < k
  · simp only [h, decide_true, Bool.true_and]
    rw [tb_eq, tb_eq]
    have e : (2:ℤ) ^ k = 2 ^ j * (2 * 2 ^ (k - j - 1)) := by
      rw [← pow_succ', ← pow_add]; congr 1; omega
    have h1 : a / 2 ^ j = a % 2 ^ k / 2 ^ j + 2 * (2 ^ (k - j - 1) * (a / 2 ^ k)) := by
      conv_lhs => rw [← hd]
      rw [show a % 2 ^ k + 2 ^ k * (a / 2 ^ k)
        = a % 2 ^ k + 2 ^ j * (2 * (2 ^ (k - j - 1) * (a / 2 ^ k))) by
          conv_lhs => rw [show (2:ℤ) ^ k * (a / 2 ^ k) = (2 ^ j * (2 * 2 ^ (k - j - 1))) * (a / 2 ^ k) by rw [← e]]
          ring]
      rw [Int.add_mul_ediv_left _ _ (by positivity)]
    rw [h1]
    congr 1
    apply propext
    omega
  · simp only [h, decide_false, Bool.false_and]
    rw [tb_eq]
    have h0 : 0 ≤ a % 2 ^ k := Int.emod_nonneg _ (by positivity)
    have h1 : a % 2 ^ k < 2 ^ k := Int.emod_lt_of_pos _ (by positivity)
    have h2 : (2:ℤ) ^ k ≤ 2 ^ j := pow_le_pow_right₀ (by norm_num) (by omega)
    rw [Int.ediv_eq_zero_of_lt h0 (lt_of_lt_of_le h1 h2)]
    simp

theorem tb_zero (j : ℕ) : Int.testBit 0 j = false := by rw [tb_eq]; simp

theorem tb_two_pow (k j : ℕ) : Int.testBit (2 ^ k) j = decide (j = k) := by
  have := tb_mul_pow 1 k j
  rw [mul_one] at this
  rw [this]
  by_cases h : j < k
  · simp [h]; omega
  · simp only [h, if_false]
    rw [tb_eq]
    by_cases h2 : j = k
    · subst h2; simp
    · have : (1:ℤ) / 2 ^ (j - k) = 0 := by
        apply Int.ediv_eq_zero_of_lt (by norm_num)
        exact one_lt_pow₀ (by norm_num) (by omega)
      simp [this, h2]

theorem tb_neg_one (j : ℕ) : Int.testBit (-1) j = true := by
  have : (-1 : ℤ) = Int.lnot 0 := by decide
  rw [this, Int.testBit_lnot, tb_zero]; rfl

theorem tb_mask (k j : ℕ) : Int.testBit (2 ^ k - 1) j = decide (j < k) := by
  have h : ((2:ℤ) ^ k - 1) = (-1) % 2 ^ k := by
    have : (-1 : ℤ) = (2 ^ k - 1) + 2 ^ k * (-1) := by ring
    conv_rhs => rw [this]
    rw [Int.add_mul_emod_self_left, Int.emod_eq_of_lt]
    · have : (1:ℤ) ≤ 2 ^ k := one_le_pow₀ (by norm_num)
      linarith
    · linarith
  rw [h, tb_mod, tb_neg_one, Bool.and_true]

/-- `x & (2^k - 1)` is the remainder. -/
theorem land_mask (x : ℤ) (k : ℕ) : Int.land x (2 ^ k - 1) = x % 2 ^ k := by
  apply tb_ext; intro j
  rw [Int.testBit_land, tb_mask, tb_mod, Bool.and_comm]

/-- `x & ~(2^k - 1)` clears the low bits. -/
theorem land_not_mask (x : ℤ) (k : ℕ) :
    Int.land x (Int.lnot (2 ^ k - 1)) = 2 ^ k * (x / 2 ^ k) := by
  apply tb_ext; intro j
  rw [Int.testBit_land, Int.testBit_lnot, tb_mask, tb_mul_pow]
  by_cases h : j < k
  · simp [h]
  · simp only [h, decide_false, Bool.not_false, Bool.and_true, if_false]
    rw [tb_div]; congr 1; omega

/-- `(x ^ y) >> k` is zero iff the quotients agree. -/
theorem xor_shift_eq_zero (x y : ℤ) (k : ℕ) :
    (Int.xor x y) / 2 ^ k = 0 ↔ x / 2 ^ k = y / 2 ^ k := by
  constructor
  · intro h
    apply tb_ext; intro j
    rw [tb_div, tb_div]
    have : Int.testBit ((Int.xor x y) / 2 ^ k) j = false := by rw [h, tb_zero]
    rw [tb_div, Int.testBit_lxor] at this
    simpa using this
  · intro h
    apply tb_ext; intro j
    rw [tb_div, Int.testBit_lxor, tb_zero, ← tb_div, ← tb_div, h]
    simp

theorem xor_not_mask_eq_zero (x y : ℤ) (k : ℕ) :
    Int.land (Int.xor x y) (Int.lnot (2 ^ k - 1)) = 0 ↔ x / 2 ^ k = y / 2 ^ k := by
  rw [land_not_mask, ← xor_shift_eq_zero]
  constructor
  · intro h
    rcases mul_eq_zero.mp h with h | h
    · exact absurd h (by positivity)
    · exact h
  · intro h; rw [h, mul_zero]

theorem xor_eq_zero (x y : ℤ) : Int.xor x y = 0 ↔ x = y := by
  have := xor_shift_eq_zero x y 0
  simpa using this

/-- `x & 2^k` is nonzero iff bit `k` is set. -/
theorem land_two_pow_ne_zero (x : ℤ) (k : ℕ) :
    Int.land x (2 ^ k) ≠ 0 ↔ x / 2 ^ k % 2 = 1 := by
  have hb : Int.testBit x k = decide (x / 2 ^ k % 2 = 1) := tb_eq x k
  constructor
  · intro h
    by_contra hc
    apply h
    apply tb_ext; intro j
    rw [Int.testBit_land, tb_two_pow, tb_zero]
    by_cases hj : j = k
    · subst hj; simp [hb, hc]
    · simp [hj]
  · intro h h0
    have : Int.testBit (Int.land x (2 ^ k)) k = false := by rw [h0, tb_zero]
    rw [Int.testBit_land, tb_two_pow, hb] at this
    simp [h] at this

theorem land_two_pow_eq_zero (x : ℤ) (k : ℕ) :
    Int.land x (2 ^ k) = 0 ↔ x / 2 ^ k % 2 = 0 := by
  have := land_two_pow_ne_zero x k
  constructor
  · intro h
    by_contra hc
    have h1 : x / 2 ^ k % 2 = 1 := by omega
    exact (this.mpr h1) h
  · intro h
    by_contra hc
    have := this.mp hc
    omega

/-- `x & ~2^k` clears bit `k`. -/
theorem land_not_two_pow (x : ℤ) (k : ℕ) :
    Int.land x (Int.lnot (2 ^ k)) = x - 2 ^ k * (x / 2 ^ k % 2) := by
  have key : x - 2 ^ k * (x / 2 ^ k % 2) = x % 2 ^ k + 2 ^ (k + 1) * (x / 2 ^ (k + 1)) := by
    have h1 := Int.emod_add_mul_ediv x (2 ^ k)
    have h2 := Int.emod_add_mul_ediv (x / 2 ^ k) 2
    have h3 : x / 2 ^ k / 2 = x / 2 ^ (k + 1) := by
      rw [Int.ediv_ediv_of_nonneg (by positivity : (0:ℤ) ≤ 2^k), ← pow_succ]
    rw [h3] at h2
    have h4 : (2:ℤ) ^ k * (x / 2 ^ k % 2 + 2 * (x / 2 ^ (k + 1))) = 2 ^ k * (x / 2 ^ k) := by rw [h2]
    rw [pow_succ]
    rw [pow_succ] at h4
    linarith
  rw [key]
  apply tb_ext; intro j
  rw [Int.testBit_land, Int.testBit_lnot, tb_two_pow]
  have hm0 : 0 ≤ x % 2 ^ k := Int.emod_nonneg _ (by positivity)
  have hm1 : x % 2 ^ k < 2 ^ k := Int.emod_lt_of_pos _ (by positivity)
  by_cases h : j < k + 1
  · have : Int.testBit (x % 2 ^ k + 2 ^ (k + 1) * (x / 2 ^ (k + 1))) j
        = Int.testBit (x % 2 ^ k) j := by
      have e := tb_mod (x % 2 ^ k + 2 ^ (k + 1) * (x / 2 ^ (k + 1))) (k + 1) j
      rw [Int.add_mul_emod_self_left] at e
      have e2 := tb_mod (x % 2 ^ k) (k + 1) j
      simp only [h, decide_true, Bool.true_and] at e e2
      rw [← e, e2]
    rw [this, tb_mod]
    by_cases hj : j = k
    · subst hj; simp
    · have : j < k := by omega
      simp [hj, this]
  · have hj : j ≠ k := by omega
    simp only [hj, decide_false, Bool.not_false, Bool.and_true]
    obtain ⟨i, rfl⟩ : ∃ i, j = (k + 1) + i := ⟨j - (k + 1), by omega⟩
    rw [← tb_div, ← tb_div, Int.add_mul_ediv_left _ _ (by positivity),
      Int.ediv_eq_zero_of_lt hm0 (by rw [pow_succ]; linarith), zero_add]

/-- `x | 2^k` sets bit `k`. -/
theorem lor_two_pow (x : ℤ) (k : ℕ) :
    Int.lor x (2 ^ k) = x + 2 ^ k * (1 - x / 2 ^ k % 2) := by
  have h : Int.lor x (2 ^ k) = Int.lnot (Int.land (Int.lnot x) (Int.lnot (2 ^ k))) := by
    apply tb_ext; intro j
    simp only [Int.testBit_lor, Int.testBit_lnot, Int.testBit_land]
    cases Int.testBit x j <;> cases Int.testBit (2 ^ k) j <;> rfl
  have hn : ∀ y : ℤ, Int.lnot y = -y - 1 := by
    intro y
    cases y with
    | ofNat m => simp only [Int.lnot, Int.negSucc_eq, Int.ofNat_eq_natCast]; ring
    | negSucc m => simp only [Int.lnot, Int.negSucc_eq]; ring
  rw [h, land_not_two_pow, hn, hn]
  have : (-x - 1) / 2 ^ k = -(x / 2 ^ k) - 1 := by
    have hp : (0:ℤ) < 2 ^ k := by positivity
    have h1 := Int.emod_add_mul_ediv x (2 ^ k)
    have hm0 : 0 ≤ x % 2 ^ k := Int.emod_nonneg _ (by positivity)
    have hm1 : x % 2 ^ k < 2 ^ k := Int.emod_lt_of_pos _ (by positivity)
    rw [Int.ediv_eq_iff_of_pos hp]
    constructor <;> nlinarith
  rw [this]
  have h2 : (-(x / 2 ^ k) - 1) % 2 = 1 - x / 2 ^ k % 2 := by omega
  rw [h2]; ring

theorem lnot_eq (y : ℤ) : Int.lnot y = -y - 1 := by
  cases y with
  | ofNat m => simp only [Int.lnot, Int.negSucc_eq, Int.ofNat_eq_natCast]; ring
  | negSucc m => simp only [Int.lnot, Int.negSucc_eq]; ring

end P4est
