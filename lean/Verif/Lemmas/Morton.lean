import Mathlib.Tactic.Linarith
import Mathlib.Tactic.Ring
import Mathlib.Tactic.Positivity
import Verif.Spec.Basic
import Verif.Lemmas.IntBits

namespace P4est
open Spec

variable {d : ℕ}

theorem digit_succ (c : Fin (d + 1) → ℕ) :
    digit c = digit (fun i : Fin d => c i.castSucc) + 2 ^ d * (c (Fin.last d) % 2) := by
  simp only [digit, Fin.sum_univ_castSucc, Fin.val_castSucc, Fin.val_last]

theorem digit_lt (c : Fin d → ℕ) : digit c < 2 ^ d := by
  induction d with
  | zero => simp [digit]
  | succ d ih =>
    rw [digit_succ]
    have := ih (fun i => c i.castSucc)
    have h2 : c (Fin.last d) % 2 ≤ 1 := by omega
    rw [pow_succ]
    nlinarith [Nat.mul_le_mul_left (2 ^ d) h2]

theorem digit_testBit (c : Fin d → ℕ) (i : Fin d) :
    (digit c).testBit i = decide (c i % 2 = 1) := by
  induction d with
  | zero => exact i.elim0
  | succ d ih =>
    rw [digit_succ]
    have hlt := digit_lt (fun i : Fin d => c i.castSucc)
    rw [Nat.add_comm, Nat.testBit_two_pow_mul_add _ hlt]
    refine Fin.lastCases ?_ (fun j => ?_) i
    · simp only [Fin.val_last, lt_irrefl, if_false, Nat.sub_self]
      rw [Nat.testBit_eq_decide_div_mod_eq]; simp
    · simp only [Fin.val_castSucc, Fin.is_lt, if_true]
      exact ih _ j

theorem digit_congr {a b : Fin d → ℕ} (h : ∀ i, a i % 2 = b i % 2) : digit a = digit b := by
  simp only [digit, h]

theorem digit_inj {a b : Fin d → ℕ} (h : digit a = digit b) (i : Fin d) : a i % 2 = b i % 2 := by
  have h1 := digit_testBit a i
  have h2 := digit_testBit b i
  rw [h, h2] at h1
  have : (b i % 2 = 1) ↔ (a i % 2 = 1) := by simpa using h1
  omega

/-- The digit with prescribed bits. -/
theorem digit_of_bits {m : ℕ} (hm : m < 2 ^ d) :
    digit (fun i : Fin d => (m / 2 ^ (i : ℕ))) = m := by
  apply Nat.eq_of_testBit_eq
  intro j
  by_cases hj : j < d
  · have := digit_testBit (fun i : Fin d => (m / 2 ^ (i : ℕ))) ⟨j, hj⟩
    simp only at this
    rw [this, Nat.testBit_eq_decide_div_mod_eq]
  · rw [Nat.testBit_eq_false_of_lt, Nat.testBit_eq_false_of_lt]
    · exact lt_of_lt_of_le hm (Nat.pow_le_pow_right (by norm_num) (by omega))
    · exact lt_of_lt_of_le (digit_lt _) (Nat.pow_le_pow_right (by norm_num) (by omega))

theorem interleave_lt (n : ℕ) (c : Fin d → ℕ) : interleave n c < 2 ^ (d * n) := by
  induction n generalizing c with
  | zero => simp [interleave]
  | succ n ih =>
    simp only [interleave]
    have h1 := ih (fun i => c i / 2)
    have h2 := digit_lt c
    have : 2 ^ (d * (n + 1)) = 2 ^ d * 2 ^ (d * n) := by rw [← pow_add]; congr 1; ring
    rw [this]
    calc _ < 2 ^ d * interleave n (fun i => c i / 2) + 2 ^ d := by omega
      _ = 2 ^ d * (interleave n (fun i => c i / 2) + 1) := by ring
      _ ≤ _ := Nat.mul_le_mul_left _ h1

theorem mul_add_inj {K a b x y : ℕ} (hx : x < K) (hy : y < K) (h : K * a + x = K * b + y) :
    a = b ∧ x = y := by
  have hK : 0 < K := by omega
  have h1 : (K * a + x) / K = a := by
    rw [Nat.mul_add_div hK, Nat.div_eq_of_lt hx, add_zero]
  have h2 : (K * b + y) / K = b := by
    rw [Nat.mul_add_div hK, Nat.div_eq_of_lt hy, add_zero]
  have : a = b := by rw [← h1, ← h2, h]
  subst this
  exact ⟨rfl, by omega⟩

theorem interleave_inj {n : ℕ} {a b : Fin d → ℕ} (h : interleave n a = interleave n b) (i : Fin d) :
    a i % 2 ^ n = b i % 2 ^ n := by
  induction n generalizing a b with
  | zero => simp [Nat.mod_one]
  | succ n ih =>
    simp only [interleave] at h
    obtain ⟨h1, h2⟩ := mul_add_inj (digit_lt a) (digit_lt b) h
    have e1 := ih h1
    have e2 := digit_inj h2 i
    rw [pow_succ', Nat.mod_mul, Nat.mod_mul, e1, e2]

theorem interleave_congr {n : ℕ} {a b : Fin d → ℕ} (h : ∀ i, a i % 2 ^ n = b i % 2 ^ n) :
    interleave n a = interleave n b := by
  induction n generalizing a b with
  | zero => rfl
  | succ n ih =>
    simp only [interleave]
    have h1 : ∀ i, a i % 2 = b i % 2 := by
      intro i
      have := h i
      rw [pow_succ', Nat.mod_mul, Nat.mod_mul] at this
      omega
    have h2 : ∀ i, a i / 2 % 2 ^ n = b i / 2 % 2 ^ n := by
      intro i
      have := h i
      rw [pow_succ', Nat.mod_mul, Nat.mod_mul] at this
      have := h1 i
      omega
    rw [ih h2, digit_congr h1]

theorem interleave_div (n k : ℕ) (c : Fin d → ℕ) :
    interleave (n + k) c / 2 ^ (d * k) = interleave n (fun i => c i / 2 ^ k) := by
  induction k generalizing c with
  | zero => simp
  | succ k ih =>
    have e : 2 ^ (d * (k + 1)) = 2 ^ d * 2 ^ (d * k) := by rw [← pow_add]; congr 1; ring
    rw [e, ← Nat.div_div_eq_div_mul, ← add_assoc]
    simp only [interleave]
    rw [Nat.mul_add_div (by positivity), Nat.div_eq_of_lt (digit_lt c), add_zero, ih]
    congr 1
    funext i
    rw [Nat.div_div_eq_div_mul, pow_succ']

theorem interleave_mul (n k : ℕ) (c : Fin d → ℕ) :
    interleave (n + k) (fun i => 2 ^ k * c i) = 2 ^ (d * k) * interleave n c := by
  induction k with
  | zero => simp
  | succ k ih =>
    rw [← add_assoc]
    simp only [interleave]
    have h0 : digit (fun i => 2 ^ (k + 1) * c i) = 0 := by
      simp only [digit]
      apply Finset.sum_eq_zero
      intro i _
      rw [pow_succ', mul_assoc, Nat.mul_mod_right, mul_zero]
    have h1 : (fun i => 2 ^ (k + 1) * c i / 2) = (fun i : Fin d => 2 ^ k * c i) := by
      funext i
      rw [pow_succ', mul_assoc, Nat.mul_div_cancel_left _ (by norm_num)]
    rw [h0, h1, ih]
    ring

/-- Low part: interleaving all `n+k` bits splits into the high `n` and the low `k` bits. -/
theorem interleave_split (n k : ℕ) (c : Fin d → ℕ) :
    interleave (n + k) c = 2 ^ (d * k) * interleave n (fun i => c i / 2 ^ k) + interleave k c := by
  induction k generalizing c with
  | zero => simp [interleave]
  | succ k ih =>
    rw [← add_assoc]
    simp only [interleave]
    rw [ih]
    have h1 : (fun i => c i / 2 / 2 ^ k) = (fun i : Fin d => c i / 2 ^ (k + 1)) := by
      funext i; rw [Nat.div_div_eq_div_mul, pow_succ']
    rw [h1]
    ring

theorem interleave_zero (n : ℕ) : interleave n (fun _ : Fin d => 0) = 0 := by
  induction n with
  | zero => rfl
  | succ n ih => simp [interleave, ih, digit]

theorem interleave_surj (n m : ℕ) (hm : m < 2 ^ (d * n)) :
    ∃ c : Fin d → ℕ, (∀ i, c i < 2 ^ n) ∧ interleave n c = m := by
  induction n generalizing m with
  | zero =>
    simp only [mul_zero, pow_zero, Nat.lt_one_iff] at hm
    exact ⟨fun _ => 0, by simp, by rw [hm]; rfl⟩
  | succ n ih =>
    have e : 2 ^ (d * (n + 1)) = 2 ^ d * 2 ^ (d * n) := by rw [← pow_add]; congr 1; ring
    rw [e] at hm
    obtain ⟨c, hc, hi⟩ := ih (m / 2 ^ d) (Nat.div_lt_of_lt_mul hm)
    have hlow : m % 2 ^ d < 2 ^ d := Nat.mod_lt _ (by positivity)
    refine ⟨fun i => 2 * c i + (m % 2 ^ d) / 2 ^ (i : ℕ) % 2, ?_, ?_⟩
    · intro i
      have := hc i
      have h2 : (m % 2 ^ d) / 2 ^ (i : ℕ) % 2 < 2 := Nat.mod_lt _ (by norm_num)
      rw [pow_succ]
      change 2 * c i + (m % 2 ^ d) / 2 ^ (i : ℕ) % 2 < _
      omega
    · simp only [interleave]
      have h1 : (fun i : Fin d => (2 * c i + (m % 2 ^ d) / 2 ^ (i : ℕ) % 2) / 2) = c := by
        funext i; omega
      have h2 : digit (fun i : Fin d => 2 * c i + (m % 2 ^ d) / 2 ^ (i : ℕ) % 2) = m % 2 ^ d := by
        rw [← digit_of_bits hlow]
        apply digit_congr
        intro i
        simp only [digit_of_bits hlow]
        omega
      rw [h1, hi, h2]
      exact Nat.div_add_mod m (2 ^ d)

end P4est
