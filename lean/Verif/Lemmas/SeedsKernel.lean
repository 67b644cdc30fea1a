import Verif.Lemmas.SeedsArith
import Verif.Model.BalanceSeeds

/-! # What the kernels compute -/

namespace P4est
open Spec

variable {d : ℕ} {k : ℕ}

/-! ## More closed forms -/

/-- If no more than `k` distances are not zero, each counts by itself. -/
theorem reach_few : ∀ {m : ℕ} {e : Fin d → ℕ}, (Finset.univ.filter fun i => e i ≠ 0).card ≤ k →
    (CanReach k m e ↔ ∀ i, e i < 2 ^ m)
  | 0, e, _ => by simp [CanReach]
  | m + 1, e, hk => by
    refine ⟨fun h => h.lt, fun h => ⟨Finset.univ.filter fun i => e i % 2 = 1, ?_, ?_, ?_⟩⟩
    · refine le_trans (Finset.card_le_card ?_) hk
      intro i
      simp only [Finset.mem_filter, Finset.mem_univ, true_and]
      omega
    · intro i hi
      exact (Finset.mem_filter.mp hi).2
    · rw [reach_few]
      · intro i
        have h1 := lt_pow_succ.mp (h i)
        simp only [Finset.mem_filter, Finset.mem_univ, true_and]
        split <;> omega
      · refine le_trans (Finset.card_le_card ?_) hk
        intro i
        simp only [Finset.mem_filter, Finset.mem_univ, true_and]
        intro h1 h2
        rw [h2] at h1
        simp at h1

/-- Two distances that are not zero, for faces. -/
theorem reach_two {i j : Fin d} (hij : i ≠ j) : ∀ {m : ℕ} {e : Fin d → ℕ},
    (∀ x, x ≠ i → x ≠ j → e x = 0) → (CanReach 1 m e ↔ e i + e j < 2 ^ m)
  | 0, e, hz => by
    simp only [CanReach, pow_zero]
    constructor
    · intro h; rw [h i, h j]; omega
    · intro h x
      by_cases h1 : x = i
      · subst h1; omega
      · by_cases h2 : x = j
        · subst h2; omega
        · exact hz x h1 h2
  | m + 1, e, hz => by
    have zero : ∀ A : Finset (Fin d), ∀ x, x ≠ i → x ≠ j →
        (if x ∈ A then e x / 2 else (e x + 1) / 2) = 0 := by
      intro A x h1 h2
      rw [hz x h1 h2]
      split <;> rfl
    constructor
    · rintro ⟨A, hA, hodd, h⟩
      rw [reach_two hij (zero A)] at h
      have h0 := hodd i
      have h1 := hodd j
      rw [pow_succ]
      by_cases m0 : i ∈ A <;> by_cases m1 : j ∈ A
      · exact absurd (Finset.card_le_one.mp hA i m0 j m1) hij
      · have := h0 m0; simp only [m0, m1, if_true, if_false] at h; omega
      · have := h1 m1; simp only [m0, m1, if_true, if_false] at h; omega
      · simp only [m0, m1, if_false] at h; omega
    · intro h
      rw [pow_succ] at h
      have hji := hij.symm
      by_cases h0 : e i % 2 = 1
      · refine ⟨{i}, by simp, by simpa using h0, ?_⟩
        rw [reach_two hij (zero _)]
        simp [hji]
        omega
      · by_cases h1 : e j % 2 = 1
        · refine ⟨{j}, by simp, by simpa using h1, ?_⟩
          rw [reach_two hij (zero _)]
          simp [hij]
          omega
        · refine ⟨∅, by simp, by simp, ?_⟩
          rw [reach_two hij (zero _)]
          simp
          omega

/-! ## Numbers -/

theorem scLog2_lt {x : ℤ} {n : ℕ} : scLog2 x < n ↔ x < 2 ^ n := by
  unfold scLog2
  split
  · have : (0 : ℤ) < 2 ^ n := by positivity
    constructor <;> intro <;> omega
  · rename_i h
    have hx : x.toNat ≠ 0 := by omega
    rw [Nat.cast_lt, Nat.log2_lt hx, ← Nat.cast_lt (α := ℤ), Int.toNat_of_nonneg (by omega)]
    push_cast
    rfl

theorem roundEven_eq (x : ℤ) : roundEven x = 2 * ((x + 1) / 2) := by
  have := land_not_mask (x + 1) 1
  unfold roundEven
  rw [show (2 : ℤ) ^ 1 - 1 = 1 by norm_num, pow_one] at this
  exact this

theorem shift_down (L : ℕ) (n : ℤ) : (qlen L * n) >>> (MAXLEVEL - L) = n := by
  rw [Int.shiftRight_eq_div_pow]
  unfold qlen
  push_cast
  exact Int.mul_ediv_cancel_left _ (by positivity)

/-- Half of a distance, rounded up. -/
def halfUp (n : ℤ) : ℕ := ((n + 1) / 2).toNat

theorem roundEven_half {n : ℤ} (h : 0 ≤ n) : roundEven n = 2 * (halfUp n : ℤ) := by
  rw [roundEven_eq]
  unfold halfUp
  omega

theorem halfUp_lt {n : ℤ} (h : 0 ≤ n) {m : ℕ} : halfUp n < 2 ^ m ↔ n + 1 < 2 ^ (m + 1) := by
  unfold halfUp
  rw [← Nat.cast_lt (α := ℤ), pow_succ]
  push_cast
  generalize (2 : ℤ) ^ m = M
  omega

theorem qlen_pos (L : ℕ) : 0 < qlen L := by unfold qlen; positivity

theorem level_gt {L l m : ℕ} (h : L = l + m + 1) (r : ℤ) : (l : ℤ) < max 0 ((L : ℤ) - r) ↔ r < (m + 1 : ℕ) := by
  omega

theorem kernel1d_gt {n : ℤ} (hn : 0 ≤ n) {L l m : ℕ} (h : L = l + m + 1) :
    (l : ℤ) < kernel1d (qlen L * n) L ↔ halfUp n < 2 ^ m := by
  unfold kernel1d
  rw [shift_down]
  dsimp only
  rw [level_gt h, scLog2_lt, halfUp_lt hn]

theorem kernel2d_gt {n n' : ℤ} (hn : 0 ≤ n) (hn' : 0 ≤ n') {L l m : ℕ} (h : L = l + m + 1) :
    (l : ℤ) < kernel2d (qlen L * n) (qlen L * n') L ↔ halfUp n + halfUp n' < 2 ^ m := by
  unfold kernel2d
  dsimp only
  rw [shift_down, shift_down, level_gt h, scLog2_lt, roundEven_half hn, roundEven_half hn',
    ← Nat.cast_lt (α := ℤ), pow_succ]
  push_cast
  generalize (2 : ℤ) ^ m = M
  omega

theorem int_lor_nat (a b : ℕ) : Int.lor (a : ℤ) (b : ℤ) = ((a ||| b : ℕ) : ℤ) := rfl

theorem or_double (a b : ℕ) : 2 * a ||| 2 * b = 2 * (a ||| b) := by
  have h1 := or_half (2 * a) (2 * b)
  have h2 := or_parity (2 * a) (2 * b)
  rw [show 2 * a / 2 = a by omega, show 2 * b / 2 = b by omega] at h1
  omega

theorem kernelTail_gt {x y z : ℕ} {L l m : ℕ} (h : L = l + m + 1) :
    (l : ℤ) < kernelTail (2 * (x : ℤ)) (2 * (y : ℤ)) (2 * (z : ℤ)) L ↔ Carry m x y z := by
  unfold kernelTail
  have e1 : ∀ a : ℕ, (2 * (a : ℤ)) = ((2 * a : ℕ) : ℤ) := by intro a; push_cast; rfl
  have e2 : Int.lor (Int.lor (2 * (x : ℤ)) (2 * (y : ℤ))) (2 * (z : ℤ)) = ((2 * (x ||| y ||| z) : ℕ) : ℤ) := by
    rw [e1, e1, e1, int_lor_nat, int_lor_nat, or_double, or_double]
  dsimp only
  rw [e2, level_gt h, max_lt_iff, max_lt_iff, max_lt_iff, scLog2_lt, scLog2_lt, scLog2_lt, scLog2_lt]
  unfold Carry carrySum
  have h1 := or_le_sum (x ||| y) z
  have h2 := or_le_sum x y
  rw [pow_succ]
  have hc : ((2 : ℤ) ^ m) = ((2 ^ m : ℕ) : ℤ) := by push_cast; rfl
  rw [hc]
  generalize 2 ^ m = M
  generalize x ||| y ||| z = o at *
  push_cast
  omega

theorem carry_none (m : ℕ) : Carry m 0 0 0 := by
  have : 0 < 2 ^ m := by positivity
  exact ⟨this, this, this, by simpa [carrySum] using this⟩

theorem kernel3dEdge_gt {x y z : ℤ} (hx : 0 ≤ x) (hy : 0 ≤ y) (hz : 0 ≤ z) {L l m : ℕ} (h : L = l + m + 1) :
    (l : ℤ) < kernel3dEdge (qlen L * x) (qlen L * y) (qlen L * z) L ↔
      Carry m (halfUp x) (halfUp y) (halfUp z) := by
  unfold kernel3dEdge
  have hq := (qlen_pos L).ne'
  dsimp only
  split
  · rename_i h0
    simp only [mul_eq_zero, hq, false_or] at h0
    obtain ⟨rfl, rfl, rfl⟩ := h0
    have : Carry m (halfUp 0) (halfUp 0) (halfUp 0) := carry_none m
    simp only [this, iff_true]
    omega
  · rw [shift_down, shift_down, shift_down, roundEven_half hx, roundEven_half hy, roundEven_half hz,
      kernelTail_gt h]

theorem kernel3dFace_gt {x y z : ℤ} (hx : 0 ≤ x) (hy : 0 ≤ y) (hz : 0 ≤ z) {L l m : ℕ} (h : L = l + m + 1) :
    (l : ℤ) < kernel3dFace (qlen L * x) (qlen L * y) (qlen L * z) L ↔
      Carry m (halfUp y + halfUp z) (halfUp z + halfUp x) (halfUp x + halfUp y) := by
  unfold kernel3dFace
  have hq := (qlen_pos L).ne'
  dsimp only
  split
  · rename_i h0
    simp only [mul_eq_zero, hq, false_or] at h0
    obtain ⟨rfl, rfl, rfl⟩ := h0
    have : Carry m (halfUp 0 + halfUp 0) (halfUp 0 + halfUp 0) (halfUp 0 + halfUp 0) := carry_none m
    simp only [this, iff_true]
    omega
  · rw [shift_down, shift_down, shift_down, roundEven_half hx, roundEven_half hy, roundEven_half hz]
    have e : ∀ a b : ℕ, 2 * (a : ℤ) + 2 * (b : ℤ) = 2 * ((a + b : ℕ) : ℤ) := by intro a b; push_cast; ring
    rw [e, e, e, kernelTail_gt h]

theorem max_qlen (L : ℕ) (a b : ℤ) : max (qlen L * a) (qlen L * b) = qlen L * max a b :=
  (mul_max_of_nonneg a b (qlen_pos L).le).symm

theorem halfUp_max (a b : ℤ) (M : ℕ) : halfUp (max a b) < M ↔ halfUp a < M ∧ halfUp b < M := by
  unfold halfUp
  rcases le_total a b with h | h
  · rw [max_eq_right h]
    omega
  · rw [max_eq_left h]
    omega

/-- The level for a corner tells whether the distances can be made zero. -/
theorem cornerLevel_gt (hdim : d = 2 ∨ d = 3) (hk1 : 1 ≤ k) (hkd : k ≤ d) {n : Fin d → ℤ}
    (hn : ∀ i, 0 ≤ n i) {L l m : ℕ} (h : L = l + m + 1) :
    (l : ℤ) < cornerLevel (fun i => qlen L * n i) (ibalance d k) L ↔ CanReach k m (fun i => halfUp (n i)) := by
  rcases hdim with rfl | rfl
  · have a0 : axisAt (fun i : Fin 2 => qlen L * n i) 0 = qlen L * n 0 := rfl
    have a1 : axisAt (fun i : Fin 2 => qlen L * n i) 1 = qlen L * n 1 := rfl
    unfold cornerLevel
    rw [if_neg (by norm_num), a0, a1]
    by_cases hk : k = 2
    · subst hk
      rw [if_pos (by decide), max_qlen, kernel1d_gt (le_max_of_le_left (hn 0)) h, halfUp_max,
        reach_full (le_refl 2), Fin.forall_fin_two]
    · have : k = 1 := by omega
      subst this
      rw [if_neg (by decide), kernel2d_gt (hn 0) (hn 1) h, reach_sum]
  · have a0 : axisAt (fun i : Fin 3 => qlen L * n i) 0 = qlen L * n 0 := rfl
    have a1 : axisAt (fun i : Fin 3 => qlen L * n i) 1 = qlen L * n 1 := rfl
    have a2 : axisAt (fun i : Fin 3 => qlen L * n i) 2 = qlen L * n 2 := rfl
    unfold cornerLevel
    rw [if_pos rfl, a0, a1, a2]
    obtain hk | hk | hk : k = 1 ∨ k = 2 ∨ k = 3 := by omega
    · subst hk
      rw [if_pos (by decide), kernel3dFace_gt (hn 0) (hn 1) (hn 2) h, reach_pairs]
    · subst hk
      rw [if_neg (by decide), if_pos (by decide), kernel3dEdge_gt (hn 0) (hn 1) (hn 2) h, reach_carry]
    · subst hk
      rw [if_neg (by decide), if_neg (by decide), max_qlen, max_qlen,
        kernel1d_gt (le_max_of_le_left (le_max_of_le_left (hn 0))) h, halfUp_max, halfUp_max,
        reach_full (le_refl 3), forall_three, and_assoc]

/-- The level of an edge. -/
theorem edgeLevel_gt (hk1 : 1 ≤ k) (hkd : k ≤ 3) {n : Fin 3 → ℤ} (hn : ∀ i, 0 ≤ n i) {i j : Fin 3}
    (hij : i ≠ j) (hz : ∀ x, x ≠ i → x ≠ j → n x = 0) {L l m : ℕ} (h : L = l + m + 1) :
    (l : ℤ) < (if ibalance 3 k ≠ 0 then kernel1d (max (qlen L * n i) (qlen L * n j)) L
      else kernel2d (qlen L * n i) (qlen L * n j) L) ↔ CanReach k m (fun x => halfUp (n x)) := by
  have hz' : ∀ x, x ≠ i → x ≠ j → halfUp (n x) = 0 := fun x h1 h2 => by rw [hz x h1 h2]; rfl
  by_cases hk : k = 1
  · subst hk
    rw [if_neg (by decide), kernel2d_gt (hn i) (hn j) h, reach_two hij hz']
  · rw [if_pos (by obtain hk | hk : k = 2 ∨ k = 3 := by omega
                   · subst hk; decide
                   · subst hk; decide), max_qlen, kernel1d_gt (le_max_of_le_left (hn i)) h, halfUp_max,
      reach_few]
    · constructor
      · intro h1 x
        by_cases hxi : x = i
        · subst hxi; exact h1.1
        · by_cases hxj : x = j
          · subst hxj; exact h1.2
          · rw [hz' x hxi hxj]; positivity
      · intro h1; exact ⟨h1 i, h1 j⟩
    · refine le_trans (Finset.card_le_card (t := {i, j}) ?_) ((Finset.card_le_two).trans (by omega))
      intro x
      simp only [Finset.mem_filter, Finset.mem_univ, true_and, Finset.mem_insert, Finset.mem_singleton]
      intro h1
      by_contra hc
      push Not at hc
      exact h1 (hz' x hc.1 hc.2)

/-- The level of a face. -/
theorem faceLevel_gt (hk1 : 1 ≤ k) {n : Fin d → ℤ} (hn : ∀ i, 0 ≤ n i) {i : Fin d}
    (hz : ∀ x, x ≠ i → n x = 0) {L l m : ℕ} (h : L = l + m + 1) :
    (l : ℤ) < kernel1d (qlen L * n i) L ↔ CanReach k m (fun x => halfUp (n x)) := by
  have hz' : ∀ x, x ≠ i → halfUp (n x) = 0 := fun x h1 => by rw [hz x h1]; rfl
  rw [kernel1d_gt (hn i) h, reach_few]
  · constructor
    · intro h1 x
      by_cases hxi : x = i
      · subst hxi; exact h1
      · rw [hz' x hxi]; positivity
    · intro h1; exact h1 i
  · refine le_trans (Finset.card_le_card (t := {i}) ?_) (by simpa using hk1)
    intro x
    simp only [Finset.mem_filter, Finset.mem_univ, true_and, Finset.mem_singleton]
    intro h1
    by_contra hc
    exact h1 (hz' x hc)

end P4est
