import Verif.Lemmas.Morton

namespace P4est
open Spec

variable {d : ℕ}

theorem axisVal_lt {α : Type} [Zero α] (v : Fin d → α) (i : Fin d) : axisVal v (i : ℕ) = v i := by
  simp [axisVal]

theorem axisVal_of_lt {α : Type} [Zero α] (v : Fin d → α) {i : ℕ} (h : i < d) :
    axisVal v i = v ⟨i, h⟩ := by
  simp [axisVal, h]

theorem orUpTo_eq_zero (e : ℕ → ℕ) (i : ℕ) : orUpTo e i = 0 ↔ ∀ k ≤ i, e k = 0 := by
  induction i with
  | zero => simp [orUpTo]
  | succ i ih =>
    simp only [orUpTo, Nat.or_eq_zero_iff, ih]
    constructor
    · rintro ⟨h1, h2⟩ k hk
      rcases Nat.lt_or_ge i k with h | h
      · have : k = i + 1 := by omega
        rw [this]; exact h2
      · exact h1 k h
    · intro h
      exact ⟨fun k hk => h k (by omega), h _ (le_refl _)⟩

theorem orUpTo_half (e : ℕ → ℕ) (i : ℕ) : orUpTo e i / 2 = orUpTo (fun k => e k / 2) i := by
  induction i with
  | zero => rfl
  | succ i ih => simp only [orUpTo, Nat.or_div_two, ih]

theorem gt_half {A B : ℕ} (hd : A &&& B = 0) (h : A / 2 ≠ 0 ∨ B / 2 ≠ 0) :
    A > B ↔ A / 2 > B / 2 := by
  by_cases he : A / 2 = B / 2
  · exfalso
    have h1 : (A &&& B) / 2 = A / 2 &&& B / 2 := Nat.and_div_two
    rw [hd, ← he, Nat.and_self] at h1
    omega
  · omega

theorem or_xor_disjoint (O A : ℕ) : A &&& ((O ||| A) ^^^ A) = 0 := by
  apply Nat.eq_of_testBit_eq
  intro j
  simp only [Nat.testBit_and, Nat.testBit_xor, Nat.testBit_or, Nat.zero_testBit]
  cases A.testBit j <;> cases O.testBit j <;> rfl

theorem decidingAxis_half (e : ℕ → ℕ) (i : ℕ) (h : orUpTo (fun k => e k / 2) i ≠ 0) :
    decidingAxis e i = decidingAxis (fun k => e k / 2) i := by
  induction i with
  | zero => rfl
  | succ i ih =>
    have hdis : e (i + 1) &&& (orUpTo e (i + 1) ^^^ e (i + 1)) = 0 := or_xor_disjoint _ _
    have hB : (orUpTo e (i + 1) ^^^ e (i + 1)) / 2
        = orUpTo (fun k => e k / 2) (i + 1) ^^^ e (i + 1) / 2 := by
      rw [Nat.xor_div_two, orUpTo_half]
    have hne : e (i + 1) / 2 ≠ 0 ∨ (orUpTo e (i + 1) ^^^ e (i + 1)) / 2 ≠ 0 := by
      by_contra hc
      push Not at hc
      obtain ⟨h1, h2⟩ := hc
      rw [hB, h1, Nat.xor_zero] at h2
      exact h h2
    have hcond := gt_half hdis hne
    rw [hB] at hcond
    simp only [decidingAxis]
    by_cases hc : e (i + 1) > orUpTo e (i + 1) ^^^ e (i + 1)
    · rw [if_pos hc, if_pos (hcond.mp hc)]
    · rw [if_neg hc, if_neg (fun hh => hc (hcond.mpr hh))]
      apply ih
      intro h0
      apply hc
      rw [hcond]
      have hO : orUpTo (fun k => e k / 2) (i + 1) = e (i + 1) / 2 := by
        simp only [orUpTo, h0, Nat.zero_or]
      rw [hO, Nat.xor_self]
      rw [hO] at h
      omega

theorem decidingAxis_low (e : ℕ → ℕ) (i : ℕ) (h1 : ∀ k ≤ i, e k ≤ 1) (h : orUpTo e i ≠ 0) :
    decidingAxis e i ≤ i ∧ e (decidingAxis e i) = 1 ∧
      ∀ k, decidingAxis e i < k → k ≤ i → e k = 0 := by
  induction i with
  | zero =>
    simp only [orUpTo] at h
    simp only [decidingAxis]
    have := h1 0 (le_refl _)
    exact ⟨le_refl _, by omega, fun k h2 h3 => by omega⟩
  | succ i ih =>
    have hb : ∀ j, orUpTo e j ≤ 1 ∨ ¬ (∀ k ≤ j, e k ≤ 1) := by
      intro j
      by_cases hh : ∀ k ≤ j, e k ≤ 1
      · left
        have h2 : orUpTo e j / 2 = 0 := by
          rw [orUpTo_half, orUpTo_eq_zero]
          intro k hk
          have := hh k hk
          omega
        omega
      · exact Or.inr hh
    have hO : orUpTo e i ≤ 1 := (hb i).resolve_right (fun hn => hn (fun k hk => h1 k (by omega)))
    have he := h1 (i + 1) (le_refl _)
    simp only [decidingAxis]
    have hcase : e (i + 1) = 0 ∨ e (i + 1) = 1 := by omega
    rcases hcase with hz | ho
    · rw [if_neg (by rw [hz]; omega)]
      have hne : orUpTo e i ≠ 0 := by
        intro hc
        apply h
        simp only [orUpTo, hc, hz]
        rfl
      obtain ⟨ha, hb, hc⟩ := ih (fun k hk => h1 k (by omega)) hne
      refine ⟨by omega, hb, ?_⟩
      intro k h2 h3
      rcases Nat.lt_or_ge i k with h4 | h4
      · have : k = i + 1 := by omega
        rw [this]; exact hz
      · exact hc k h2 h4
    · have hx : orUpTo e (i + 1) ^^^ e (i + 1) = 0 := by
        simp only [orUpTo, ho]
        have : orUpTo e i = 0 ∨ orUpTo e i = 1 := by omega
        rcases this with h | h <;> rw [h] <;> rfl
      rw [if_pos (by rw [hx, ho]; norm_num)]
      exact ⟨le_refl _, ho, fun k h2 h3 => by omega⟩

theorem digit_lt_iff (a b : Fin d → ℕ) (j : Fin d) (hne : a j % 2 ≠ b j % 2)
    (hup : ∀ k, j < k → a k % 2 = b k % 2) : digit a < digit b ↔ a j % 2 < b j % 2 := by
  induction d with
  | zero => exact j.elim0
  | succ d ih =>
    rw [digit_succ, digit_succ]
    have ha := digit_lt (fun i : Fin d => a i.castSucc)
    have hb := digit_lt (fun i : Fin d => b i.castSucc)
    induction j using Fin.lastCases with
    | last =>
      have h1 : a (Fin.last d) % 2 = 0 ∨ a (Fin.last d) % 2 = 1 := by omega
      have h2 : b (Fin.last d) % 2 = 0 ∨ b (Fin.last d) % 2 = 1 := by omega
      rcases h1 with h1 | h1 <;> rcases h2 with h2 | h2 <;> rw [h1, h2]
      · exact absurd (h1.trans h2.symm) hne
      · omega
      · omega
      · exact absurd (h1.trans h2.symm) hne
    | cast j =>
      have := ih (fun i => a i.castSucc) (fun i => b i.castSucc) j hne
        (fun k hk => hup k.castSucc (by simpa using hk))
      rw [hup (Fin.last d) (Fin.castSucc_lt_last j)]
      rw [← this]
      omega

/-- The deciding axis of the exclusive-or trick decides the interleaved order. -/
theorem decidingAxis_spec (n : ℕ) (hd : 0 < d) (a b : Fin d → ℕ)
    (ha : ∀ i, a i < 2 ^ n) (hb : ∀ i, b i < 2 ^ n)
    (hne : orUpTo (fun i => axisVal a i ^^^ axisVal b i) (d - 1) ≠ 0) :
    let j := decidingAxis (fun i => axisVal a i ^^^ axisVal b i) (d - 1)
    axisVal a j ≠ axisVal b j ∧
      (axisVal a j < axisVal b j ↔ interleave n a < interleave n b) := by
  induction n generalizing a b with
  | zero =>
    exfalso
    apply hne
    rw [orUpTo_eq_zero]
    intro k hk
    have hk' : k < d := by omega
    have h1 := ha ⟨k, hk'⟩
    have h2 := hb ⟨k, hk'⟩
    rw [axisVal_of_lt a hk', axisVal_of_lt b hk']
    have e1 : a ⟨k, hk'⟩ = 0 := by omega
    have e2 : b ⟨k, hk'⟩ = 0 := by omega
    rw [e1, e2]; rfl
  | succ n ih =>
    intro j
    have hv : ∀ (v : Fin d → ℕ) i, axisVal (fun i => v i / 2) i = axisVal v i / 2 := by
      intro v i
      simp only [axisVal]
      split <;> rfl
    have he : (fun k => (axisVal a k ^^^ axisVal b k) / 2)
        = (fun i => axisVal (fun i => a i / 2) i ^^^ axisVal (fun i => b i / 2) i) := by
      funext k
      rw [Nat.xor_div_two, hv, hv]
    by_cases h0 : orUpTo (fun k => (axisVal a k ^^^ axisVal b k) / 2) (d - 1) = 0
    · -- only the lowest bits differ
      have hall := (orUpTo_eq_zero _ _).mp h0
      have hle : ∀ k ≤ d - 1, axisVal a k ^^^ axisVal b k ≤ 1 := by
        intro k hk
        have := hall k hk
        omega
      obtain ⟨hj1, hj2, hj3⟩ := decidingAxis_low _ (d - 1) hle hne
      have hjd : j < d := by omega
      have hsame : ∀ i : Fin d, a i / 2 = b i / 2 := by
        intro i
        have h1 : (axisVal a i ^^^ axisVal b i) / 2 = 0 := hall i (by omega)
        rw [axisVal_lt, axisVal_lt, Nat.xor_div_two] at h1
        exact Nat.xor_eq_zero_iff.mp h1
      have hj2' : a ⟨j, hjd⟩ ^^^ b ⟨j, hjd⟩ = 1 := by
        have : axisVal a j ^^^ axisVal b j = 1 := hj2
        rwa [axisVal_of_lt a hjd, axisVal_of_lt b hjd] at this
      have hm : a ⟨j, hjd⟩ % 2 ≠ b ⟨j, hjd⟩ % 2 := by
        intro hc
        have : a ⟨j, hjd⟩ = b ⟨j, hjd⟩ := by have := hsame ⟨j, hjd⟩; omega
        rw [this, Nat.xor_self] at hj2'
        omega
      have hup : ∀ k : Fin d, (⟨j, hjd⟩ : Fin d) < k → a k % 2 = b k % 2 := by
        intro k hk
        have h1 : axisVal a k ^^^ axisVal b k = 0 := hj3 k hk (by omega)
        rw [axisVal_lt, axisVal_lt] at h1
        rw [Nat.xor_eq_zero_iff.mp h1]
      rw [axisVal_of_lt a hjd, axisVal_of_lt b hjd]
      have hs := hsame ⟨j, hjd⟩
      refine ⟨by intro hc; rw [hc] at hm; exact hm rfl, ?_⟩
      simp only [interleave]
      rw [show (fun i => a i / 2) = (fun i => b i / 2) from funext hsame]
      rw [Nat.add_lt_add_iff_left, digit_lt_iff a b ⟨j, hjd⟩ hm hup]
      omega
    · have hj := decidingAxis_half (fun i => axisVal a i ^^^ axisVal b i) (d - 1) h0
      rw [he] at h0
      have := ih (fun i => a i / 2) (fun i => b i / 2)
        (fun i => by have := ha i; rw [pow_succ] at this; omega)
        (fun i => by have := hb i; rw [pow_succ] at this; omega) h0
      simp only [hv] at this
      have hjj : j = decidingAxis (fun i => axisVal a i / 2 ^^^ axisVal b i / 2) (d - 1) := by
        rw [show j = _ from hj]
        congr 1
        funext k
        rw [Nat.xor_div_two]
      rw [← hjj] at this
      obtain ⟨t1, t2⟩ := this
      refine ⟨fun hc => t1 (by rw [hc]), ?_⟩
      have hda := digit_lt a
      have hdb := digit_lt b
      simp only [interleave]
      have hne' : interleave n (fun i => a i / 2) ≠ interleave n (fun i => b i / 2) := by
        intro hc
        apply t1
        have hjd : j < d ∨ ¬ j < d := by omega
        rcases hjd with hjd | hjd
        · have e := interleave_inj hc ⟨j, hjd⟩
          have ha' := ha ⟨j, hjd⟩
          have hb' := hb ⟨j, hjd⟩
          rw [pow_succ] at ha' hb'
          rw [Nat.mod_eq_of_lt (by omega), Nat.mod_eq_of_lt (by omega)] at e
          rw [axisVal_of_lt a hjd, axisVal_of_lt b hjd]
          exact e
        · simp [axisVal, hjd]
      have h3 : axisVal a j < axisVal b j ↔ axisVal a j / 2 < axisVal b j / 2 := by omega
      rw [h3, t2]
      constructor
      · intro h
        calc _ < 2 ^ d * interleave n (fun i => a i / 2) + 2 ^ d := by omega
          _ = 2 ^ d * (interleave n (fun i => a i / 2) + 1) := by ring
          _ ≤ 2 ^ d * interleave n (fun i => b i / 2) := Nat.mul_le_mul_left _ h
          _ ≤ _ := Nat.le_add_right _ _
      · intro h
        by_contra hc
        have hgt : interleave n (fun i => b i / 2) < interleave n (fun i => a i / 2) := by omega
        have : 2 ^ d * interleave n (fun i => b i / 2) + digit b
            < 2 ^ d * interleave n (fun i => a i / 2) + digit a := by
          calc _ < 2 ^ d * interleave n (fun i => b i / 2) + 2 ^ d := by omega
            _ = 2 ^ d * (interleave n (fun i => b i / 2) + 1) := by ring
            _ ≤ 2 ^ d * interleave n (fun i => a i / 2) := Nat.mul_le_mul_left _ hgt
            _ ≤ _ := Nat.le_add_right _ _
        omega

theorem u32_lt (z : ℤ) : u32 z < 2 ^ 32 := by
  unfold u32
  have h0 : 0 ≤ z % 2 ^ 32 := Int.emod_nonneg _ (by norm_num)
  have h1 : z % 2 ^ 32 < 2 ^ 32 := Int.emod_lt_of_pos _ (by norm_num)
  omega

theorem u32_cast (z : ℤ) : ((u32 z : ℕ) : ℤ) = z % 2 ^ 32 := by
  unfold u32
  exact Int.toNat_of_nonneg (Int.emod_nonneg _ (by norm_num))

theorem u32_testBit (z : ℤ) (j : ℕ) :
    (u32 z).testBit j = (decide (j < 32) && Int.testBit z j) := by
  have : Int.testBit ((u32 z : ℕ) : ℤ) j = (u32 z).testBit j := rfl
  rw [← this, u32_cast]
  exact tb_mod z 32 j

theorem u32_xor (x y : ℤ) : u32 (Int.xor x y) = u32 x ^^^ u32 y := by
  apply Nat.eq_of_testBit_eq
  intro j
  rw [Nat.testBit_xor, u32_testBit, u32_testBit, u32_testBit, Int.testBit_lxor]
  cases decide (j < 32) <;> simp

theorem u32_inj {x y : ℤ} (hx : -2 ^ 31 ≤ x ∧ x < 2 ^ 31) (hy : -2 ^ 31 ≤ y ∧ y < 2 ^ 31)
    (h : u32 x = u32 y) : x = y := by
  have : (u32 x : ℤ) = u32 y := by rw [h]
  rw [u32_cast, u32_cast] at this
  omega

theorem axisVal_u32 (v : Fin d → ℤ) (i : ℕ) :
    axisVal (fun i => u32 (v i)) i = u32 (axisVal v i) := by
  simp only [axisVal]
  split <;> rfl

theorem curve_eq (p : Fin d → ℤ) : curve p = interleave 32 (fun i => u32 (p i)) := rfl

theorem curve_inj {a b : Fin d → ℤ} (ha : Int32 a) (hb : Int32 b) (h : curve a = curve b) :
    a = b := by
  funext i
  rw [curve_eq, curve_eq] at h
  have := interleave_inj h i
  rw [Nat.mod_eq_of_lt (u32_lt _), Nat.mod_eq_of_lt (u32_lt _)] at this
  exact u32_inj (ha i) (hb i) this

/-- The three-way result of `p4est_coordinates_compare`. -/
theorem coordsCompare_cases (hd : 0 < d) {a b : Fin d → ℤ} (ha : Int32 a) (hb : Int32 b) :
    (curve a < curve b ∧ coordsCompare a b = -1) ∨
    (a = b ∧ coordsCompare a b = 0) ∨
    (curve b < curve a ∧ coordsCompare a b = 1) := by
  have he : (fun i => u32 (Int.xor (axisVal a i) (axisVal b i)))
      = (fun i => axisVal (fun i => u32 (a i)) i ^^^ axisVal (fun i => u32 (b i)) i) := by
    funext i; rw [u32_xor, axisVal_u32, axisVal_u32]
  unfold coordsCompare
  simp only [he]
  by_cases h0 : orUpTo (fun i => axisVal (fun i => u32 (a i)) i ^^^ axisVal (fun i => u32 (b i)) i)
      (d - 1) = 0
  · right; left
    rw [if_pos h0]
    refine ⟨?_, rfl⟩
    funext i
    have := (orUpTo_eq_zero _ _).mp h0 i (by omega)
    rw [axisVal_lt, axisVal_lt] at this
    exact u32_inj (ha i) (hb i) (Nat.xor_eq_zero_iff.mp this)
  · rw [if_neg h0]
    obtain ⟨t1, t2⟩ := decidingAxis_spec 32 hd (fun i => u32 (a i)) (fun i => u32 (b i))
      (fun i => u32_lt _) (fun i => u32_lt _) h0
    generalize decidingAxis (fun i => axisVal (fun i => u32 (a i)) i
      ^^^ axisVal (fun i => u32 (b i)) i) (d - 1) = j at *
    rw [axisVal_u32, axisVal_u32] at t1 t2
    rw [← curve_eq, ← curve_eq] at t2
    have hp : ∀ v : Fin d → ℤ, Int32 v → axisVal v j + (if axisVal v j ≥ 0 then 0 else 2 ^ (MAXLEVEL + 2))
        = ((u32 (axisVal v j) : ℕ) : ℤ) := by
      intro v hv
      rw [u32_cast]
      have hr : -2 ^ 31 ≤ axisVal v j ∧ axisVal v j < 2 ^ 31 := by
        by_cases hj : j < d
        · rw [axisVal_of_lt v hj]; exact hv _
        · simp [axisVal, hj]
      have hM : (2:ℤ) ^ (MAXLEVEL + 2) = 2 ^ 32 := by rfl
      rw [hM]
      split <;> omega
    rw [hp a ha, hp b hb]
    have hcne : curve a ≠ curve b := by
      intro hc
      have := curve_inj ha hb hc
      rw [this] at t1
      exact t1 rfl
    rcases Nat.lt_or_gt_of_ne t1 with h | h
    · left
      refine ⟨t2.mp h, ?_⟩
      rw [if_neg (by omega), if_pos (by omega)]
    · right; right
      have : ¬ curve a < curve b := fun hc => by have := t2.mpr hc; omega
      refine ⟨by omega, ?_⟩
      rw [if_neg (by omega), if_neg (by omega)]

theorem compare_cases (hd : 0 < d) {q r : Quad d} (hq : Int32 q.c) (hr : Int32 r.c) :
    (Before q r ∧ compare q r < 0) ∨ (q = r ∧ compare q r = 0) ∨ (Before r q ∧ 0 < compare q r) := by
  unfold compare Before
  rcases coordsCompare_cases hd hq hr with ⟨h1, h2⟩ | ⟨h1, h2⟩ | ⟨h1, h2⟩
  · left; rw [h2]; exact ⟨Or.inl h1, by simp⟩
  · rw [h2, h1]
    simp only [ne_eq, not_true_eq_false, if_false, lt_irrefl, true_and, false_or]
    rcases Nat.lt_trichotomy q.level r.level with h | h | h
    · left; exact ⟨h, by omega⟩
    · right; left
      refine ⟨?_, by omega⟩
      cases q; cases r; simp_all
    · right; right; exact ⟨h, by omega⟩
  · right; right; rw [h2]; exact ⟨Or.inl h1, by simp⟩

theorem Spec.Before.irrefl {q : Quad d} : ¬ Before q q := by
  intro h; rcases h with h | h <;> omega

theorem Spec.Before.trans {q r s : Quad d} (h1 : Before q r) (h2 : Before r s) : Before q s := by
  unfold Before at *; omega

theorem Spec.Before.asymm {q r : Quad d} (h1 : Before q r) : ¬ Before r q := by
  unfold Before at *; omega

theorem compare_neg_iff (hd : 0 < d) {q r : Quad d} (hq : Int32 q.c) (hr : Int32 r.c) :
    compare q r < 0 ↔ Before q r := by
  rcases compare_cases hd hq hr with ⟨h1, h2⟩ | ⟨h1, h2⟩ | ⟨h1, h2⟩
  · exact ⟨fun _ => h1, fun _ => h2⟩
  · exact ⟨fun h => by omega, fun h => absurd (h1 ▸ h) Before.irrefl⟩
  · exact ⟨fun h => by omega, fun h => absurd h1 h.asymm⟩

theorem compare_eq_zero_iff (hd : 0 < d) {q r : Quad d} (hq : Int32 q.c) (hr : Int32 r.c) :
    compare q r = 0 ↔ q = r := by
  rcases compare_cases hd hq hr with ⟨h1, h2⟩ | ⟨h1, h2⟩ | ⟨h1, h2⟩
  · exact ⟨fun h => by omega, fun h => absurd (h ▸ h1) Before.irrefl⟩
  · exact ⟨fun _ => h1, fun _ => h2⟩
  · exact ⟨fun h => by omega, fun h => absurd (h ▸ h1) Before.irrefl⟩

theorem compare_pos_iff (hd : 0 < d) {q r : Quad d} (hq : Int32 q.c) (hr : Int32 r.c) :
    0 < compare q r ↔ Before r q := by
  rcases compare_cases hd hq hr with ⟨h1, h2⟩ | ⟨h1, h2⟩ | ⟨h1, h2⟩
  · exact ⟨fun h => by omega, fun h => absurd h1 h.asymm⟩
  · exact ⟨fun h => by omega, fun h => absurd (h1 ▸ h) Before.irrefl⟩
  · exact ⟨fun _ => h1, fun _ => h2⟩

end P4est
