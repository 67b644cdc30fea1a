import Verif.Lemmas.SeedsSplit

/-! # How far the division reaches, in numbers -/

namespace P4est
open Spec

variable {d : ℕ} {l0 : ℕ} {lo hi : Fin d → ℤ} {k : ℕ}

/-- The distance of the number `T` from the range of the number `P` that is `m` levels coarser. -/
def gap (m : ℕ) (T P : ℤ) : ℕ := (max (P * 2 ^ m - T) (T - (P * 2 ^ m + 2 ^ m - 1))).toNat

/-- In `m` steps the distances `e` can be made zero: a step halves every distance and rounds up, but
may round down at most `k` of them. -/
def CanReach (k : ℕ) : ℕ → (Fin d → ℕ) → Prop
  | 0, e => ∀ i, e i = 0
  | m + 1, e => ∃ A : Finset (Fin d), A.card ≤ k ∧ (∀ i ∈ A, e i % 2 = 1) ∧
      CanReach k m (fun i => if i ∈ A then e i / 2 else (e i + 1) / 2)

theorem CanReach.mono : ∀ {m : ℕ} {e e' : Fin d → ℕ}, CanReach k m e' → (∀ i, e i ≤ e' i) → CanReach k m e
  | 0, e, e', h, hle => fun i => by have := h i; have := hle i; omega
  | m + 1, e, e', ⟨A, hA, hodd, h⟩, hle => by
    refine ⟨A.filter fun i => e i % 2 = 1, (Finset.card_filter_le _ _).trans hA, ?_, h.mono ?_⟩
    · intro i hi
      exact (Finset.mem_filter.mp hi).2
    · intro i
      have h1 := hle i
      have h2 := hodd i
      simp only [Finset.mem_filter]
      by_cases hi : i ∈ A
      · have := h2 hi
        simp only [hi, true_and, if_true]
        split <;> omega
      · simp only [hi, false_and, if_false]
        omega

/-- A sequence of steps from a quadrant to one that is `m` levels coarser. -/
def Steps (lo hi : Fin d → ℤ) (k l : ℕ) : ℕ → (Fin d → ℤ) → (Fin d → ℤ) → Prop
  | 0, T, P => T = P
  | m + 1, T, P => ∃ (A : Finset (Fin d)) (T' : Fin d → ℤ), A.card ≤ k ∧
      (∀ i, T' i = T i / 2 + if i ∈ A then (if T i % 2 = 1 then 1 else -1) else 0) ∧
      Cells (qat (l + m) T') ⊆ BoxOf lo hi ∧ Steps lo hi k l m T' P

theorem Steps.append {l : ℕ} : ∀ {m : ℕ} {T P1 P : Fin d → ℤ}, Steps lo hi k (l + 1) m T P1 →
    (∃ A : Finset (Fin d), A.card ≤ k ∧
      (∀ i, P i = P1 i / 2 + if i ∈ A then (if P1 i % 2 = 1 then 1 else -1) else 0)) →
    Cells (qat l P) ⊆ BoxOf lo hi → Steps lo hi k l (m + 1) T P
  | 0, T, P1, P, h, ⟨A, hA, hn⟩, hb => by
    have : T = P1 := h
    subst this
    exact ⟨A, P, hA, hn, hb, rfl⟩
  | m + 1, T, P1, P, ⟨A, T', hA, hn, hb', h⟩, hs, hb => by
    refine ⟨A, T', hA, hn, ?_, h.append hs hb⟩
    rwa [show l + (m + 1) = l + 1 + m by omega]

theorem split_steps {s : Quad d} {l : ℕ} {n : Fin d → ℤ} (h : SplitAt l0 lo hi k {s} l n) :
    ∀ m, s.level = l + m + 1 → Steps lo hi k l m (numAt s (l + m)) n := by
  induction h with
  | @base s' l n hs hl hn =>
    intro m hm
    have : s' = s := hs
    subst this
    have : m = 0 := by omega
    subst this
    exact hn.symm
  | @step l n n' A _ h0 hA hn hb ih =>
    intro m hm
    cases m with
    | zero =>
      -- a step cannot lead to the level of the parent
      exfalso
      rename_i h1
      have : ∀ {l : ℕ} {n : Fin d → ℤ}, SplitAt l0 lo hi k {s} l n → l + 1 ≤ s.level := by
        intro l n h
        induction h with
        | base hs hl hn =>
          have := Set.mem_singleton_iff.mp hs
          rw [← this]; omega
        | step _ _ _ _ _ _ ih => omega
      have := this h1
      omega
    | succ m =>
      have h2 := ih m (by omega)
      rw [show l + 1 + m = l + (m + 1) by omega] at h2
      exact h2.append ⟨A, hA, hn⟩ hb

theorem path_split {S : Set (Quad d)} {l : ℕ} (h0 : l0 ≤ l) : ∀ {m : ℕ} {T P : Fin d → ℤ},
    Steps lo hi k l m T P → SplitAt l0 lo hi k S (l + m) T → SplitAt l0 lo hi k S l P
  | 0, T, P, h, hs => by
    have : T = P := h
    subst this
    exact hs
  | m + 1, T, P, ⟨A, T', hA, hn, hb, h⟩, hs =>
    path_split h0 h (SplitAt.step A hs (by omega) hA hn hb)

/-! ## One axis -/

theorem gap_zero (T P : ℤ) : gap 0 T P = 0 ↔ T = P := by
  unfold gap
  simp only [pow_zero]
  omega

theorem gap_floor (m : ℕ) (T P : ℤ) : gap m (T / 2) P = (gap (m + 1) T P + 1) / 2 := by
  unfold gap
  have hM : (1 : ℤ) ≤ 2 ^ m := one_le_pow₀ (by norm_num)
  have e : P * 2 ^ (m + 1) = 2 * (P * 2 ^ m) := by ring
  rw [e, pow_succ]
  generalize P * 2 ^ m = X at *
  generalize (2 : ℤ) ^ m = M at *
  omega

theorem gap_near (m : ℕ) (T P : ℤ) :
    gap (m + 1) T P / 2 ≤ gap m (T / 2 + (if T % 2 = 1 then 1 else -1)) P := by
  unfold gap
  have hM : (1 : ℤ) ≤ 2 ^ m := one_le_pow₀ (by norm_num)
  have e : P * 2 ^ (m + 1) = 2 * (P * 2 ^ m) := by ring
  rw [e, pow_succ]
  generalize P * 2 ^ m = X at *
  generalize (2 : ℤ) ^ m = M at *
  split <;> omega

theorem gap_odd {m : ℕ} {T P : ℤ} (h : gap (m + 1) T P % 2 = 1) :
    gap m (T / 2 + (if T % 2 = 1 then 1 else -1)) P = gap (m + 1) T P / 2 := by
  unfold gap at *
  have hM : (1 : ℤ) ≤ 2 ^ m := one_le_pow₀ (by norm_num)
  have e : P * 2 ^ (m + 1) = 2 * (P * 2 ^ m) := by ring
  rw [e, pow_succ] at h ⊢
  clear e
  generalize P * 2 ^ m = X at *
  generalize (2 : ℤ) ^ m = M at *
  split <;> omega

/-- Bounds of the box in numbers of a level. -/
theorem box_bounds (hD : Dom l0 lo hi) (l : ℕ) (h0 : l0 ≤ l) :
    ∃ a b : Fin d → ℤ, ∀ m n, l + m ≤ 30 → (Cells (qat (l + m) n) ⊆ BoxOf lo hi ↔
      ∀ i, a i * 2 ^ m ≤ n i ∧ n i + 1 ≤ b i * 2 ^ m) := by
  have hdv : (2 : ℤ) ^ (30 - l) ∣ 2 ^ (30 - l0) := pow_dvd_pow 2 (by omega)
  refine ⟨fun i => lo i / 2 ^ (30 - l), fun i => hi i / 2 ^ (30 - l), fun m n hm => ?_⟩
  rw [qat_sub_box]
  apply forall_congr'
  intro i
  obtain ⟨a, ha⟩ := hdv.trans (hD.dlo i)
  obtain ⟨b, hb⟩ := hdv.trans (hD.dhi i)
  dsimp only
  rw [ha, hb, Int.mul_ediv_cancel_left _ (by positivity), Int.mul_ediv_cancel_left _ (by positivity)]
  have e : (2 : ℤ) ^ (30 - l) = 2 ^ (30 - (l + m)) * 2 ^ m := by rw [← pow_add]; congr 1; omega
  have hp : (0 : ℤ) < 2 ^ (30 - (l + m)) := by positivity
  rw [e]
  generalize (2 : ℤ) ^ (30 - (l + m)) = h at *
  apply and_congr
  · rw [mul_assoc, mul_le_mul_iff_right₀ hp, mul_comm]
  · rw [mul_assoc, ← mul_add_one, mul_le_mul_iff_right₀ hp, mul_comm b]

/-- There is a sequence of steps exactly if the distances can be made zero. -/
theorem path_iff_reach (hD : Dom l0 lo hi) {l : ℕ} (h0 : l0 ≤ l) : ∀ {m : ℕ} {T P : Fin d → ℤ},
    l + m ≤ 30 → Cells (qat (l + m) T) ⊆ BoxOf lo hi → Cells (qat l P) ⊆ BoxOf lo hi →
    (Steps lo hi k l m T P ↔ CanReach k m (fun i => gap m (T i) (P i)))
  | 0, T, P, _, _, _ => by
    show T = P ↔ ∀ i, gap 0 (T i) (P i) = 0
    simp only [gap_zero]
    exact funext_iff
  | m + 1, T, P, hm, hT, hP => by
    constructor
    · rintro ⟨A, T', hA, hn, hb, h⟩
      have hr := (path_iff_reach hD h0 (by omega) hb hP).mp h
      refine ⟨A.filter fun i => gap (m + 1) (T i) (P i) % 2 = 1, (Finset.card_filter_le _ _).trans hA,
        fun i hi => (Finset.mem_filter.mp hi).2, hr.mono fun i => ?_⟩
      dsimp only
      rw [hn i]
      simp only [Finset.mem_filter]
      by_cases hi : i ∈ A
      · have := gap_near m (T i) (P i)
        simp only [hi, true_and, if_true]
        by_cases ho : gap (m + 1) (T i) (P i) % 2 = 1
        · rw [if_pos ho]; exact this
        · rw [if_neg ho]; omega
      · simp only [hi, false_and, if_false, add_zero]
        rw [gap_floor]
    · rintro ⟨A, hA, hodd, hr⟩
      obtain ⟨a, b, hab⟩ := box_bounds hD l h0
      have hb : Cells (qat (l + m) (fun i => T i / 2 + if i ∈ A then (if T i % 2 = 1 then 1 else -1) else 0)) ⊆ BoxOf lo hi := by
        rw [hab m _ (by omega)]
        rw [hab (m + 1) _ hm] at hT
        have hP' := (hab 0 P (by omega)).mp hP
        intro i
        have h1 := hT i
        have h2 := hP' i
        have h3 : i ∈ A → gap (m + 1) (T i) (P i) % 2 = 1 := hodd i
        have hM : (1 : ℤ) ≤ 2 ^ m := one_le_pow₀ (by norm_num)
        have h4 : a i * 2 ^ m ≤ P i * 2 ^ m := by nlinarith [h2.1]
        have h5 : P i * 2 ^ m + 2 ^ m ≤ b i * 2 ^ m := by nlinarith [h2.2]
        unfold gap at h3
        rw [show P i * 2 ^ (m + 1) = 2 * (P i * 2 ^ m) by ring] at h3
        rw [show a i * 2 ^ (m + 1) = 2 * (a i * 2 ^ m) by ring, show b i * 2 ^ (m + 1) = 2 * (b i * 2 ^ m) by ring] at h1
        rw [pow_succ] at h3
        generalize P i * 2 ^ m = X at *
        generalize a i * 2 ^ m = a' at *
        generalize b i * 2 ^ m = b' at *
        generalize (2 : ℤ) ^ m = M at *
        by_cases hi : i ∈ A
        · have h6 := h3 hi
          rw [if_pos hi]
          split <;> omega
        · rw [if_neg hi]
          omega
      refine ⟨A, _, hA, fun i => rfl, hb, (path_iff_reach hD h0 (by omega) hb hP).mpr ?_⟩
      refine hr.mono fun i => ?_
      dsimp only
      by_cases hi : i ∈ A
      · rw [if_pos hi, if_pos hi, gap_odd (hodd i hi)]
      · rw [if_neg hi, if_neg hi, add_zero, gap_floor]

/-- A quadrant is divided because of `s` exactly if the distances can be made zero. -/
theorem split_iff_reach (hD : Dom l0 lo hi) {s : Quad d} (hs : SplitSource l0 lo hi s) {l m : ℕ}
    (h0 : l0 ≤ l) (hm : s.level = l + m + 1) {n : Fin d → ℤ} (hn : Cells (qat l n) ⊆ BoxOf lo hi) :
    SplitAt l0 lo hi k {s} l n ↔ CanReach k m (fun i => gap m (numAt s (l + m) i) (n i)) := by
  have hS : ∀ t ∈ ({s} : Set (Quad d)), SplitSource l0 lo hi t := fun t ht => by
    rw [Set.mem_singleton_iff.mp ht]; exact hs
  have h29 := hs.fine
  have hb : SplitAt l0 lo hi k {s} (l + m) (numAt s (l + m)) := SplitAt.base rfl hm rfl
  rw [← path_iff_reach hD h0 (by omega) (hb.inv hD hS).2.2 hn]
  exact ⟨fun h => split_steps h m hm, fun h => path_split h0 h hb⟩

end P4est
