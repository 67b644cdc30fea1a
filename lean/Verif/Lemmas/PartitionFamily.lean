import Mathlib.Algebra.BigOperators.Ring.Finset
import Mathlib.Algebra.BigOperators.Intervals
import Mathlib.Order.Interval.Finset.Nat
import Verif.Model.PartitionFamily
import Verif.Lemmas.Repartition
import Verif.Spec.Family

/-! # The correction of a cut and the corrected counts -/

namespace P4est
open Spec

/-! ### Shares -/

/-- The lowest rank with the largest share. -/
structure IsBest (w : ℕ → ℕ) (P b : ℕ) : Prop where
  lt : b < P
  max : ∀ i, i < P → w i ≤ w b
  lowest : ∀ i, i < b → w i < w b

theorem IsBest.unique {w : ℕ → ℕ} {P b b' : ℕ} (h : IsBest w P b) (h' : IsBest w P b') : b = b' := by
  rcases Nat.lt_trichotomy b b' with hlt | rfl | hlt
  · have := h'.lowest b hlt
    have := h.max b' h'.lt
    omega
  · rfl
  · have := h.lowest b' hlt
    have := h'.max b h.lt
    omega

theorem exists_best (w : ℕ → ℕ) : ∀ {P : ℕ}, 0 < P → ∃ b, IsBest w P b := by
  intro P hP
  induction P with
  | zero => omega
  | succ P ih =>
    rcases Nat.eq_zero_or_pos P with rfl | hP'
    · exact ⟨0, by omega, fun i hi => by rw [show i = 0 by omega], fun i hi => by omega⟩
    · obtain ⟨b, hb⟩ := ih hP'
      rcases Nat.lt_or_ge (w b) (w P) with h | h
      · refine ⟨P, by omega, fun i hi => ?_, fun i hi => ?_⟩
        · rcases Nat.lt_or_ge i P with h1 | h1
          · exact (hb.max i h1).trans h.le
          · rw [show i = P by omega]
        · exact (hb.max i hi).trans_lt h
      · refine ⟨b, by have := hb.lt; omega, fun i hi => ?_, hb.lowest⟩
        rcases Nat.lt_or_ge i P with h1 | h1
        · exact hb.max i h1
        · rw [show i = P by omega]; exact h

theorem correctionDown_spec {n : ℕ → ℕ} (hn : Monotone n) {part : ℕ → ℤ} {rank m C : ℕ}
    (hpart : ∀ i, i ≤ rank → part i = n i) (h0 : n 0 ≤ m) (hr : n rank < m + C) (k : ℕ) (hk : k ≤ rank) (s : ℤ × ℕ)
    (h1 : s.1 = share n m C s.2) (hpos : 0 < s.1) (hs : s.2 ≤ rank)
    (hmax : ∀ i, k ≤ i → i ≤ rank → (share n m C i : ℤ) ≤ s.1)
    (hlow : ∀ i, k ≤ i → i < s.2 → (share n m C i : ℤ) < s.1) :
    ∃ s', correctionDown part m k s = some s' ∧ s'.1 = share n m C s'.2 ∧ 0 < s'.1 ∧ s'.2 ≤ rank ∧
      (∀ i, i ≤ rank → (share n m C i : ℤ) ≤ s'.1) ∧ ∀ i, i < s'.2 → (share n m C i : ℤ) < s'.1 := by
  induction k generalizing s with
  | zero =>
    refine ⟨s, ?_, h1, hpos, hs, fun i hi => hmax i (by omega) hi, fun i hi => hlow i (by omega) hi⟩
    unfold correctionDown
    rw [if_neg (by rw [hpart 0 (by omega)]; omega)]
  | succ k ih =>
    unfold correctionDown
    rw [hpart (k + 1) hk, hpart k (by omega)]
    split
    · rename_i hlt
      have hle : n (k + 1) < m + C := (hn hk).trans_lt hr
      have hkk : n k ≤ n (k + 1) := hn (by omega)
      have hw : ((n (k + 1) : ℤ) - max (m : ℤ) (n k)) = share n m C k := by unfold share; omega
      rw [hw]
      by_cases hc : s.1 ≤ share n m C k
      · rw [if_pos hc]
        refine ih (by omega) _ rfl (by simp only; omega) (by simp only; omega) ?_ ?_
        · intro i hi1 hi2
          simp only
          rcases Nat.lt_or_ge k i with h | h
          · have := hmax i h hi2; omega
          · rw [show i = k by omega]
        · intro i hi1 hi2
          simp only at hi2
          omega
      · rw [if_neg hc]
        refine ih (by omega) _ h1 hpos hs ?_ ?_
        · intro i hi1 hi2
          rcases Nat.lt_or_ge k i with h | h
          · exact hmax i h hi2
          · rw [show i = k by omega]; omega
        · intro i hi1 hi2
          rcases Nat.lt_or_ge k i with h | h
          · exact hlow i h hi2
          · rw [show i = k by omega]; omega
    · rename_i hge
      have hz : ∀ i, i < k + 1 → share n m C i = 0 := by
        intro i hi
        have : n (i + 1) ≤ n (k + 1) := hn (by omega)
        unfold share; omega
      refine ⟨s, rfl, h1, hpos, hs, fun i hi => ?_, fun i hi => ?_⟩
      · rcases Nat.lt_or_ge i (k + 1) with h | h
        · rw [hz i h]; omega
        · exact hmax i h hi
      · rcases Nat.lt_or_ge i (k + 1) with h | h
        · rw [hz i h]; omega
        · exact hlow i h hi

theorem correctionUp_spec {n : ℕ → ℕ} (hn : Monotone n) {part : ℕ → ℤ} {P m C : ℕ} (hC : 0 < C)
    (hpart : ∀ i, i ≤ P → part i = n i) (hP : m + C ≤ n P) (k i : ℕ) (hi : i + k = P) (hmi : m ≤ n i) (s : ℤ × ℕ)
    (h1 : s.1 = share n m C s.2) (hpos : 0 < s.1) (hs : s.2 < P)
    (hmax : ∀ j, j < i → (share n m C j : ℤ) ≤ s.1)
    (hlow : ∀ j, j < s.2 → (share n m C j : ℤ) < s.1) :
    ∃ s', correctionUp part ((m : ℤ) + C - 1) k i s = some s' ∧ IsBest (share n m C) P s'.2 := by
  induction k generalizing i s with
  | zero =>
    have : i = P := by omega
    subst this
    unfold correctionUp
    rw [hpart i le_rfl, if_neg (by omega)]
    exact ⟨s, rfl, hs, fun j hj => by have := hmax j hj; omega, fun j hj => by have := hlow j hj; omega⟩
  | succ k ih =>
    unfold correctionUp
    rw [hpart i (by omega), hpart (i + 1) (by omega)]
    have hii : n i ≤ n (i + 1) := hn (by omega)
    split
    · rename_i hle
      have hw : min ((m : ℤ) + C - 1) ((n (i + 1) : ℤ) - 1) - n i + 1 = share n m C i := by
        unfold share; omega
      rw [hw]
      by_cases hc : s.1 < share n m C i
      · rw [if_pos hc]
        refine ih (i + 1) (by omega) (by omega) _ rfl (by simp only; omega) (by simp only; omega) ?_ ?_
        · intro j hj
          simp only
          rcases Nat.lt_or_ge j i with h | h
          · have := hmax j h; omega
          · rw [show j = i by omega]
        · intro j hj
          simp only at hj ⊢
          have := hmax j hj; omega
      · rw [if_neg hc]
        refine ih (i + 1) (by omega) (by omega) _ h1 hpos hs ?_ hlow
        intro j hj
        rcases Nat.lt_or_ge j i with h | h
        · exact hmax j h
        · rw [show j = i by omega]; omega
    · rename_i hgt
      refine ⟨s, rfl, hs, fun j hj => ?_, fun j hj => by have := hlow j hj; omega⟩
      rcases Nat.lt_or_ge j i with h | h
      · have := hmax j h; omega
      · have : n i ≤ n j := hn h
        have : share n m C j = 0 := by unfold share; omega
        omega

/-- A cut inside the family `[m, m + C)` is moved to its end if the rank comes after the best rank, to its
beginning otherwise. -/
theorem partitionCorrection_spec {n : ℕ → ℕ} (hn : Monotone n) {part : ℕ → ℤ} {P m C rank : ℕ}
    (hpart : ∀ i, i ≤ P → part i = n i) (h0 : n 0 ≤ m) (hP : m + C ≤ n P) (hr : rank < P)
    (hne : n rank < n (rank + 1)) (hm : m < n rank) (hmC : n rank < m + C) :
    ∃ b, IsBest (share n m C) P b ∧ partitionCorrection C part P rank m ((m : ℤ) + C - 1) =
      some (if b < rank then (n rank : ℤ) - (m + C) else (n rank : ℤ) - m) := by
  have hw : min ((m : ℤ) + C - 1) ((n (rank + 1) : ℤ) - 1) - n rank + 1 = share n m C rank := by
    unfold share; omega
  obtain ⟨s, a1, a2, a3, a4, a5, a6⟩ := correctionDown_spec hn (part := part) (rank := rank) (m := m) (C := C)
    (fun i hi => hpart i (by omega)) h0 hmC rank le_rfl (share n m C rank, rank) rfl
    (by simp only; unfold share; omega) le_rfl
    (by intro i hi1 hi2; rw [show i = rank by omega]) (by intro i hi1 hi2; simp only at hi2; omega)
  have hb : m < n (s.2 + 1) := by
    rw [a2] at a3; unfold share at a3; omega
  obtain ⟨s', b1, b2⟩ := correctionUp_spec hn (by omega) hpart hP (P - (s.2 + 1)) (s.2 + 1) (by omega) hb.le s a2 a3
    (by omega) (fun j hj => a5 j (by omega)) a6
  refine ⟨s'.2, b2, ?_⟩
  unfold partitionCorrection
  rw [if_neg (by omega), hpart rank hr.le, hpart (rank + 1) hr, hw]
  simp only [bind, Option.bind]
  rw [a1]; simp only
  rw [b1]; simp only
  congr 1
  split <;> omega

/-! ### The corrected counts -/

theorem nonemptyLoop_spec (num : ℕ → ℤ) (k r : ℕ) :
    r ≤ nonemptyLoop num k r ∧ nonemptyLoop num k r ≤ r + k ∧ (∀ i, r ≤ i → i < nonemptyLoop num k r → num i = 0) ∧
      (nonemptyLoop num k r < r + k → num (nonemptyLoop num k r) ≠ 0) := by
  induction k generalizing r with
  | zero => exact ⟨le_rfl, le_rfl, fun i h1 h2 => by simp only [nonemptyLoop] at h2; omega, fun h => by simp only [nonemptyLoop] at h; omega⟩
  | succ k ih =>
    unfold nonemptyLoop
    split
    · rename_i h0
      obtain ⟨h1, h2, h3, h4⟩ := ih (r + 1)
      refine ⟨by omega, by omega, fun i hi1 hi2 => ?_, fun h => h4 (by omega)⟩
      rcases Nat.eq_or_lt_of_le hi1 with rfl | h
      · exact h0
      · exact h3 i h hi2
    · rename_i h0
      exact ⟨le_rfl, by omega, fun i h1 h2 => by omega, fun _ => h0⟩

theorem nextNonempty_spec (num : ℕ → ℤ) {P r : ℕ} (hr : r ≤ P) :
    r ≤ nextNonempty r P num ∧ nextNonempty r P num ≤ P ∧ (∀ i, r ≤ i → i < nextNonempty r P num → num i = 0) ∧
      (nextNonempty r P num < P → num (nextNonempty r P num) ≠ 0) := by
  unfold nextNonempty
  split
  · rename_i h
    exact ⟨hr, le_rfl, fun i h1 h2 => by omega, fun h => by omega⟩
  · obtain ⟨h1, h2, h3, h4⟩ := nonemptyLoop_spec num (P - r) r
    exact ⟨h1, by omega, h3, fun h => h4 (by omega)⟩

theorem nonemptyLoop_congr {num num' : ℕ → ℤ} (k r : ℕ) (h : ∀ i, r ≤ i → num i = num' i) :
    nonemptyLoop num k r = nonemptyLoop num' k r := by
  induction k generalizing r with
  | zero => rfl
  | succ k ih =>
    unfold nonemptyLoop
    rw [h r le_rfl, ih (r + 1) fun i hi => h i (by omega)]

theorem nextNonempty_congr {num num' : ℕ → ℤ} {P r : ℕ} (h : ∀ i, r ≤ i → num i = num' i) :
    nextNonempty r P num = nextNonempty r P num' := by
  unfold nextNonempty
  split
  · rfl
  · exact nonemptyLoop_congr _ _ h

theorem nextNonempty_self (num : ℕ → ℤ) {P r : ℕ} (hr : r < P) (h : num r ≠ 0) : nextNonempty r P num = r := by
  unfold nextNonempty
  rw [if_neg (by omega), show P - r = P - r - 1 + 1 by omega]
  unfold nonemptyLoop
  rw [if_neg h]

theorem nextNonempty_empty (num : ℕ → ℤ) {P r : ℕ} (hr : r < P) (h : num r = 0) :
    nextNonempty r P num = nextNonempty (r + 1) P num := by
  unfold nextNonempty
  rw [if_neg (by omega), show P - r = P - r - 1 + 1 by omega]
  rw [nonemptyLoop, if_pos h]
  split
  · rw [show P - r - 1 = 0 by omega]; unfold nonemptyLoop; omega
  · rw [show P - r - 1 = P - (r + 1) by omega]

/-- The correction that is applied to rank `p`. -/
def applied (P : ℕ) (corr : ℕ → ℤ) (p : ℕ) : ℤ := if 0 < p ∧ p < P then corr p else 0

theorem correctLoop_spec (P : ℕ) (corr num : ℕ → ℤ) (f cur : ℕ) (hf : P < cur + f) (hcur : cur ≤ P)
    (hself : cur < P → num cur ≠ 0) (num1 : ℕ → ℤ) (moved : ℤ)
    (hnum1 : ∀ i, cur ≤ i → num1 i = num i) :
    ∃ num' moved', correctLoop P corr f cur (nextNonempty (cur + 1) P num1) (num1, moved) = some (num', moved') ∧
      (∀ i, i < cur → num' i = num1 i) ∧ (∀ i, P ≤ i → num' i = num1 i) ∧
      (∀ i, cur ≤ i → i < P → num' i = if num i = 0 then 0 else
        num i + applied P corr i - applied P corr (nextNonempty (i + 1) P num)) ∧
      moved' = moved + ∑ i ∈ Finset.Ico cur P, if num i = 0 then 0 else |applied P corr i| := by
  induction f generalizing cur num1 moved with
  | zero => omega
  | succ f ih =>
    unfold correctLoop
    split
    · rename_i hlt
      simp only
      have hnn : nextNonempty (cur + 1) P num1 = nextNonempty (cur + 1) P num :=
        nextNonempty_congr fun i hi => hnum1 i (by omega)
      rw [hnn]
      obtain ⟨s1, s2, s3, s4⟩ := nextNonempty_spec num (show cur + 1 ≤ P by omega)
      set nx := nextNonempty (cur + 1) P num with hnx
      set v : ℤ := num cur + applied P corr cur - applied P corr nx with hv
      have hnum2 : (if nx < P then Function.update (if 0 < cur ∧ cur < P then Function.update num1 cur (num1 cur + corr cur) else num1) cur
          ((if 0 < cur ∧ cur < P then Function.update num1 cur (num1 cur + corr cur) else num1) cur - corr nx)
          else if 0 < cur ∧ cur < P then Function.update num1 cur (num1 cur + corr cur) else num1) = Function.update num1 cur v := by
        rw [hv, ← hnum1 cur le_rfl]
        unfold applied
        funext i
        by_cases hi : i = cur
        · subst hi
          rw [Function.update_self]
          by_cases h1 : 0 < i ∧ i < P <;> by_cases h2 : nx < P
          · rw [if_pos h2, if_pos h1, Function.update_self, Function.update_self, if_pos h1, if_pos ⟨by omega, h2⟩]
          · rw [if_neg h2, if_pos h1, Function.update_self, if_pos h1, if_neg (by omega)]; ring
          · rw [if_pos h2, if_neg h1, Function.update_self, if_neg h1, if_pos ⟨by omega, h2⟩]; ring
          · rw [if_neg h2, if_neg h1, if_neg h1, if_neg (by omega)]; ring
        · rw [Function.update_of_ne hi]
          split_ifs <;> simp [Function.update_of_ne hi]
      rw [hnum2]
      have hmv : (if 0 < cur ∧ cur < P then moved + |corr cur| else moved) = moved + |applied P corr cur| := by
        unfold applied
        split <;> simp
      rw [hmv]
      obtain ⟨num', moved', i1, i2, i3, i4, i5⟩ := ih nx (by omega) s2 s4 (Function.update num1 cur v) (moved + |applied P corr cur|)
        (fun i hi => by rw [Function.update_of_ne (by omega)]; exact hnum1 i (by omega))
      have hzero : ∀ i, cur < i → i < nx → num i = 0 := fun i h1 h2 => s3 i h1 h2
      refine ⟨num', moved', i1, fun i hi => ?_, fun i hi => ?_, fun i hi1 hi2 => ?_, ?_⟩
      · rw [i2 i (by omega), Function.update_of_ne (by omega)]
      · rw [i3 i hi, Function.update_of_ne (by omega)]
      · rcases Nat.lt_or_ge i nx with h | h
        · rcases Nat.eq_or_lt_of_le hi1 with rfl | h'
          · rw [i2 _ h, Function.update_self, if_neg (hself hlt)]
          · rw [i2 i h, Function.update_of_ne (by omega), hnum1 i hi1, if_pos (hzero i h' h), hzero i h' h]
        · exact i4 i h hi2
      · rw [i5, ← Finset.sum_Ico_consecutive _ (show cur ≤ nx by omega) s2, Finset.sum_eq_sum_Ico_succ_bot (show cur < nx by omega),
          if_neg (hself hlt)]
        have : ∑ k ∈ Finset.Ico (cur + 1) nx, (if num k = 0 then (0:ℤ) else |applied P corr k|) = 0 := by
          apply Finset.sum_eq_zero
          intro k hk
          rw [Finset.mem_Ico] at hk
          rw [if_pos (hzero k (by omega) hk.2)]
        rw [this]; ring
    · refine ⟨num1, moved, rfl, fun _ _ => rfl, fun _ _ => rfl, fun i h1 h2 => by omega, ?_⟩
      rw [Finset.Ico_eq_empty (by omega), Finset.sum_empty, add_zero]

theorem newCut_eq (num : ℕ → ℕ) (p : ℕ) : newCut (fun p => (num p : ℤ)) p = ((∑ i ∈ Finset.range p, num i : ℕ) : ℤ) := by
  induction p with
  | zero => simp [newCut]
  | succ p ih => rw [newCut, ih, Finset.sum_range_succ]; push_cast; ring

/-- The corrected counts and their sums. -/
theorem correctAll_spec (P : ℕ) (corr : ℕ → ℤ) (num : ℕ → ℤ)
    (hfirst : applied P corr (nextNonempty 0 P num) = 0) :
    ∃ num' moved, correctLoop P corr (P + 1) (nextNonempty 0 P num)
        (nextNonempty (nextNonempty 0 P num + 1) P num) (num, 0) = some (num', moved) ∧
      (∀ p, p < P → num p = 0 → num' p = 0) ∧
      (∀ p, p ≤ P → ∑ i ∈ Finset.range p, num' i =
        ∑ i ∈ Finset.range p, num i - applied P corr (nextNonempty p P num)) ∧
      moved = ∑ i ∈ Finset.range P, if num i = 0 then 0 else |applied P corr i| := by
  obtain ⟨s1, s2, s3, s4⟩ := nextNonempty_spec num (Nat.zero_le P)
  set c := nextNonempty 0 P num with hc
  obtain ⟨num', moved, h1, h2, h3, h4, h5⟩ := correctLoop_spec P corr num (P + 1) c (by omega) s2 s4 num 0 (fun _ _ => rfl)
  have hall : ∀ i, i < P → num' i = if num i = 0 then 0 else
      num i + applied P corr i - applied P corr (nextNonempty (i + 1) P num) := by
    intro i hi
    rcases Nat.lt_or_ge i c with h | h
    · rw [h2 i h, s3 i (by omega) h, if_pos rfl]
    · exact h4 i h hi
  refine ⟨num', moved, h1, fun p hp h0 => by rw [hall p hp, if_pos h0], fun p hp => ?_, ?_⟩
  · induction p with
    | zero => simp [← hc, hfirst]
    | succ p ih =>
      rw [Finset.sum_range_succ, Finset.sum_range_succ, ih (by omega), hall p (by omega)]
      by_cases h0 : num p = 0
      · rw [if_pos h0, nextNonempty_empty num (by omega) h0, h0, add_zero, add_zero]
      · rw [if_neg h0, nextNonempty_self num (by omega) h0]; ring
  · rw [h5, zero_add, Finset.range_eq_Ico, ← Finset.sum_Ico_consecutive _ (Nat.zero_le c) s2]
    rw [Finset.sum_eq_zero (s := Finset.Ico 0 c), zero_add]
    intro k hk
    rw [Finset.mem_Ico] at hk
    rw [if_pos (s3 k (by omega) hk.2)]

end P4est
