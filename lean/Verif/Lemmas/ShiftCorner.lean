import Verif.Model.ShiftCorner
import Verif.Props.BalanceClosed

/-! # The loop that shifts a quadrant to a corner -/

namespace P4est
open Spec

variable {d : ℕ}

/-- The coordinate of the quadrant of level `l` that is number `e` from the upper (`b`) or the lower end of
the tree. -/
def fromEnd (b : Bool) (l : ℕ) (e : ℤ) : ℤ := 2 ^ (30 - l) * (if b then 2 ^ l - 1 - e else e)

/-- The quadrant of level `l` at a corner of the tree. -/
def atEnd (d corner l : ℕ) : Quad d := ⟨fun i => fromEnd (corner.testBit i) l 0, l⟩

theorem pow_all {l : ℕ} (hl : l ≤ 30) : (2 : ℤ) ^ (30 - l) * 2 ^ l = 2 ^ 30 := by
  rw [← pow_add]; congr 1; omega

theorem fromEnd_aligned {q : Quad d} (hl : q.level ≤ 30) {b : Fin d → Bool} {e : Fin d → ℤ}
    (h : ∀ i, q.c i = fromEnd (b i) q.level (e i)) : Aligned q :=
  ⟨hl, fun i => by rw [h i]; exact dvd_mul_right _ _⟩

theorem parent_fromEnd {q : Quad d} {l : ℕ} (hq : Aligned q) (hl : q.level = l + 1) {b : Bool} {e : ℤ} {i : Fin d}
    (h : q.c i = fromEnd b (l + 1) e) : (parent q).c i = fromEnd b l (e / 2) := by
  have h30 := hq.1
  rw [parent_c hq (by omega), h, hl, show l + 1 - 1 = l by omega]
  unfold fromEnd
  rw [pow_split (l := l) (by omega)]
  have hP : (0 : ℤ) < 2 ^ (30 - (l + 1)) := by positivity
  rw [mul_comm 2, Int.mul_ediv_mul_of_pos _ _ hP]
  congr 1
  cases b
  · simp
  · simp only [if_true, pow_succ]
    generalize (2 : ℤ) ^ l = K
    omega

theorem sibling_fromEnd {q : Quad d} {l : ℕ} (hq : Aligned q) (hl : q.level = l + 1) {corner : ℕ} {e : ℤ}
    {i : Fin d} (h : q.c i = fromEnd (corner.testBit i) (l + 1) e) :
    (sibling q corner).c i = fromEnd (corner.testBit i) (l + 1) (2 * (e / 2)) := by
  have h30 := hq.1
  rw [sibling_eq hq (by omega), child_c (parent_aligned hq (by omega)) (by rw [parent_level]; omega),
    parent_fromEnd hq hl h, parent_level, show q.level - 1 + 1 = l + 1 by omega]
  unfold fromEnd
  rw [pow_split (l := l) (by omega)]
  generalize (2 : ℤ) ^ (30 - (l + 1)) = P
  cases corner.testBit i
  · simp; ring
  · simp only [if_true, pow_succ]; ring

theorem step_fromEnd {q : Quad d} {l : ℕ} (hq : Aligned q) (hl : q.level = l + 1) {corner : ℕ} {e : ℤ}
    {i : Fin d} (h : q.c i = fromEnd (corner.testBit i) (l + 1) e) :
    (cornerNeighbor (parent q) corner).c i = fromEnd (corner.testBit i) l (e / 2 - 1) := by
  unfold cornerNeighbor
  simp only [parent_fromEnd hq hl h, parent_level, hl, show l + 1 - 1 = l by omega, qlen_def]
  unfold fromEnd
  cases corner.testBit i
  · simp; ring
  · simp; ring

theorem fromEnd_le {b : Bool} {l : ℕ} {e : ℤ} (h : 0 < l) (hl : l ≤ 30) (he : e < 2 ^ l) :
    ((decide (fromEnd b l e ≤ 0) = !b) ∧ (decide (fromEnd b l e ≥ lastOffsetAt l) = b)) ↔
      e ≤ 0 := by
  have hP : (0 : ℤ) < 2 ^ (30 - l) := by positivity
  have h2 : (2 : ℤ) ≤ 2 ^ l := by
    calc (2 : ℤ) = 2 ^ 1 := by norm_num
      _ ≤ 2 ^ l := pow_le_pow_right₀ (by norm_num) h
  have hth : lastOffsetAt l = 2 ^ (30 - l) * (2 ^ l - 1) := by
    unfold lastOffsetAt rootLen MAXLEVEL
    rw [qlen_def, mul_sub, pow_all hl, mul_one]
  rw [hth]
  unfold fromEnd
  generalize (2 : ℤ) ^ l = K at *
  generalize (2 : ℤ) ^ (30 - l) = P at *
  have a1 : ∀ z : ℤ, P * z ≤ 0 ↔ z ≤ 0 := fun z => by
    constructor
    · intro h; by_contra hc; nlinarith
    · intro h; nlinarith
  have a2 : ∀ z w : ℤ, P * z ≥ P * w ↔ w ≤ z := fun z w => by
    exact mul_le_mul_iff_of_pos_left hP
  simp only [a1, a2]
  cases b
  · simp; omega
  · simp; omega

/-- What the loop returns, with the level at which it stops. -/
theorem shiftLoop_spec (corner : ℕ) : ∀ (l : ℕ) (q : Quad d) (e : Fin d → ℤ), 0 < l → l ≤ 29 → q.level = l →
    (∀ i, q.c i = fromEnd (corner.testBit i) l (e i)) → (∀ i, -2 ≤ e i ∧ e i < 2 ^ l) →
    ∃ j, j < l ∧ shiftCornerLoop corner l q = some (atEnd d corner (l - j)) ∧
      (∀ i, e i + 2 < 2 ^ (j + 2)) ∧ (0 < j → ∃ i, 2 ^ (j + 1) ≤ e i + 2)
  | 0, _, _, h0, _, _, _, _ => absurd h0 (by omega)
  | l + 1, q, e, _, hl, hql, hc, he => by
    have hqa : Aligned q := fromEnd_aligned (b := fun i => corner.testBit i) (e := e) (by omega) (by rw [hql]; exact hc)
    have h2 : (2 : ℤ) ≤ 2 ^ (l + 1) := by
      calc (2 : ℤ) = 2 ^ 1 := by norm_num
        _ ≤ 2 ^ (l + 1) := pow_le_pow_right₀ (by norm_num) (by omega)
    have hsib : ∀ i, (sibling q corner).c i = fromEnd (corner.testBit i) (l + 1) (2 * (e i / 2)) :=
      fun i => sibling_fromEnd hqa hql (hc i)
    have hK : (2 : ℤ) ^ (l + 1) = 2 * 2 ^ l := by rw [pow_succ]; ring
    have htest : atCorner (sibling q corner) (lastOffsetAt q.level) corner = true ↔ ∀ i, e i ≤ 1 := by
      unfold atCorner
      rw [decide_eq_true_eq]
      refine forall_congr' fun i => ?_
      rw [hsib i, hql, fromEnd_le (by omega) (by omega) (by have := he i; omega)]
      omega
    unfold shiftCornerLoop
    by_cases ht : ∀ i, e i ≤ 1
    · refine ⟨0, by omega, ?_, ?_, fun h => absurd h (by omega)⟩
      · simp only [htest.mpr ht, if_true, Option.some.injEq]
        apply Quad.ext'
        · intro i
          unfold clampToTree atEnd
          simp only [hsib i, hql, Nat.sub_zero]
          have h30 := pow_all (l := l + 1) (by omega)
          have hP : (0 : ℤ) < 2 ^ (30 - (l + 1)) := by positivity
          have h1 := ht i
          have h1' := he i
          have hcase : 2 * (e i / 2) = 0 ∨ 2 * (e i / 2) = -2 := by omega
          unfold lastOffsetAt rootLen MAXLEVEL
          rw [qlen_def, ← h30]
          unfold fromEnd
          generalize (2 : ℤ) ^ (l + 1) = K at *
          generalize (2 : ℤ) ^ (30 - (l + 1)) = P at *
          have hPK : 2 * P ≤ P * K := by nlinarith
          rcases hcase with h | h <;> rw [h] <;> cases corner.testBit i <;>
            simp only [if_true, if_false, Bool.false_eq_true, show P * (K - 1 - 0) = P * K - P by ring,
              show P * (K - 1 - -2) = P * K + P by ring, show P * -2 = -(2 * P) by ring, mul_zero] <;>
            generalize P * K = Q at * <;> split_ifs <;> omega
        · exact hql
      · intro i
        have := ht i
        norm_num; omega
    · simp only [show atCorner (sibling q corner) (lastOffsetAt q.level) corner = false from by
        rw [Bool.eq_false_iff]; exact fun h => ht (htest.mp h), Bool.false_eq_true, if_false]
      have hl0 : 0 < l := by
        rcases Nat.eq_zero_or_pos l with rfl | h
        · exact absurd (fun i => by have := (he i).2; norm_num at this; omega) ht
        · exact h
      have h2' : (2 : ℤ) ≤ 2 ^ l := by
        calc (2 : ℤ) = 2 ^ 1 := by norm_num
          _ ≤ 2 ^ l := pow_le_pow_right₀ (by norm_num) (by omega)
      have hstep : ∀ i, (cornerNeighbor (parent q) corner).c i = fromEnd (corner.testBit i) l (e i / 2 - 1) :=
        fun i => step_fromEnd hqa hql (hc i)
      have hlev : (cornerNeighbor (parent q) corner).level = l := by
        show q.level - 1 = l
        omega
      have hrange : ∀ i, -2 ≤ e i / 2 - 1 ∧ e i / 2 - 1 < 2 ^ l := fun i => by have := he i; omega
      have hext : isExtended (cornerNeighbor (parent q) corner) = true := by
        rw [isExtended_iff]
        refine ⟨by omega, fromEnd_aligned (b := fun i => corner.testBit i) (by omega) (by rw [hlev]; exact hstep), fun i => ?_⟩
        rw [hstep i]
        have h1 := hrange i
        have h30 := pow_all (l := l) (by omega)
        have hP : (0 : ℤ) < 2 ^ (30 - l) := by positivity
        rw [show (2 : ℤ) ^ 31 = 2 * 2 ^ 30 by norm_num, ← h30]
        unfold fromEnd
        generalize (2 : ℤ) ^ l = K at *
        generalize (2 : ℤ) ^ (30 - l) = P at *
        generalize e i / 2 - 1 = w at *
        cases corner.testBit i
        · simp only [Bool.false_eq_true, if_false]; constructor <;> nlinarith
        · simp only [if_true]; constructor <;> nlinarith
      obtain ⟨j, hj, hr, ha, hb⟩ := shiftLoop_spec corner l _ (fun i => e i / 2 - 1) hl0 (by omega) hlev hstep hrange
      refine ⟨j + 1, by omega, ?_, ?_, fun _ => ?_⟩
      · rw [if_pos hext, hr, show l + 1 - (j + 1) = l - j by omega]
      · intro i
        have := ha i
        rw [show (2 : ℤ) ^ (j + 1 + 2) = 2 * 2 ^ (j + 2) by rw [← pow_succ']]
        omega
      · rcases Nat.eq_zero_or_pos j with rfl | h
        · simp only [not_forall] at ht
          obtain ⟨i, hi⟩ := ht
          exact ⟨i, by norm_num; omega⟩
        · obtain ⟨i, hi⟩ := hb h
          refine ⟨i, ?_⟩
          rw [show (2 : ℤ) ^ (j + 1 + 1) = 2 * 2 ^ (j + 1) by rw [← pow_succ']]
          omega

/-- Every step may round down every distance. -/
theorem canReach_all : ∀ {m : ℕ} {e : Fin d → ℕ}, CanReach d m e ↔ ∀ i, e i < 2 ^ m
  | 0, e => by simp [CanReach]
  | m + 1, e => by
    unfold CanReach
    constructor
    · rintro ⟨A, _, hodd, h⟩ i
      have h1 := canReach_all.mp h i
      rw [pow_succ]
      by_cases hi : i ∈ A
      · have := hodd i hi; rw [if_pos hi] at h1; omega
      · rw [if_neg hi] at h1; omega
    · intro h
      refine ⟨Finset.univ.filter fun i => e i % 2 = 1, ?_, fun i hi => (Finset.mem_filter.mp hi).2, canReach_all.mpr ?_⟩
      · exact (Finset.card_le_univ _).trans (by simp)
      · intro i
        have := h i
        rw [pow_succ] at this
        simp only [Finset.mem_filter, Finset.mem_univ, true_and]
        split <;> omega

/-- Which quadrants at a corner are divided because of `q`. -/
theorem forces_atEnd {q : Quad d} {corner l : ℕ} {e : Fin d → ℤ} (hq : q.level ≤ 30) (he : ∀ i, 0 ≤ e i)
    (hc : ∀ i, q.c i = fromEnd (corner.testBit i) q.level (e i)) :
    Forces d q (atEnd d corner l) ↔ l < q.level ∧ ∀ i, e i + 2 < 2 ^ (q.level - l + 1) := by
  have key : ∀ m, q.level = l + m + 1 → ∀ i, (halfDist q (atEnd d corner l) i < 2 ^ m ↔ e i + 2 < 2 ^ (m + 2)) := by
    intro m hm i
    unfold halfDist
    rw [halfUp_lt (outNum_nonneg _ _ _)]
    have hn : numAt q q.level i = if corner.testBit i then 2 ^ q.level - 1 - e i else e i := by
      unfold numAt; rw [hc i]; unfold fromEnd
      exact Int.mul_ediv_cancel_left _ (by positivity)
    have hp : numAt (atEnd d corner l) l i = if corner.testBit i then 2 ^ l - 1 else 0 := by
      unfold numAt atEnd fromEnd
      rw [Int.mul_ediv_cancel_left _ (by positivity)]
      simp
    unfold outNum
    rw [show (atEnd d corner l).level = l from rfl, hn, hp, show q.level - l = m + 1 by omega, hm,
      show (2 : ℤ) ^ (l + m + 1) = 2 ^ l * 2 ^ (m + 1) by rw [← pow_add]; rfl,
      show (2 : ℤ) ^ (m + 2) = 2 * 2 ^ (m + 1) by rw [← pow_succ']]
    have h1 := he i
    have hM : (2 : ℤ) ≤ 2 ^ (m + 1) := by
      calc (2 : ℤ) = 2 ^ 1 := by norm_num
        _ ≤ 2 ^ (m + 1) := pow_le_pow_right₀ (by norm_num) (by omega)
    have e1 : ((2 : ℤ) ^ l - 1) * 2 ^ (m + 1) = 2 ^ l * 2 ^ (m + 1) - 2 ^ (m + 1) := by ring
    have e2 : ((2 : ℤ) ^ l - 1 + 1) * 2 ^ (m + 1) = 2 ^ l * 2 ^ (m + 1) := by ring
    cases corner.testBit i
    · simp only [Bool.false_eq_true, if_false, zero_mul, zero_add, one_mul]
      generalize (2 : ℤ) ^ (m + 1) = M at *
      omega
    · simp only [if_true, e1, e2]
      generalize (2 : ℤ) ^ l * 2 ^ (m + 1) = L at *
      generalize (2 : ℤ) ^ (m + 1) = M at *
      omega
  unfold Forces
  constructor
  · rintro ⟨m, hm, h⟩
    have hm' : q.level = l + m + 1 := hm
    refine ⟨by omega, fun i => ?_⟩
    rw [show q.level - l + 1 = m + 2 by omega]
    exact (key m hm' i).mp (canReach_all.mp h i)
  · rintro ⟨hl, h⟩
    refine ⟨q.level - l - 1, by show q.level = l + (q.level - l - 1) + 1; omega, canReach_all.mpr fun i => ?_⟩
    rw [key _ (by omega) i, show q.level - l - 1 + 2 = q.level - l + 1 by omega]
    exact h i

end P4est
