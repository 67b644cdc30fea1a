import Verif.Model.ShiftEdge
import Verif.Lemmas.ShiftCorner

/-! # The loop that shifts an octant to an edge -/

namespace P4est
open Spec

variable {d : ℕ}

/-- The place of a quadrant, counted from the ends `b`. -/
def Placed (q : Quad d) (l : ℕ) (b : Fin d → Bool) (e : Fin d → ℤ) : Prop :=
  q.level = l ∧ ∀ i, q.c i = fromEnd (b i) l (e i)

theorem Placed.aligned {q : Quad d} {l : ℕ} {b : Fin d → Bool} {e : Fin d → ℤ} (h : Placed q l b e) (hl : l ≤ 30) :
    Aligned q := fromEnd_aligned (b := b) (e := e) (by rw [h.1]; exact hl) (by rw [h.1]; exact h.2)

theorem fromEnd_bounds {b : Bool} {l : ℕ} {e : ℤ} (hl : l ≤ 30) (h : 0 ≤ e ∧ e < 2 ^ l) :
    0 ≤ fromEnd b l e ∧ fromEnd b l e < 2 ^ 30 := by
  have h30 := pow_all hl
  have hP : (0 : ℤ) < 2 ^ (30 - l) := by positivity
  unfold fromEnd
  rw [← h30]
  generalize (2 : ℤ) ^ l = K at *
  generalize (2 : ℤ) ^ (30 - l) = P at *
  cases b
  · simp only [Bool.false_eq_true, if_false]; constructor <;> nlinarith
  · simp only [if_true]; constructor <;> nlinarith

theorem Placed.valid {q : Quad d} {l : ℕ} {b : Fin d → Bool} {e : Fin d → ℤ} (h : Placed q l b e) (hl : l ≤ 29)
    (he : ∀ i, 0 ≤ e i ∧ e i < 2 ^ l) : Valid q :=
  ⟨by rw [h.1]; exact hl, h.aligned (by omega), fun i => by rw [h.2 i]; exact fromEnd_bounds (by omega) (he i)⟩

theorem Placed.extended {q : Quad d} {l : ℕ} {b : Fin d → Bool} {e : Fin d → ℤ} (h : Placed q l b e) (hl : l ≤ 29)
    (h1 : 0 < l) (he : ∀ i, -2 ≤ e i ∧ e i < 2 ^ l + 2) : isExtended q = true := by
  rw [isExtended_iff]
  refine ⟨by rw [h.1]; exact hl, h.aligned (by omega), fun i => ?_⟩
  rw [h.2 i]
  have h1 := he i
  have h30 := pow_all (l := l) (by omega)
  have hP : (0 : ℤ) < 2 ^ (30 - l) := by positivity
  have h2 : (2 : ℤ) ≤ 2 ^ l := by
    calc (2 : ℤ) = 2 ^ 1 := by norm_num
      _ ≤ 2 ^ l := pow_le_pow_right₀ (by norm_num) (by omega)
  rw [show (2 : ℤ) ^ 31 = 2 * 2 ^ 30 by norm_num, ← h30]
  unfold fromEnd
  generalize (2 : ℤ) ^ l = K at *
  generalize (2 : ℤ) ^ (30 - l) = P at *
  generalize e i = w at *
  cases b i
  · simp only [Bool.false_eq_true, if_false]; constructor <;> nlinarith
  · simp only [if_true]; constructor <;> nlinarith

theorem Placed.sibling {q : Quad d} {l : ℕ} {b : Fin d → Bool} {e : Fin d → ℤ} (h : Placed q (l + 1) b e)
    (hl : l + 1 ≤ 30) (k : ℕ) :
    Placed (sibling q k) (l + 1) b fun i => 2 * (e i / 2) + if k.testBit i = b i then 0 else 1 := by
  refine ⟨h.1, fun i => ?_⟩
  have hq := h.aligned hl
  have hlev := h.1
  rw [sibling_eq hq (by omega), child_c (parent_aligned hq (by omega)) (by rw [parent_level]; omega),
    parent_fromEnd hq hlev (h.2 i), parent_level, show q.level - 1 + 1 = l + 1 by omega]
  unfold fromEnd
  rw [pow_split (l := l) (by omega)]
  generalize (2 : ℤ) ^ (30 - (l + 1)) = P
  dsimp only
  generalize k.testBit (i : ℕ) = c
  generalize b i = b
  cases c <;> cases b <;> simp [pow_succ] <;> ring

theorem Placed.clamp {q : Quad d} {l : ℕ} {b : Fin d → Bool} {e : Fin d → ℤ} (h : Placed q l b e) (hl : l ≤ 30)
    (h1 : 0 < l) (i : Fin d) :
    (clampToTree q (lastOffsetAt l)).c i = fromEnd (b i) l (max 0 (min (e i) (2 ^ l - 1))) := by
  unfold clampToTree
  simp only [h.2 i]
  have h30 := pow_all hl
  have hP : (0 : ℤ) < 2 ^ (30 - l) := by positivity
  have h2 : (2 : ℤ) ≤ 2 ^ l := by
    calc (2 : ℤ) = 2 ^ 1 := by norm_num
      _ ≤ 2 ^ l := pow_le_pow_right₀ (by norm_num) (by omega)
  unfold lastOffsetAt rootLen MAXLEVEL
  rw [qlen_def, ← h30]
  unfold fromEnd
  generalize (2 : ℤ) ^ l = K at *
  generalize (2 : ℤ) ^ (30 - l) = P at *
  generalize e i = w
  have key : ∀ n : ℤ, (if (if P * n < 0 then 0 else P * n) ≥ P * K then P * K - P else if P * n < 0 then 0 else P * n) =
      P * max 0 (min n (K - 1)) := by
    intro n
    by_cases c1 : n < 0
    · have : P * n < 0 := by nlinarith
      rw [if_pos this, if_neg (by nlinarith), max_eq_left (by omega)]; simp
    · have : ¬ P * n < 0 := by nlinarith
      rw [if_neg this]
      by_cases c2 : K ≤ n
      · rw [if_pos (by nlinarith), min_eq_right (by omega), max_eq_right (by omega)]; ring
      · rw [if_neg (by intro h; nlinarith), min_eq_left (by omega), max_eq_right (by omega)]
  rw [key]
  cases b i
  · simp
  · simp only [if_true]
    congr 1
    omega

theorem edge_axis {edge : ℕ} (he : edge < 12) : edge / 4 < 3 := by omega

theorem edgeEnd_axis {edge : ℕ} {a : Fin 3} (ha : (a : ℕ) = edge / 4) : edgeEnd edge a = false := by
  unfold edgeEnd; rw [if_pos ha]

theorem edge_lower : ∀ edge < 12, ∀ i : Fin 3, (edgeLower edge).testBit i = edgeEnd edge i := by decide +kernel

theorem edge_upper : ∀ edge < 12, ∀ i : Fin 3,
    (edgeLower edge + 2 ^ (edge / 4)).testBit i = if (i : ℕ) = edge / 4 then true else edgeEnd edge i := by decide +kernel

theorem edge_same : ∀ edge < 12, ∀ c < 8, ∀ i : Fin 3,
    (edgeLower edge + (c &&& 2 ^ (edge / 4))).testBit i = if (i : ℕ) = edge / 4 then c.testBit i else edgeEnd edge i := by
  decide +kernel

theorem Placed.move {q : Quad 3} {l : ℕ} {edge : ℕ} {e : Fin 3 → ℤ} (h : Placed q (l + 1) (edgeEnd edge) e)
    (hl : l + 1 ≤ 30) (along : ℤ) :
    Placed (edgeMove q edge along) l (edgeEnd edge) fun i => e i / 2 + if (i : ℕ) = edge / 4 then along else -1 := by
  have hlev := h.1
  refine ⟨by show q.level - 1 = l; omega, fun i => ?_⟩
  unfold edgeMove edgeStep
  simp only [parent_fromEnd (h.aligned hl) hlev (h.2 i), qlen_def, show q.level - 1 = l by omega]
  unfold fromEnd
  by_cases ha : (i : ℕ) = edge / 4
  · simp only [if_pos ha, edgeEnd_axis ha]; simp; ring
  · simp only [if_neg ha]
    cases edgeEnd edge i
    · simp; ring
    · simp; ring

theorem childId_axis {q : Quad 3} {l : ℕ} {edge : ℕ} {e : Fin 3 → ℤ} (h : Placed q (l + 1) (edgeEnd edge) e)
    (hl : l + 1 ≤ 30) {i : Fin 3} (hi : (i : ℕ) = edge / 4) : (childId q).testBit i = decide (e i % 2 = 1) := by
  have hlev := h.1
  rw [childId_testBit q (by omega), h.2 i, hlev, edgeEnd_axis hi]
  unfold fromEnd
  simp only [Bool.false_eq_true, if_false]
  rw [Int.mul_ediv_cancel_left _ (by positivity)]

/-- What the loop returns, with the level at which it stops. -/
theorem shiftEdgeLoop_spec {edge : ℕ} (hed : edge < 12) {a : Fin 3} (ha : (a : ℕ) = edge / 4) :
    ∀ (l : ℕ) (q0 q1 q2 : Quad 3) (e0 e1 e2 : Fin 3 → ℤ), 0 < l → l ≤ 29 →
    Placed q0 l (edgeEnd edge) e0 → Placed q1 l (edgeEnd edge) e1 → Placed q2 l (edgeEnd edge) e2 →
    (∀ i ≠ a, e0 i = e1 i ∧ e2 i = e1 i ∧ -2 ≤ e1 i ∧ e1 i < 2 ^ l) → (0 ≤ e0 a ∧ e0 a < 2 ^ l + 2) →
    (0 ≤ e1 a ∧ e1 a < 2 ^ l) → (-2 ≤ e2 a ∧ e2 a < 2 ^ l) →
    ∃ j, j < l ∧ ∃ r rup rdown f0 f1 f2, shiftEdgeLoop edge l q0 q1 q2 = some (r, rup, rdown) ∧
      Placed r (l - j) (edgeEnd edge) f1 ∧ Placed rup (l - j) (edgeEnd edge) f0 ∧
      Placed rdown (l - j) (edgeEnd edge) f2 ∧ (∀ i ≠ a, f0 i = 0 ∧ f1 i = 0 ∧ f2 i = 0) ∧
      f1 a = e1 a / 2 ^ j ∧ f0 a = min (2 * (((e0 a - 2) / 2 ^ j + 2) / 2)) (2 ^ (l - j) - 1) ∧
      f2 a = max 0 (2 * (((e2 a + 2) / 2 ^ j - 2) / 2) + 1) ∧
      (∀ i ≠ a, e1 i + 2 < 2 ^ (j + 2)) ∧ (0 < j → ∃ i ≠ a, 2 ^ (j + 1) ≤ e1 i + 2)
  | 0, _, _, _, _, _, _, h0, _, _, _, _, _, _, _, _ => absurd h0 (by omega)
  | l + 1, q0, q1, q2, e0, e1, e2, _, hl, p0, p1, p2, hlat, r0, r1, r2 => by
    have h2 : (2 : ℤ) ≤ 2 ^ (l + 1) := by
      calc (2 : ℤ) = 2 ^ 1 := by norm_num
        _ ≤ 2 ^ (l + 1) := pow_le_pow_right₀ (by norm_num) (by omega)
    have hK : (2 : ℤ) ^ (l + 1) = 2 * 2 ^ l := by rw [pow_succ]; ring
    have hne : ∀ i : Fin 3, (i : ℕ) = edge / 4 ↔ i = a := fun i => by rw [← ha]; exact Fin.val_inj
    have s1 := p1.sibling (by omega) (edgeLower edge + (childId q1 &&& 2 ^ (edge / 4)))
    have s0 := p0.sibling (by omega) (edgeLower edge)
    have s2 := p2.sibling (by omega) (edgeLower edge + 2 ^ (edge / 4))
    have b1 : ∀ i : Fin 3, (2 * (e1 i / 2) + if (edgeLower edge + (childId q1 &&& 2 ^ (edge / 4))).testBit i = edgeEnd edge i
        then (0 : ℤ) else 1) = if i = a then e1 i else 2 * (e1 i / 2) := by
      intro i
      rw [edge_same edge hed _ (childId_lt q1) i]
      by_cases hi : i = a
      · subst hi
        rw [if_pos ha, if_pos rfl, childId_axis p1 (by omega) ha, edgeEnd_axis ha]
        by_cases hz : e1 i % 2 = 1
        · simp [hz]; omega
        · simp [hz]; omega
      · rw [if_neg (fun h => hi ((hne i).mp h)), if_neg hi]; simp
    have b0 : ∀ i : Fin 3, (2 * (e0 i / 2) + if (edgeLower edge).testBit i = edgeEnd edge i
        then (0 : ℤ) else 1) = 2 * (e0 i / 2) := by
      intro i
      rw [edge_lower edge hed i]; simp
    have b2 : ∀ i : Fin 3, (2 * (e2 i / 2) + if (edgeLower edge + 2 ^ (edge / 4)).testBit i = edgeEnd edge i
        then (0 : ℤ) else 1) = if i = a then 2 * (e2 i / 2) + 1 else 2 * (e2 i / 2) := by
      intro i
      rw [edge_upper edge hed i]
      by_cases hi : i = a
      · subst hi
        rw [if_pos ha, if_pos rfl, edgeEnd_axis ha]; simp
      · rw [if_neg (fun h => hi ((hne i).mp h)), if_neg hi]; simp
    simp only [b1] at s1
    simp only [b0] at s0
    simp only [b2] at s2
    have hstepne : ∀ i : Fin 3, edgeStep edge i ≠ 0 ↔ i ≠ a := by
      intro i
      unfold edgeStep
      by_cases hi : i = a
      · rw [if_pos ((hne i).mpr hi)]; simp [hi]
      · rw [if_neg (fun h => hi ((hne i).mp h))]
        cases edgeEnd edge i <;> simp [hi]
    have htest : atEdge (sibling q1 (edgeLower edge + (childId q1 &&& 2 ^ (edge / 4)))) (lastOffsetAt q0.level) edge = true ↔
        ∀ i ≠ a, e1 i ≤ 1 := by
      unfold atEdge
      rw [decide_eq_true_eq]
      refine forall_congr' fun i => ?_
      rw [hstepne i]
      refine imp_congr_right fun hi => ?_
      have hs := s1.2 i
      simp only [if_neg hi] at hs
      rw [hs, p0.1, fromEnd_le (by omega) (by omega) (by have := hlat i hi; omega)]
      omega
    unfold shiftEdgeLoop
    by_cases ht : ∀ i ≠ a, e1 i ≤ 1
    · simp only [htest.mpr ht, if_true]
      rw [p0.1]
      refine ⟨0, by omega, _, _, _, fun i => max 0 (min (2 * (e0 i / 2)) (2 ^ (l + 1) - 1)),
        fun i => if i = a then e1 i else max 0 (min (2 * (e1 i / 2)) (2 ^ (l + 1) - 1)),
        fun i => max 0 (min (if i = a then 2 * (e2 i / 2) + 1 else 2 * (e2 i / 2)) (2 ^ (l + 1) - 1)), rfl,
        ⟨s1.1, fun i => ?_⟩, ⟨s0.1, fun i => s0.clamp (by omega) (by omega) i⟩,
        ⟨s2.1, fun i => s2.clamp (by omega) (by omega) i⟩, ?_, ?_, ?_, ?_, ?_, fun h => absurd h (by omega)⟩
      · unfold clampLateral
        by_cases hi : i = a
        · simp only [if_neg (not_not.mpr hi |> fun h h' => h ((hstepne i).mp h')), if_pos hi]
          rw [s1.2 i]
          dsimp only
          rw [if_pos hi, Nat.sub_zero]
        · simp only [if_pos ((hstepne i).mpr hi), if_neg hi]
          rw [s1.clamp (by omega) (by omega) i, if_neg hi, Nat.sub_zero]
      · intro i hi
        have h3 := hlat i hi
        have h4 := ht i hi
        simp only [if_neg hi, h3.1, h3.2.1]
        generalize (2 : ℤ) ^ (l + 1) = K at *
        omega
      · simp
      · simp only [pow_zero, Int.ediv_one, Nat.sub_zero]
        generalize (2 : ℤ) ^ (l + 1) = K at *
        omega
      · simp only [if_true, pow_zero, Int.ediv_one]
        omega
      · intro i hi
        have := ht i hi
        norm_num; omega
    · simp only [show atEdge (sibling q1 (edgeLower edge + (childId q1 &&& 2 ^ (edge / 4)))) (lastOffsetAt q0.level) edge = false
        from by rw [Bool.eq_false_iff]; exact fun h => ht (htest.mp h), Bool.false_eq_true, if_false]
      have hl0 : 0 < l := by
        rcases Nat.eq_zero_or_pos l with rfl | h
        · exact absurd (fun i hi => by have := (hlat i hi).2.2.2; norm_num at this; omega) ht
        · exact h
      have m0 := p0.move (by omega) 1
      have m1 := p1.move (by omega) 0
      have m2 := p2.move (by omega) (-1)
      simp only [hne] at m0 m1 m2
      have hKl : (1 : ℤ) ≤ 2 ^ l := one_le_pow₀ (by norm_num)
      have x0 := m0.extended (by omega) hl0 fun i => by
        by_cases hi : i = a
        · rw [if_pos hi, hi]; omega
        · have := hlat i hi; rw [if_neg hi]; omega
      have x1 := m1.extended (by omega) hl0 fun i => by
        by_cases hi : i = a
        · rw [if_pos hi, hi]; omega
        · have := hlat i hi; rw [if_neg hi]; omega
      have x2 := m2.extended (by omega) hl0 fun i => by
        by_cases hi : i = a
        · rw [if_pos hi, hi]; omega
        · have := hlat i hi; rw [if_neg hi]; omega
      obtain ⟨j, hj, r, rup, rdown, f0, f1, f2, hr, a1, a2, a3, a4, a5, a6, a7, a8, a9⟩ :=
        shiftEdgeLoop_spec hed ha l _ _ _ _ _ _ hl0 (by omega) m0 m1 m2
          (fun i hi => by have := hlat i hi; simp only [if_neg hi]; omega) (by simp only [if_true]; omega)
          (by simp only [if_true]; omega) (by simp only [if_true]; omega)
      have hsub : l + 1 - (j + 1) = l - j := by omega
      have hdiv : ∀ z : ℤ, z / 2 / 2 ^ j = z / 2 ^ (j + 1) := fun z => by
        rw [Int.ediv_ediv_of_nonneg (by norm_num), ← pow_succ']
      refine ⟨j + 1, by omega, r, rup, rdown, f0, f1, f2, ?_, ?_, ?_, ?_, a4, ?_, ?_, ?_, ?_, fun _ => ?_⟩
      · rw [x0, x1, x2]; exact hr
      · rw [hsub]; exact a1
      · rw [hsub]; exact a2
      · rw [hsub]; exact a3
      · rw [a5, if_pos rfl, add_zero, hdiv]
      · rw [a6, if_pos rfl, hsub, show e0 a / 2 + 1 - 2 = (e0 a - 2) / 2 by omega, hdiv]
      · rw [a7, if_pos rfl, show e2 a / 2 + -1 + 2 = (e2 a + 2) / 2 by omega, hdiv]
      · intro i hi
        have := a8 i hi
        rw [if_neg hi] at this
        rw [show (2 : ℤ) ^ (j + 1 + 2) = 2 * 2 ^ (j + 2) by rw [← pow_succ']]
        omega
      · rcases Nat.eq_zero_or_pos j with rfl | h
        · simp only [not_forall] at ht
          obtain ⟨i, hi, hi'⟩ := ht
          exact ⟨i, hi, by norm_num; omega⟩
        · obtain ⟨i, hi, hi'⟩ := a9 h
          refine ⟨i, hi, ?_⟩
          rw [if_neg hi] at hi'
          rw [show (2 : ℤ) ^ (j + 1 + 1) = 2 * 2 ^ (j + 1) by rw [← pow_succ']]
          omega

/-- Which quadrants a quadrant divides in corner-balanced meshes. -/
theorem forces_full {q t : Quad d} :
    Forces d q t ↔ t.level < q.level ∧ ∀ i, outNum q t i + 1 < 2 ^ (q.level - t.level) := by
  unfold Forces
  constructor
  · rintro ⟨m, hm, h⟩
    refine ⟨by omega, fun i => ?_⟩
    have := canReach_all.mp h i
    unfold halfDist at this
    rw [halfUp_lt (outNum_nonneg _ _ _)] at this
    rwa [show q.level - t.level = m + 1 by omega]
  · rintro ⟨hl, h⟩
    refine ⟨q.level - t.level - 1, by omega, canReach_all.mpr fun i => ?_⟩
    unfold halfDist
    rw [halfUp_lt (outNum_nonneg _ _ _), show q.level - t.level - 1 + 1 = q.level - t.level by omega]
    exact h i

theorem Placed.num {q : Quad d} {l : ℕ} {b : Fin d → Bool} {e : Fin d → ℤ} (h : Placed q l b e) (i : Fin d) :
    numAt q q.level i = if b i then 2 ^ l - 1 - e i else e i := by
  unfold numAt
  rw [h.2 i, h.1]
  unfold fromEnd
  exact Int.mul_ediv_cancel_left _ (by positivity)

/-- The distance between two quadrants, counted from either end. -/
theorem Placed.out {q t : Quad d} {l m : ℕ} {b : Fin d → Bool} {e f : Fin d → ℤ} (hq : Placed q (l + m) b e)
    (ht : Placed t l b f) (i : Fin d) :
    outNum q t i = max 0 (max (f i * 2 ^ m - e i) (e i + 1 - (f i + 1) * 2 ^ m)) := by
  unfold outNum
  rw [hq.num i, ht.num i, hq.1, ht.1, show l + m - l = m by omega, pow_add]
  generalize b i = b
  cases b
  · simp
  · simp only [if_true]
    generalize (2 : ℤ) ^ m = M
    generalize (2 : ℤ) ^ l = L
    have e1 : (L - 1 - f i) * M - (L * M - 1 - e i) = e i + 1 - (f i + 1) * M := by ring
    have e2 : L * M - 1 - e i + 1 - (L - 1 - f i + 1) * M = f i * M - e i := by ring
    rw [e1, e2, max_comm (e i + 1 - (f i + 1) * M)]

end P4est
