import Verif.Lemmas.SeedsFace3

/-! # The quadrants beside the first seed, in the code -/

namespace P4est
open Spec

variable {d : ℕ} {k : ℕ}

/-- The distance to an end, in numbers. -/
theorem con_iff {q t : Quad d} (hq : Aligned q) (ht : Aligned t) (hl : t.level ≤ q.level) {up : Bool} {i : Fin d} :
    conDist q t up i = qlen q.level * outNum q t i ↔
      if up then (numAt t t.level i + 1) * 2 ^ (q.level - t.level) ≤ numAt q q.level i + 1
      else numAt q q.level i ≤ numAt t t.level i * 2 ^ (q.level - t.level) := by
  have hL := hq.1
  have c1 := coord_num hq i
  have c2 := coord_num ht i
  have hh := qlen_pos q.level
  have hm := qlen_mul hl hL
  have hM : (1 : ℤ) ≤ 2 ^ (q.level - t.level) := one_le_pow₀ (by norm_num)
  unfold conDist outNum
  rw [c1, c2, hm]
  generalize numAt q q.level i = Q at *
  generalize numAt t t.level i = P at *
  generalize qlen q.level = h at *
  rw [show (P + 1) * 2 ^ (q.level - t.level) = P * 2 ^ (q.level - t.level) + 2 ^ (q.level - t.level) by ring,
    show h * 2 ^ (q.level - t.level) * P = h * (P * 2 ^ (q.level - t.level)) by ring]
  generalize P * 2 ^ (q.level - t.level) = X at *
  clear hm c2
  generalize (2 : ℤ) ^ (q.level - t.level) = M at *
  have inj : ∀ a b : ℤ, h * a = h * b ↔ a = b := fun a b => mul_right_inj' hh.ne'
  cases up
  · simp only [Bool.false_eq_true, if_false]
    rw [← mul_sub, inj]
    omega
  · simp only [if_true]
    rw [show h * Q + h - (h * X + h * M) = h * (Q + 1 - (X + M)) by ring, inj]
    omega

theorem besides_num {q p : Quad d} {l : ℕ} {δ : Fin d → ℤ} (i : Fin d) :
    numAt (besides q p l δ) (besides q p l δ).level i = numAt (nearest q p l) l i + δ i := by
  show numAt (qat l _) l i = _
  rw [numAt_qat]

theorem nearest_num {q p : Quad d} {l : ℕ} (i : Fin d) :
    numAt (nearest q p l) l i = movedNum q p i / 2 ^ (q.level - l) := by
  show numAt (qat l _) l i = _
  rw [numAt_qat]

/-- Along an axis that is not changed. -/
theorem con_same {q p : Quad d} (hq : Aligned q) (hp : Aligned p) {l : ℕ} (hpl : p.level ≤ l) (hlq : l < q.level)
    {δ : Fin d → ℤ} {i : Fin d} (hδ : δ i = 0) {up : Bool} (h : conDist q p up i = qlen q.level * outNum q p i) :
    conDist q (besides q p l δ) up i = qlen q.level * outNum q (besides q p l δ) i := by
  have hL := hq.1
  rw [con_iff hq hp (by omega)] at h
  have hb : Aligned (besides q p l δ) := qat_aligned (by omega) _
  rw [con_iff hq hb (show l ≤ q.level by omega), besides_num, hδ, add_zero, nearest_num]
  show if up = true then (_ + 1) * 2 ^ (q.level - l) ≤ _ else _ ≤ _ * 2 ^ (q.level - l)
  unfold movedNum
  rw [pow_levels hpl hlq.le] at h ⊢
  have hC : (0 : ℤ) < 2 ^ (q.level - l) := by positivity
  have hE : (0 : ℤ) < 2 ^ (l - p.level) := by positivity
  generalize numAt p p.level i = P at *
  generalize numAt q q.level i = Q at *
  generalize (2 : ℤ) ^ (q.level - l) = C at *
  generalize (2 : ℤ) ^ (l - p.level) = E at *
  have hCE : 0 < C * E := mul_pos hC hE
  have e1 : (P + 1) * (C * E) = P * (C * E) + C * E := by ring
  cases up
  · simp only [Bool.false_eq_true, if_false] at h ⊢
    rw [max_eq_left (by omega), show P * (C * E) = (P * E) * C by ring, Int.mul_ediv_cancel _ hC.ne']
    rw [show P * (C * E) = (P * E) * C by ring] at h
    exact h
  · simp only [if_true] at h ⊢
    have e2 : max (P * (C * E)) (min Q ((P + 1) * (C * E) - 1)) = (P + 1) * (C * E) - 1 := by omega
    have e3 : ((P + 1) * (C * E) - 1) / C = (P + 1) * E - 1 := by
      rw [show (P + 1) * (C * E) - 1 = (C - 1) + ((P + 1) * E - 1) * C by ring,
        Int.add_mul_ediv_right _ _ hC.ne', Int.ediv_eq_zero_of_lt (by omega) (by omega)]
      ring
    rw [e2, e3, show ((P + 1) * E - 1 + 1) * C = (P + 1) * (C * E) by ring]
    exact h

/-- Along an axis with a shift. -/
theorem con_shift {q p : Quad d} (hq : Aligned q) {l : ℕ} (hlq : l < q.level)
    {δ : Fin d → ℤ} {i : Fin d} {up : Bool} (hδ : δ i = sgn up) (hi : outNum q p i = 0) :
    conDist q (besides q p l δ) (!up) i = qlen q.level * outNum q (besides q p l δ) i := by
  have hL := hq.1
  have hb : Aligned (besides q p l δ) := qat_aligned (by omega) _
  rw [con_iff hq hb (show l ≤ q.level by omega), besides_num, hδ, near_inside hi hlq.le hL,
    num_div (s := q) (l := l) (c := q.level - l) (by omega), show l + (q.level - l) = q.level by omega]
  show if (!up) = true then (_ + 1) * 2 ^ (q.level - l) ≤ _ else _ ≤ _ * 2 ^ (q.level - l)
  have hC : (0 : ℤ) < 2 ^ (q.level - l) := by positivity
  generalize numAt q q.level i = Q at *
  generalize (2 : ℤ) ^ (q.level - l) = C at *
  have h1 := Int.mul_ediv_add_emod Q C
  have h2 := Int.emod_nonneg Q hC.ne'
  have h3 := Int.emod_lt_of_pos Q hC
  cases up
  · show (Q / C + -1 + 1) * C ≤ Q + 1
    rw [show (Q / C + -1 + 1) * C = C * (Q / C) by ring]
    omega
  · show Q ≤ (Q / C + 1) * C
    rw [show (Q / C + 1) * C = C * (Q / C) + C by ring]
    omega

/-- The outside axes stay outside. -/
theorem besides_out {q p : Quad d} {l : ℕ} (hpl : p.level ≤ l) (hlq : l ≤ q.level)
    {δ : Fin d → ℤ} {i : Fin d} (hδ : δ i = 0) : outNum q (besides q p l δ) i = outNum q p i := by
  rw [out_congr (t := besides q p l δ) (t' := nearest q p l) rfl (by
      rw [besides_num, hδ, add_zero]; rfl), nearest_out hpl hlq]

/-! ## The code -/

/-- The quadrant `a`. -/
theorem code_a {q p s : Quad d} (hq : Aligned q) (h : SeedOf k q p s) (hs : s.level ≤ q.level) :
    maskTo s.c (s.level - 1) = nearest q p (s.level - 1) := by
  have hL := hq.1
  have hlt := h.level
  have hc : s.c = fun i => qlen s.level * (movedNum q p i / 2 ^ (q.level - s.level)) := by
    conv_lhs => rw [h.eq]
    rfl
  rw [hc, maskTo_num (by omega) (by omega)]
  show qat _ _ = qat _ _
  congr 1
  funext i
  rw [Int.ediv_ediv_of_nonneg (by positivity), ← pow_add]
  congr 2
  omega

/-- The quadrant `temp`. -/
theorem code_temp {q p : Quad d} {l : ℕ} {t0 t1 : ℕ} {i j : ℤ} : shiftBy (nearest q p l) t0 t1 i j =
    besides q p l (fun x => (if (x : ℕ) = t0 then i else 0) + (if (x : ℕ) = t1 then j else 0)) := by
  apply Quad.ext'
  · intro x
    show (nearest q p l).c x + (if (x : ℕ) = t0 then i * qlen l else 0) + (if (x : ℕ) = t1 then j * qlen l else 0) =
      2 ^ (30 - l) * (numAt (nearest q p l) l x + ((if (x : ℕ) = t0 then i else 0) + (if (x : ℕ) = t1 then j else 0)))
    rw [nearest_num]
    show 2 ^ (30 - l) * (movedNum q p x / 2 ^ (q.level - l)) + _ + _ = _
    rw [← side_qlen]
    split <;> split <;> ring
  · rfl

/-- The test whether `temp` is still in `p`. -/
theorem code_leaves {t p : Quad d} (ht : Aligned t) (hp : Aligned p) (hl : p.level ≤ t.level) :
    leaves t p = false ↔ Cells t ⊆ Cells p := by
  rw [sub_iff ht hp hl]
  unfold leaves
  rw [decide_eq_false_iff_not]
  push Not
  apply forall_congr'
  intro i
  have c1 := coord_num ht i
  have c2 := coord_num hp i
  have hh := qlen_pos p.level
  rw [side_qlen p.level, land_not_mask, ← side_qlen p.level, c2, c1, qlen_mul hl ht.1,
    Int.mul_ediv_mul_of_pos _ _ (qlen_pos t.level)]
  rw [← qlen_mul hl ht.1]
  exact mul_right_inj' hh.ne'

/-- The coarser `temp`. -/
theorem code_coarse {q p : Quad d} {l : ℕ} {δ : Fin d → ℤ} (hl : l + 1 ≤ q.level) (hL : q.level ≤ 30)
    (hδ : ∀ i, (numAt (nearest q p (l + 1)) (l + 1) i + δ i) / 2 = numAt (nearest q p (l + 1)) (l + 1) i / 2 + δ i) :
    maskTo (besides q p (l + 1) δ).c l = besides q p l δ := by
  have hc : (besides q p (l + 1) δ).c = fun i => qlen (l + 1) * (numAt (nearest q p (l + 1)) (l + 1) i + δ i) := rfl
  rw [hc, maskTo_num (by omega) (by omega)]
  show qat _ _ = qat _ _
  congr 1
  funext i
  rw [show l + 1 - l = 1 by omega, pow_one, hδ]
  have h1 := nearest_up (q := q) (p := p) (l := l) (c := 1) (by omega) hL
  rw [← h1, num_div (s := nearest q p (l + 1)) (l := l) (c := 1) (by omega), pow_one]

/-- Beside, there is room only in a quadrant that is coarser. -/
theorem besides_room {q p : Quad d} (hq : Aligned q) (hp : Aligned p) {l : ℕ} (hpl : p.level ≤ l) (hlq : l ≤ q.level)
    {δ : Fin d → ℤ} (hδ : ∃ i, δ i ≠ 0) (hs : Cells (besides q p l δ) ⊆ Cells p) : p.level < l := by
  by_contra hc
  have hL := hq.1
  obtain ⟨i, hi⟩ := hδ
  have e1 := (sub_iff (r := besides q p l δ) (qat_aligned (by omega) _) hp (show p.level ≤ l by omega)).mp hs i
  have e2 := (sub_iff (r := nearest q p l) (qat_aligned (by omega) _) hp
    (show p.level ≤ l by omega)).mp (nearest_sub hq hp (by omega) (by omega)) i
  rw [besides_num] at e1
  have e1' : (numAt (nearest q p l) l i + δ i) / 2 ^ (l - p.level) = numAt p p.level i := e1
  have e2' : numAt (nearest q p l) l i / 2 ^ (l - p.level) = numAt p p.level i := e2
  rw [show l - p.level = 0 by omega, pow_zero, Int.ediv_one] at e1' e2'
  omega

end P4est
