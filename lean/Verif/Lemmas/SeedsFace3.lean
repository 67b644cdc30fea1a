import Verif.Lemmas.SeedsDiag

/-! # Seeds at a face in 3D when only faces are balanced -/

namespace P4est
open Spec

theorem or_ones : ∀ {j x : ℕ}, x < 2 ^ j → (2 ^ j - 1) ||| x = 2 ^ j - 1
  | 0, x, h => by
    have : x = 0 := by simpa using h
    subst this; rfl
  | j + 1, x, h => by
    have h1 := or_ones (lt_pow_succ.mp h)
    have h2 := or_half (2 ^ (j + 1) - 1) x
    have h3 := or_parity (2 ^ (j + 1) - 1) x
    have hp : 0 < 2 ^ j := by positivity
    have e : 2 ^ (j + 1) = 2 * 2 ^ j := by rw [pow_succ]; ring
    rw [show (2 ^ (j + 1) - 1) / 2 = 2 ^ j - 1 by omega, h1] at h2
    rw [show (2 ^ (j + 1) - 1) % 2 = 1 by omega] at h3
    have : x % 2 ≤ 1 := by omega
    rw [max_eq_left this] at h3
    omega

theorem carrySum_ones {j a b : ℕ} (ha : a < 2 ^ j) (hb : b < 2 ^ j) : carrySum (2 ^ j - 1) a b = a + b := by
  unfold carrySum
  rw [or_ones ha, or_ones hb]
  omega

/-- The cases of a diagonal neighbor, in numbers: the coarser neighbor is reached from the middle, or
from a side, or from the neighbor of the coarser quadrant, or from the neighbor itself. -/
theorem diag_cases {m j e α β y z hY hZ : ℕ} (he : e < 2 ^ m) (hα : α < 2 ^ j) (hβ : β < 2 ^ j)
    (hy : y < 2 ^ m) (hz : z < 2 ^ m) (h1 : hY + (2 ^ m * α + y) = 2 ^ (m + j))
    (h2 : hZ + (2 ^ m * β + z) = 2 ^ (m + j)) (h : Carry (m + j) (hZ + e) (e + hY) (hY + hZ)) :
    2 ^ j < α + β ∨ (α + β = 2 ^ j ∧ e < y) ∨ (α + β = 2 ^ j ∧ e < z) ∨
    (α + β = 2 ^ j ∧ 1 ≤ j ∧ α % 2 = 1 ∧ β % 2 = 1 ∧ y ≤ e ∧ z ≤ e ∧
      Carry (m + 1) (2 ^ m - z + e) (e + (2 ^ m - y)) (2 ^ m - y + (2 ^ m - z))) ∨
    (α + β + 1 = 2 ^ j ∧ Carry m (2 ^ m - z + e) (e + (2 ^ m - y)) (2 ^ m - y + (2 ^ m - z))) := by
  obtain ⟨c1, c2, c3, c4⟩ := h
  have hM : 0 < 2 ^ m := by positivity
  have eMJ : 2 ^ (m + j) = 2 ^ m * 2 ^ j := pow_add 2 m j
  rw [eMJ] at h1 h2 c1 c2 c3 c4
  by_cases hc : 2 ^ j < α + β
  · exact .inl hc
  right
  have hsum : 2 ^ m * (α + β) + (y + z) > 2 ^ m * 2 ^ j := by rw [mul_add]; omega
  have hge : 2 ^ j ≤ α + β + 1 := by
    by_contra hlt
    have : 2 ^ m * (α + β + 2) ≤ 2 ^ m * 2 ^ j := Nat.mul_le_mul_left _ (by omega)
    rw [mul_add] at this
    omega
  rcases (show α + β = 2 ^ j ∨ α + β + 1 = 2 ^ j by omega) with hs | hs
  · by_cases hey : e < y
    · exact .inl ⟨hs, hey⟩
    right
    by_cases hez : e < z
    · exact .inl ⟨hs, hez⟩
    right; left
    have hJ1 : 1 ≤ j := by
      by_contra hj
      have : j = 0 := by omega
      subst this
      simp at hα hβ hs
      omega
    have b1 : hZ + e = 2 ^ m * α + (e - z) := by
      have : 2 ^ m * 2 ^ j = 2 ^ m * α + 2 ^ m * β := by rw [← hs, mul_add]
      omega
    have b2 : e + hY = 2 ^ m * β + (e - y) := by
      have : 2 ^ m * 2 ^ j = 2 ^ m * α + 2 ^ m * β := by rw [← hs, mul_add]
      omega
    have hys : 0 < y + z := by rw [hs] at hsum; omega
    have b0 : hY + hZ + (y + z) = 2 ^ m * 2 ^ j := by
      have : 2 ^ m * 2 ^ j = 2 ^ m * α + 2 ^ m * β := by rw [← hs, mul_add]
      omega
    have hrot : ∀ A B C, carrySum A B C = carrySum C A B := by
      intro A B C
      unfold carrySum
      rw [show A ||| B ||| C = C ||| A ||| B by rw [Nat.or_comm (A ||| B) C, Nat.or_assoc], show A + B + C = C + A + B by omega]
    by_cases hsm : y + z ≤ 2 ^ m
    · exfalso
      have b3 : hY + hZ = 2 ^ m * (2 ^ j - 1) + (2 ^ m - (y + z)) := by
        have : 2 ^ m * (2 ^ j - 1) + 2 ^ m = 2 ^ m * 2 ^ j := by
          rw [← Nat.mul_succ]; congr 1
          have : 0 < 2 ^ j := by positivity
          omega
        omega
      rw [hrot, b1, b2, b3, carrySum_block (by omega) (by omega) (by omega), carrySum_ones hα hβ, hs] at c4
      omega
    · have b3 : hY + hZ = 2 ^ m * (2 ^ j - 2) + (2 * 2 ^ m - (y + z)) := by
        have : 2 ^ m * (2 ^ j - 2) + 2 ^ m * 2 = 2 ^ m * 2 ^ j := by
          rw [← mul_add]; congr 1
          have : 2 ^ 1 ≤ 2 ^ j := Nat.pow_le_pow_right (by norm_num) hJ1
          omega
        omega
      rw [hrot, b1, b2, b3, carrySum_block (by omega) (by omega) (by omega)] at c4
      obtain ⟨j', rfl⟩ : ∃ j', j = j' + 1 := ⟨j - 1, by omega⟩
      have eJ : 2 ^ (j' + 1) = 2 * 2 ^ j' := by rw [pow_succ]; ring
      have hJ' : 0 < 2 ^ j' := by positivity
      have hbl := carrySum_block (m := 1) (a := 2 ^ j' - 1) (b := α / 2) (c := β / 2) (x := 0) (y := α % 2)
        (z := β % 2) (by norm_num) (by omega) (by omega)
      rw [pow_one, show 2 * (2 ^ j' - 1) + 0 = 2 ^ (j' + 1) - 2 by omega, show 2 * (α / 2) + α % 2 = α by omega,
        show 2 * (β / 2) + β % 2 = β by omega, carrySum_ones (by omega) (by omega)] at hbl
      rcases (show (α % 2 = 0 ∧ β % 2 = 0) ∨ (α % 2 = 1 ∧ β % 2 = 1) by omega) with ⟨p1, p2⟩ | ⟨p1, p2⟩
      · exfalso
        rw [p1, p2, show carrySum 0 0 0 = 0 by decide] at hbl
        rw [hbl, show 2 * (α / 2 + β / 2) + 0 = 2 ^ (j' + 1) by omega] at c4
        omega
      · refine ⟨hs, hJ1, p1, p2, by omega, by omega, ?_⟩
        rw [p1, p2, show carrySum 0 1 1 = 1 by decide] at hbl
        rw [hbl, show 2 * (α / 2 + β / 2) + 1 = 2 ^ (j' + 1) - 1 by omega] at c4
        have hlow : carrySum (2 * 2 ^ m - (y + z)) (e - z) (e - y) < 2 ^ m := by
          have : 2 ^ m * (2 ^ (j' + 1) - 1) + 2 ^ m = 2 ^ m * 2 ^ (j' + 1) := by
            rw [← Nat.mul_succ]; congr 1
            omega
          omega
        have hp : 2 ^ (m + 1) = 2 * 2 ^ m := by rw [pow_succ]; ring
        refine ⟨by omega, by omega, by omega, ?_⟩
        have hb2 := carrySum_block (m := m) (a := 0) (b := 1) (c := 1) (x := 2 * 2 ^ m - (y + z)) (y := e - z)
          (z := e - y) (by omega) (by omega) (by omega)
        rw [hrot, show 2 ^ m - z + e = 2 ^ m * 1 + (e - z) by omega, show e + (2 ^ m - y) = 2 ^ m * 1 + (e - y) by omega,
          show 2 ^ m - y + (2 ^ m - z) = 2 ^ m * 0 + (2 * 2 ^ m - (y + z)) by omega, hb2,
          show carrySum 0 1 1 = 1 by decide]
        omega
  · right; right; right
    refine ⟨hs, ?_⟩
    have hrot : ∀ A B C, carrySum A B C = carrySum C A B := by
      intro A B C
      unfold carrySum
      rw [show A ||| B ||| C = C ||| A ||| B by rw [Nat.or_comm (A ||| B) C, Nat.or_assoc], show A + B + C = C + A + B by omega]
    have eJM : 2 ^ m * 2 ^ j = 2 ^ m * α + 2 ^ m * β + 2 ^ m := by rw [← hs, mul_add, mul_add, mul_one]
    have hsM : 2 ^ m < y + z := by rw [mul_add] at hsum; omega
    have eαβ : 2 ^ j - 1 = α + β := by omega
    have b3 : hY + hZ = 2 ^ m * (2 ^ j - 1) + (2 * 2 ^ m - (y + z)) := by
      rw [eαβ, mul_add]; omega
    have bz : hZ + e + z = 2 ^ m * α + 2 ^ m + e := by omega
    have by' : e + hY + y = 2 ^ m * β + 2 ^ m + e := by omega
    have sα : 2 ^ m * (α + 1) = 2 ^ m * α + 2 ^ m := by ring
    have sβ : 2 ^ m * (β + 1) = 2 ^ m * β + 2 ^ m := by ring
    have lt_of : ∀ x, 2 ^ m * x < 2 ^ m * 2 ^ j → x < 2 ^ j := fun x h => Nat.lt_of_mul_lt_mul_left h
    by_cases hez : e < z
    · by_cases hey : e < y
      · rw [hrot, b3, show hZ + e = 2 ^ m * α + (2 ^ m - z + e) by omega,
          show e + hY = 2 ^ m * β + (e + (2 ^ m - y)) by omega,
          carrySum_block (by omega) (by omega) (by omega), carrySum_ones hα hβ, ← eαβ] at c4
        refine ⟨by omega, by omega, by omega, ?_⟩
        rw [hrot, show 2 ^ m - y + (2 ^ m - z) = 2 * 2 ^ m - (y + z) by omega]
        have : 2 ^ m * (2 ^ j - 1) + 2 ^ m = 2 ^ m * 2 ^ j := by
          rw [← Nat.mul_succ]; congr 1
          omega
        omega
      · exfalso
        have hb1 := lt_of (β + 1) (by omega)
        rw [hrot, b3, show hZ + e = 2 ^ m * α + (2 ^ m - z + e) by omega,
          show e + hY = 2 ^ m * (β + 1) + (e - y) by omega,
          carrySum_block (by omega) (by omega) (by omega), carrySum_ones hα hb1,
          show α + (β + 1) = 2 ^ j by omega] at c4
        omega
    · exfalso
      have ha1 := lt_of (α + 1) (by omega)
      by_cases hey : e < y
      · rw [hrot, b3, show hZ + e = 2 ^ m * (α + 1) + (e - z) by omega,
          show e + hY = 2 ^ m * β + (e + (2 ^ m - y)) by omega,
          carrySum_block (by omega) (by omega) (by omega), carrySum_ones ha1 hβ,
          show α + 1 + β = 2 ^ j by omega] at c4
        omega
      · have hb1 := lt_of (β + 1) (by omega)
        rw [hrot, b3, show hZ + e = 2 ^ m * (α + 1) + (e - z) by omega,
          show e + hY = 2 ^ m * (β + 1) + (e - y) by omega,
          carrySum_block (by omega) (by omega) (by omega), carrySum_ones ha1 hb1,
          show α + 1 + (β + 1) = 2 ^ j + 1 by omega, mul_add] at c4
        omega

variable {d k : ℕ}

/-- The distances of a shifted quadrant of any level. -/
theorem half_besides {q p : Quad d} (hL : q.level ≤ 30) {l m : ℕ} (hpl : p.level ≤ l) (hl : q.level = l + m + 1)
    {δ : Fin d → ℤ} (i : Fin d) :
    (δ i = 0 → halfDist q (besides q p l δ) i = halfDist q p i) ∧
    (halfDist q (besides q p l δ) i = gap m (numAt q (q.level - 1) i) (numAt (nearest q p l) l i + δ i)) := by
  have e : numAt (besides q p l δ) l i = numAt (nearest q p l) l i + δ i := by
    show numAt (qat l _) l i = _
    rw [numAt_qat]
  constructor
  · intro hi
    unfold halfDist
    rw [out_congr (t := besides q p l δ) (t' := nearest q p l) rfl (by
      show numAt (besides q p l δ) l i = numAt (nearest q p l) l i
      rw [e, hi, add_zero]), nearest_out hpl (by omega)]
  · have h1 := gap_outNum (q := q) (p := besides q p l δ) (m := m) hL hl i
    have h2 : numAt (besides q p l δ) (besides q p l δ).level i = numAt (nearest q p l) l i + δ i := e
    rw [h2, show (besides q p l δ).level + m = q.level - 1 by show l + m = _; omega] at h1
    exact h1.symm

/-- What a seed in a shifted quadrant forces. -/
theorem besides_reaches {q p s r : Quad d} (hq : Aligned q) (hq29 : q.level ≤ 29) {l : ℕ} {δ : Fin d → ℤ}
    (hpl : p.level ≤ l) (hlq : l < q.level)
    (hne : ∃ i, outNum q p i ≠ 0 ∧ δ i = 0) (h : SeedOf k q (besides q p l δ) s) {j : ℕ} (hl : l = r.level + j)
    (hr : CanReach k j (fun i => gap j (numAt (nearest q p l) l i + δ i) (numAt r r.level i))) : Forces k s r := by
  have hL := hq.1
  obtain ⟨i, hi, hi0⟩ := hne
  have hsl := h.fine hlq ⟨i, fun hc => by
    have h1 := (half_besides (q := q) (p := p) hL hpl (m := q.level - l - 1) (by omega) (δ := δ) i).1 hi0
    rw [halfDist_eq_zero.mpr hc] at h1
    exact hi (halfDist_eq_zero.mp h1.symm)⟩
  refine h.reaches hq (qat_aligned (by omega) _) (by omega) hsl.le (j := j) hl ?_
  have e : (fun i => gap j (numAt (besides q p l δ) (besides q p l δ).level i) (numAt r r.level i)) =
      fun i => gap j (numAt (nearest q p l) l i + δ i) (numAt r r.level i) := by
    funext i
    show gap j (numAt (qat l _) l i) _ = _
    rw [numAt_qat]
  rw [e]
  exact hr

theorem reach_more {m : ℕ} {e : Fin d → ℕ} (h : CanReach k m e) : CanReach k (m + 1) e := by
  refine ⟨∅, by simp, by simp, h.mono ?_⟩
  intro i
  simp only [Finset.notMem_empty, if_false]
  omega

/-- The shift along one axis. -/
def along (x : Fin d) (up : Bool) : Fin d → ℤ := fun i => if i = x then sgn up else 0

/-- The shift along both axes of a face. -/
def diagStep (f : Fin 3) (up vp : Bool) : Fin 3 → ℤ :=
  fun i => if i = tan0 f then sgn up else if i = tan1 f then sgn vp else 0

theorem sgn_ne (up : Bool) : sgn up ≠ 0 := by cases up <;> decide

theorem pos_zero (up : Bool) (T : ℤ) : pos up 0 T = 0 := by
  have := pos_lt up 0 T
  simpa using this

/-- The seeds at a face in 3D suffice for the balance of faces. -/
theorem complete_face3 {q p s0 : Quad 3} (hq : Aligned q) (hq29 : q.level ≤ 29) (hp : Aligned p)
    (hp29 : p.level ≤ 29) (hpq : p.level < q.level) {f : Fin 3} (hf : outNum q p f ≠ 0)
    (hi : ∀ i, i ≠ f → outNum q p i = 0) {S : Set (Quad 3)} (h0S : s0 ∈ S) (h0 : SeedOf 1 q p s0)
    (hedge : ∀ x up, x ≠ f → Cells (besides q p (s0.level - 1) (along x up)) ⊆ Cells p →
      Forces 1 q (besides q p (s0.level - 1) (along x up)) →
      ∃ s ∈ S, SeedOf 1 q (besides q p (s0.level - 1) (along x up)) s)
    (hdiag : ∀ up vp, Cells (besides q p (s0.level - 1) (diagStep f up vp)) ⊆ Cells p →
      ¬ (pos up 1 (numAt (nearest q p (s0.level - 1)) (s0.level - 1) (tan0 f)) = 1 ∧
        pos vp 1 (numAt (nearest q p (s0.level - 1)) (s0.level - 1) (tan1 f)) = 1) →
      Forces 1 q (besides q p (s0.level - 1) (diagStep f up vp)) →
      ∃ s ∈ S, SeedOf 1 q (besides q p (s0.level - 1) (diagStep f up vp)) s)
    (hdual : ∀ up vp, Cells (besides q p (s0.level - 1) (diagStep f up vp)) ⊆ Cells p →
      (pos up 1 (numAt (nearest q p (s0.level - 1)) (s0.level - 1) (tan0 f)) = 1 ∧
        pos vp 1 (numAt (nearest q p (s0.level - 1)) (s0.level - 1) (tan1 f)) = 1) →
      Forces 1 q (besides q p (s0.level - 2) (diagStep f up vp)) →
      ∃ s, SeedOf 1 q (besides q p (s0.level - 2) (diagStep f up vp)) s ∧ (s ∈ S ∨ (s.level < s0.level ∧
        (Forces 1 q (besides q p (s0.level - 1) (along (tan0 f) up)) ∨
          Forces 1 q (besides q p (s0.level - 1) (along (tan1 f) vp))))))
    {r : Quad 3} (hr : Aligned r) (hrp : Cells r ⊆ Cells p) (hforce : Forces 1 q r) : ∃ s ∈ S, Forces 1 s r := by
  obtain ⟨m, j, a, hA⟩ := ahead (by norm_num) hq hp hp29 hpq ⟨f, hf⟩ h0 hr hrp hforce
  have hL := hq.1
  have l1 := hA.lev
  have l2 := hA.lev'
  have l3 := hA.lp
  have hM : 0 < 2 ^ m := by positivity
  have hJ : 0 < 2 ^ j := by positivity
  obtain ⟨-, -, tne, tz0, tz1, tall⟩ := tan_facts f
  obtain ⟨of1, of2, of3⟩ := hA.out f hf
  have oy := hi _ tz0
  have oz := hi _ tz1
  have iy := hA.ins _ oy
  have iz := hA.ins _ oz
  have hreach := hA.reach
  rw [reach_pairs_at f] at hreach
  have hna : numAt (nearest q p (s0.level - 1)) (s0.level - 1) = a := hA.num.symm
  have hgf : gap j (a f) (numAt r r.level f) = 0 := by rw [of1, gap_self]
  -- which side quadrants are forced
  have hside : ∀ x w up, x ≠ f → w ≠ f → x ≠ w → (∀ i, i ≠ f → i ≠ x → i = w) →
      (Forces 1 q (besides q p (s0.level - 1) (along x up)) ↔
        halfDist q p f < pos up m (numAt q (q.level - 1) x)) := by
    intro x w up hx hw hxw hall
    have hb := fun i => half_besides (q := q) (p := p) hL (l := s0.level - 1) (m := m) (by omega) (by omega)
      (δ := along x up) i
    have e1 : halfDist q (besides q p (s0.level - 1) (along x up)) f = halfDist q p f :=
      (hb f).1 (by simp [along, hx.symm])
    have e2 : halfDist q (besides q p (s0.level - 1) (along x up)) w = 0 := by
      rw [(hb w).1 (by simp [along, hxw.symm])]
      exact halfDist_eq_zero.mpr (hi w hw)
    have e3 := gap_next m (numAt q (q.level - 1) x) up
    have e4 := (hb x).2
    rw [hna, hA.ins x (hi x hx), show along x up x = sgn up by simp [along]] at e4
    rw [← e4] at e3
    have hiff : CanReach 1 m (halfDist q (besides q p (s0.level - 1) (along x up))) ↔
        halfDist q p f < pos up m (numAt q (q.level - 1) x) := by
      rw [reach_two hx.symm (fun i hif hix => by rw [hall i hif hix]; exact e2), e1]
      omega
    constructor
    · rintro ⟨m', hm', h⟩
      have : q.level = s0.level - 1 + m' + 1 := hm'
      obtain rfl : m' = m := by omega
      exact hiff.mp h
    · intro h
      exact ⟨m, show q.level = s0.level - 1 + m + 1 by omega, hiff.mpr h⟩
  -- from the seed of a side quadrant
  have hfrom : ∀ x w up, x ≠ f → w ≠ f → x ≠ w → (∀ i, i ≠ f → i ≠ x → i = w) →
      numAt r r.level x = a x / 2 ^ j + sgn up → halfDist q p f < pos up m (numAt q (q.level - 1) x) →
      gap j (a w) (numAt r r.level w) ≤ pos up j (a x) → ∃ s ∈ S, Forces 1 s r := by
    intro x w up hx hw hxw hall hnx hlt hgw
    have hF := (hside x w up hx hw hxw hall).mpr hlt
    have hsub := hA.sub_shifted hq hp h0 (δ := along x up) (fun i => by
      by_cases h : i = x
      · right; subst h; exact ⟨up, by simp [along], hnx⟩
      · left; simp [along, h])
    obtain ⟨s, hs, hs1⟩ := hedge x up hx hsub hF
    refine ⟨s, hs, besides_reaches hq hq29 (by omega) (by omega) ⟨f, hf, by simp [along, hx.symm]⟩ hs1 (j := j)
      (by omega) ?_⟩
    rw [hna]
    have g1 := gap_shift j (a x) up
    rw [reach_two hxw]
    · simp only [along, hxw.symm, if_true, if_false, add_zero]
      rw [hnx]
      omega
    · intro i hix hiw
      have : i = f := by
        by_contra hc
        exact hiw (hall i hc hix)
      subst this
      simp only [along, hx.symm, if_false, add_zero]
      exact hgf
  have hcenter : gap j (a (tan0 f)) (numAt r r.level (tan0 f)) + gap j (a (tan1 f)) (numAt r r.level (tan1 f)) < 2 ^ j →
      ∃ s ∈ S, Forces 1 s r := by
    intro h
    refine ⟨s0, h0S, hA.center hq29 h0 ?_⟩
    rw [reach_two tne]
    · exact h
    · intro x hx hy
      rw [tall x hx hy]
      exact hgf
  have hall0 : ∀ i, i ≠ f → i ≠ tan0 f → i = tan1 f := fun i h1 h2 => by
    by_contra hc; exact h1 (tall i h2 hc)
  have hall1 : ∀ i, i ≠ f → i ≠ tan1 f → i = tan0 f := fun i h1 h2 => by
    by_contra hc; exact h1 (tall i hc h2)
  have hup2 : p.level + 2 ≤ s0.level → ∀ i, numAt (nearest q p (s0.level - 2)) (s0.level - 2) i = a i / 2 := by
    intro h2 i
    have hlt := h0.level
    have h1 := nearest_up (q := q) (p := p) (l := s0.level - 2) (c := 1) (by omega) hL
    rw [← h1, num_div (c := 1) (by omega), pow_one, show s0.level - 2 + 1 = s0.level - 1 by omega, hna]
  have hhigh : ∀ up vp, halfDist q (besides q p (s0.level - 1) (diagStep f up vp)) f = halfDist q p f ∧
      halfDist q (besides q p (s0.level - 1) (diagStep f up vp)) (tan0 f) =
        2 ^ m - pos up m (numAt q (q.level - 1) (tan0 f)) ∧
      halfDist q (besides q p (s0.level - 1) (diagStep f up vp)) (tan1 f) =
        2 ^ m - pos vp m (numAt q (q.level - 1) (tan1 f)) := by
    intro up vp
    have hb := fun i => half_besides (q := q) (p := p) hL (l := s0.level - 1) (m := m) (by omega) (by omega)
      (δ := diagStep f up vp) i
    refine ⟨(hb f).1 (by simp [diagStep, tz0.symm, tz1.symm]), ?_, ?_⟩
    · have e := gap_next m (numAt q (q.level - 1) (tan0 f)) up
      rw [(hb _).2, hna, iy, show diagStep f up vp (tan0 f) = sgn up by simp [diagStep]]
      omega
    · have e := gap_next m (numAt q (q.level - 1) (tan1 f)) vp
      rw [(hb _).2, hna, iz, show diagStep f up vp (tan1 f) = sgn vp by simp [diagStep, tne.symm]]
      omega
  have hlow : p.level + 2 ≤ s0.level → ∀ up vp, pos up 1 (a (tan0 f)) = 1 → pos vp 1 (a (tan1 f)) = 1 →
      halfDist q (besides q p (s0.level - 2) (diagStep f up vp)) f = halfDist q p f ∧
      halfDist q (besides q p (s0.level - 2) (diagStep f up vp)) (tan0 f) =
        2 ^ m - pos up m (numAt q (q.level - 1) (tan0 f)) ∧
      halfDist q (besides q p (s0.level - 2) (diagStep f up vp)) (tan1 f) =
        2 ^ m - pos vp m (numAt q (q.level - 1) (tan1 f)) := by
    intro h2 up vp hy hz
    have hb := fun i => half_besides (q := q) (p := p) hL (l := s0.level - 2) (m := m + 1) (by omega) (by omega)
      (δ := diagStep f up vp) i
    have hdiv : ∀ T : ℤ, T / 2 ^ (m + 1) = T / 2 ^ m / 2 := by
      intro T
      rw [pow_add, pow_one, Int.ediv_ediv_of_nonneg (by positivity)]
    have hpw : 2 ^ (m + 1) = 2 * 2 ^ m := by rw [pow_succ]; ring
    refine ⟨(hb f).1 (by simp [diagStep, tz0.symm, tz1.symm]), ?_, ?_⟩
    · have e := gap_next (m + 1) (numAt q (q.level - 1) (tan0 f)) up
      rw [pos_split, ← iy, hy, hdiv, ← iy] at e
      rw [(hb _).2, hup2 h2, show diagStep f up vp (tan0 f) = sgn up by simp [diagStep]]
      omega
    · have e := gap_next (m + 1) (numAt q (q.level - 1) (tan1 f)) vp
      rw [pos_split, ← iz, hz, hdiv, ← iz] at e
      rw [(hb _).2, hup2 h2, show diagStep f up vp (tan1 f) = sgn vp by simp [diagStep, tne.symm]]
      omega
  rcases hA.three oy with ⟨ny, dy⟩ | ⟨up, ny, dy, py⟩
  · have gy : gap j (a (tan0 f)) (numAt r r.level (tan0 f)) = 0 := by rw [ny, gap_self]
    rcases hA.three oz with ⟨nz, dz⟩ | ⟨vp, nz, dz, pz⟩
    · apply hcenter
      rw [gy, nz, gap_self]
      omega
    · have gz := gap_next j (a (tan1 f)) vp
      rw [← nz] at gz
      by_cases hz : pos vp j (a (tan1 f)) = 0
      · refine hfrom _ _ vp tz1 tz0 tne.symm hall1 nz ?_ (by rw [gy]; omega)
        have := hreach.1
        rw [of2] at this
        rw [hz] at dz
        omega
      · apply hcenter
        omega
  · have gy := gap_next j (a (tan0 f)) up
    rw [← ny] at gy
    rcases hA.three oz with ⟨nz, dz⟩ | ⟨vp, nz, dz, pz⟩
    · have gz : gap j (a (tan1 f)) (numAt r r.level (tan1 f)) = 0 := by rw [nz, gap_self]
      by_cases hz : pos up j (a (tan0 f)) = 0
      · refine hfrom _ _ up tz0 tz1 tne hall0 ny ?_ (by rw [gz]; omega)
        have := hreach.2.1
        rw [of2] at this
        rw [hz] at dy
        omega
      · apply hcenter
        omega
    · have gz := gap_next j (a (tan1 f)) vp
      rw [← nz] at gz
      have pyl := pos_lt up m (numAt q (q.level - 1) (tan0 f))
      have pzl := pos_lt vp m (numAt q (q.level - 1) (tan1 f))
      have aly := pos_lt up j (a (tan0 f))
      have alz := pos_lt vp j (a (tan1 f))
      rw [of2] at hreach
      have hsub := hA.sub_shifted hq hp h0 (δ := diagStep f up vp) (fun i => by
        by_cases h : i = tan0 f
        · right; subst h; exact ⟨up, by simp [diagStep], ny⟩
        · by_cases h' : i = tan1 f
          · right; subst h'; exact ⟨vp, by simp [diagStep, tne.symm], nz⟩
          · left; simp [diagStep, h, h'])
      have cf : diagStep f up vp f = 0 := by simp [diagStep, tz0.symm, tz1.symm]
      have cy : diagStep f up vp (tan0 f) = sgn up := by simp [diagStep]
      have cz : diagStep f up vp (tan1 f) = sgn vp := by simp [diagStep, tne.symm]
      rcases diag_cases of3 aly alz pyl pzl dy dz hreach with h | ⟨h, h'⟩ | ⟨h, h'⟩ | h | ⟨h, h'⟩
      · apply hcenter
        omega
      · exact hfrom _ _ up tz0 tz1 tne hall0 ny h' (by omega)
      · exact hfrom _ _ vp tz1 tz0 tne.symm hall1 nz h' (by omega)
      · obtain ⟨hs, hj1, hα, hβ, hye, hze, hcar⟩ := h
        obtain ⟨j', rfl⟩ : ∃ j', j = 1 + j' := ⟨j - 1, by omega⟩
        have sy := pos_split up 1 j' (a (tan0 f))
        have sz := pos_split vp 1 j' (a (tan1 f))
        have p1y := pos_lt up 1 (a (tan0 f))
        have p1z := pos_lt vp 1 (a (tan1 f))
        simp only [pow_one] at sy sz p1y p1z
        have dualy : pos up 1 (a (tan0 f)) = 1 := by omega
        have dualz : pos vp 1 (a (tan1 f)) = 1 := by omega
        obtain ⟨u1, u2, u3⟩ := hlow (by omega) up vp dualy dualz
        have hFu : Forces 1 q (besides q p (s0.level - 2) (diagStep f up vp)) := by
          refine ⟨m + 1, show q.level = s0.level - 2 + (m + 1) + 1 by omega, ?_⟩
          rw [reach_pairs_at f, u1, u2, u3]
          exact hcar
        obtain ⟨s, hs1, hs2⟩ := hdual up vp hsub (by rw [hna]; exact ⟨dualy, dualz⟩) hFu
        have hsS : s ∈ S := by
          rcases hs2 with h | ⟨_, h | h⟩
          · exact h
          · have := (hside _ _ up tz0 tz1 tne hall0).mp h
            omega
          · have := (hside _ _ vp tz1 tz0 tne.symm hall1).mp h
            omega
        refine ⟨s, hsS, besides_reaches hq hq29 (by omega) (by omega) ⟨f, hf, cf⟩ hs1 (j := j') (by omega) ?_⟩
        have hup2 := hup2 (by omega)
        rw [reach_two tne]
        · simp only [hup2]
          rw [cy, cz, ny, nz, show a (tan0 f) / 2 ^ (1 + j') = a (tan0 f) / 2 / 2 ^ j' by
              rw [pow_add, pow_one, Int.ediv_ediv_of_nonneg (by norm_num)],
            show a (tan1 f) / 2 ^ (1 + j') = a (tan1 f) / 2 / 2 ^ j' by
              rw [pow_add, pow_one, Int.ediv_ediv_of_nonneg (by norm_num)]]
          have g1 := gap_shift j' (a (tan0 f) / 2) up
          have g2 := gap_shift j' (a (tan1 f) / 2) vp
          have eJ : 2 ^ (1 + j') = 2 * 2 ^ j' := by rw [pow_add, pow_one]
          omega
        · intro x hx hy
          rw [tall x hx hy]
          simp only [hup2]
          rw [cf, add_zero, of1, pow_add, pow_one, ← Int.ediv_ediv_of_nonneg (by norm_num), gap_self]
      · obtain ⟨t1, t2, t3⟩ := hhigh up vp
        have hFt : CanReach 1 m (halfDist q (besides q p (s0.level - 1) (diagStep f up vp))) := by
          rw [reach_pairs_at f, t1, t2, t3]
          exact h'
        by_cases hd : pos up 1 (a (tan0 f)) = 1 ∧ pos vp 1 (a (tan1 f)) = 1
        · have hj0 : j = 0 := by
            by_contra hc
            obtain ⟨j', rfl⟩ : ∃ j', j = 1 + j' := ⟨j - 1, by omega⟩
            have sy := pos_split up 1 j' (a (tan0 f))
            have sz := pos_split vp 1 j' (a (tan1 f))
            simp only [pow_one] at sy sz
            have eJ : 2 ^ (1 + j') = 2 * 2 ^ j' := by rw [pow_add, pow_one]
            omega
          subst hj0
          have hpb : p.level + 2 ≤ s0.level := by
            by_contra hc
            have hlt := h0.level
            have e1 := (sub_iff (r := besides q p (s0.level - 1) (diagStep f up vp)) (qat_aligned (by omega) _) hp
              (show p.level ≤ s0.level - 1 by omega)).mp hsub (tan0 f)
            have e2 := (sub_iff (r := nearest q p (s0.level - 1)) (qat_aligned (by omega) _) hp
              (show p.level ≤ s0.level - 1 by omega)).mp (nearest_sub hq hp (by omega) (by omega)) (tan0 f)
            have e3 : numAt (besides q p (s0.level - 1) (diagStep f up vp)) (s0.level - 1) (tan0 f) =
                numAt (nearest q p (s0.level - 1)) (s0.level - 1) (tan0 f) + diagStep f up vp (tan0 f) := by
              show numAt (qat (s0.level - 1) _) (s0.level - 1) _ = _
              rw [numAt_qat]
            have e1' : numAt (besides q p (s0.level - 1) (diagStep f up vp)) (s0.level - 1) (tan0 f) /
              2 ^ (s0.level - 1 - p.level) = numAt p p.level (tan0 f) := e1
            have e2' : numAt (nearest q p (s0.level - 1)) (s0.level - 1) (tan0 f) /
              2 ^ (s0.level - 1 - p.level) = numAt p p.level (tan0 f) := e2
            rw [show s0.level - 1 - p.level = 0 by omega, pow_zero, Int.ediv_one] at e1' e2'
            have := sgn_ne up
            omega
          obtain ⟨u1, u2, u3⟩ := hlow hpb up vp hd.1 hd.2
          have hFu' : CanReach 1 m (halfDist q (besides q p (s0.level - 2) (diagStep f up vp))) := by
            rw [reach_pairs_at f, u1, u2, u3]
            exact h'
          obtain ⟨s, hs1, hs2⟩ := hdual up vp hsub (by rw [hna]; exact hd)
            ⟨m + 1, show q.level = s0.level - 2 + (m + 1) + 1 by omega, reach_more hFu'⟩
          have hsl : s0.level - 1 < s.level := (hs1.reach (s0.level - 1) m (by omega)).mpr hFu'
          have hsS : s ∈ S := by
            rcases hs2 with h | ⟨h, _⟩
            · exact h
            · omega
          have hout : ∀ i, outNum q (besides q p (s0.level - 2) (diagStep f up vp)) i ≠ 0 := by
            intro i hc
            have h0 := halfDist_eq_zero.mpr hc
            by_cases h1 : i = tan0 f
            · rw [h1, u2] at h0; omega
            · by_cases h2 : i = tan1 f
              · rw [h2, u3] at h0; omega
              · rw [tall i h1 h2, u1] at h0
                exact hf (halfDist_eq_zero.mp h0)
          have hsq := hs1.fine (show s0.level - 2 < q.level by omega) ⟨f, hout f⟩
          refine ⟨s, hsS, forces_anc (by omega) (by omega) ?_⟩
          have hua : Aligned (besides q p (s0.level - 2) (diagStep f up vp)) := qat_aligned (by omega) _
          have hur : Cells r ⊆ Cells (besides q p (s0.level - 2) (diagStep f up vp)) := by
            refine (sub_iff hr hua (show s0.level - 2 ≤ r.level by omega)).mpr ?_
            intro i
            have e3 : numAt (besides q p (s0.level - 2) (diagStep f up vp)) (s0.level - 2) i =
                a i / 2 + diagStep f up vp i := by
              show numAt (qat (s0.level - 2) _) (s0.level - 2) _ = _
              rw [numAt_qat, hup2 hpb]
            show numAt r r.level i / 2 ^ (r.level - (s0.level - 2)) =
              numAt (besides q p (s0.level - 2) (diagStep f up vp)) (s0.level - 2) i
            rw [e3, show r.level - (s0.level - 2) = 1 by omega, pow_one]
            have hdv : ∀ (w : Bool) (A : ℤ), pos w 1 A = 1 → (A + sgn w) / 2 = A / 2 + sgn w := by
              intro w A hw
              have := gap_shift 1 A w
              unfold pos sgn at *
              cases w <;> simp at hw ⊢ <;> omega
            by_cases h1 : i = tan0 f
            · rw [h1, cy, ny, pow_zero, Int.ediv_one]
              exact hdv _ _ hd.1
            · by_cases h2 : i = tan1 f
              · rw [h2, cz, nz, pow_zero, Int.ediv_one]
                exact hdv _ _ hd.2
              · rw [tall i h1 h2, cf, of1, pow_zero, Int.ediv_one, add_zero]
          funext i
          have h1 := hA.reach.lt i
          unfold halfDist at h1
          rw [halfUp_lt (outNum_nonneg q r i)] at h1
          have h2 := (out_mono hr hua (show s0.level - 2 ≤ r.level by omega) (by omega) hur i).2 (hout i) (by
            rw [show q.level - r.level = m + 0 + 1 by omega]; omega)
          have h3 := nearest_up (q := q) (p := besides q p (s0.level - 2) (diagStep f up vp)) (l := r.level)
            (c := s.level - r.level) (by omega) hL
          rw [show r.level + (s.level - r.level) = s.level by omega, ← hs1.eq] at h3
          rw [h2, h3]
        · obtain ⟨s, hs, hs1⟩ := hdiag up vp hsub (by rw [hna]; exact hd)
            ⟨m, show q.level = s0.level - 1 + m + 1 by omega, hFt⟩
          refine ⟨s, hs, besides_reaches hq hq29 (by omega) (by omega) ⟨f, hf, cf⟩ hs1 (j := j) (by omega) ?_⟩
          rw [hna, reach_two tne]
          · rw [cy, cz, ny, nz]
            have g1 := gap_shift j (a (tan0 f)) up
            have g2 := gap_shift j (a (tan1 f)) vp
            omega
          · intro x hx hy
            rw [tall x hx hy]
            rw [cf, add_zero]
            exact hgf

end P4est
