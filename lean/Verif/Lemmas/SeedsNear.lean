import Verif.Lemmas.SeedsForce

/-! # Quadrants near a quadrant outside -/

namespace P4est
open Spec

variable {d : ℕ} {k : ℕ}

theorem numAt_qat {l : ℕ} {n : Fin d → ℤ} : numAt (qat l n) l = n := by
  funext i
  exact Int.mul_ediv_cancel_left _ (by positivity)

theorem sub_iff {r p : Quad d} (hr : Aligned r) (hp : Aligned p) (hl : p.level ≤ r.level) :
    Cells r ⊆ Cells p ↔ ∀ i, numAt r r.level i / 2 ^ (r.level - p.level) = numAt p p.level i := by
  rw [show Cells p = BoxOf p.c (fun i => p.c i + side p) from rfl, cells_sub_box]
  apply forall_congr'
  intro i
  have c1 := coord_num hr i
  have c2 := coord_num hp i
  have hh := qlen_pos r.level
  have hm := qlen_mul hl hr.1
  have hM : (0 : ℤ) < 2 ^ (r.level - p.level) := by positivity
  have s1 : side r = qlen r.level := rfl
  have s2 : side p = qlen p.level := rfl
  rw [s1, s2, c1, c2, hm]
  clear c1 c2 s1 s2 hm
  generalize numAt r r.level i = R at *
  generalize numAt p p.level i = P at *
  generalize qlen r.level = h at *
  generalize (2 : ℤ) ^ (r.level - p.level) = M at *
  rw [show h * M * P = h * (M * P) by ring, show h * R + h = h * (R + 1) by ring,
    show h * (M * P) + h * M = h * (M * (P + 1)) by ring, mul_le_mul_iff_right₀ hh, mul_le_mul_iff_right₀ hh]
  constructor
  · rintro ⟨h1, h2⟩
    apply le_antisymm
    · have := Int.ediv_lt_of_lt_mul hM (show R < (P + 1) * M by rw [mul_comm]; omega)
      omega
    · exact (Int.le_ediv_iff_mul_le hM).mpr (by rw [mul_comm]; exact h1)
  · rintro rfl
    have h1 := Int.mul_ediv_add_emod R M
    have h2 := Int.emod_nonneg R hM.ne'
    have h3 := Int.emod_lt_of_pos R hM
    rw [mul_add, mul_one]
    omega

/-- The quadrant of level `l` in `p` that is nearest to `q`. -/
def nearest (q p : Quad d) (l : ℕ) : Quad d := qat l (fun i => movedNum q p i / 2 ^ (q.level - l))

theorem moved_div {Q P : ℤ} {C E : ℤ} (hC : 0 < C) (hE : 0 < E) :
    (max (P * (C * E)) (min Q ((P + 1) * (C * E) - 1))) / C / E = P ∧
    max 0 (max (max (P * (C * E)) (min Q ((P + 1) * (C * E) - 1)) / C * C - Q)
      (Q + 1 - (max (P * (C * E)) (min Q ((P + 1) * (C * E) - 1)) / C + 1) * C)) =
    max 0 (max (P * (C * E) - Q) (Q + 1 - (P + 1) * (C * E))) := by
  have hCE : 0 < C * E := mul_pos hC hE
  have e1 : (P + 1) * (C * E) = P * (C * E) + C * E := by ring
  constructor
  · rw [Int.ediv_ediv_of_nonneg hC.le]
    have h1 := Int.mul_ediv_add_emod (max (P * (C * E)) (min Q ((P + 1) * (C * E) - 1))) (C * E)
    have h2 : P * (C * E) ≤ max (P * (C * E)) (min Q ((P + 1) * (C * E) - 1)) := le_max_left _ _
    have h3 : max (P * (C * E)) (min Q ((P + 1) * (C * E) - 1)) < (P + 1) * (C * E) := by omega
    exact le_antisymm (Int.lt_add_one_iff.mp (Int.ediv_lt_of_lt_mul hCE h3)) ((Int.le_ediv_iff_mul_le hCE).mpr h2)
  · rcases lt_or_ge Q (P * (C * E)) with h | h
    · rw [max_eq_left (show min Q ((P + 1) * (C * E) - 1) ≤ P * (C * E) by omega)]
      rw [show P * (C * E) = (P * E) * C by ring, Int.mul_ediv_cancel _ hC.ne']
      rw [show P * (C * E) = (P * E) * C by ring] at *
      rw [show (P * E + 1) * C = P * E * C + C by ring, show (P + 1) * (C * E) = P * E * C + C * E by ring]
      omega
    · rcases lt_or_ge Q ((P + 1) * (C * E)) with h' | h'
      · have e2 : max (P * (C * E)) (min Q ((P + 1) * (C * E) - 1)) = Q := by omega
        rw [e2]
        have h1 := Int.mul_ediv_add_emod Q C
        have h2 := Int.emod_nonneg Q hC.ne'
        have h3 := Int.emod_lt_of_pos Q hC
        rw [show Q / C * C = C * (Q / C) by ring, show (Q / C + 1) * C = C * (Q / C) + C by ring]
        omega
      · have e2 : max (P * (C * E)) (min Q ((P + 1) * (C * E) - 1)) = (P + 1) * (C * E) - 1 := by omega
        have e3 : ((P + 1) * (C * E) - 1) / C = (P + 1) * E - 1 := by
          rw [show (P + 1) * (C * E) - 1 = (C - 1) + ((P + 1) * E - 1) * C by ring,
            Int.add_mul_ediv_right _ _ hC.ne', Int.ediv_eq_zero_of_lt (by omega) (by omega)]
          ring
        rw [e2, e3]
        rw [show ((P + 1) * E - 1 + 1) * C = (P + 1) * (C * E) by ring,
          show ((P + 1) * E - 1) * C = (P + 1) * (C * E) - C by ring]
        omega

theorem pow_levels {L l p : ℕ} (h1 : p ≤ l) (h2 : l ≤ L) : (2 : ℤ) ^ (L - p) = 2 ^ (L - l) * 2 ^ (l - p) := by
  rw [← pow_add]; congr 1; omega

theorem nearest_out {q p : Quad d} {l : ℕ} (hpl : p.level ≤ l) (hlq : l ≤ q.level) (i : Fin d) :
    outNum q (nearest q p l) i = outNum q p i := by
  unfold outNum
  have e : numAt (nearest q p l) (nearest q p l).level i = movedNum q p i / 2 ^ (q.level - l) := by
    show numAt (qat l _) l i = _
    rw [numAt_qat]
  rw [e]
  show max 0 (max (_ * 2 ^ (q.level - l) - _) (_ + 1 - (_ + 1) * 2 ^ (q.level - l))) = _
  unfold movedNum
  rw [pow_levels hpl hlq]
  exact (moved_div (by positivity) (by positivity)).2

theorem nearest_half {q p : Quad d} {l : ℕ} (hpl : p.level ≤ l) (hlq : l ≤ q.level) :
    halfDist q (nearest q p l) = halfDist q p := by
  funext i
  unfold halfDist
  rw [nearest_out hpl hlq]

theorem nearest_sub {q p : Quad d} (hq : Aligned q) (hp : Aligned p) {l : ℕ} (hpl : p.level ≤ l)
    (hlq : l ≤ q.level) : Cells (nearest q p l) ⊆ Cells p := by
  have hL := hq.1
  refine (sub_iff (r := nearest q p l) (qat_aligned (by omega) _) hp hpl).mpr ?_
  intro i
  show numAt (qat l _) l i / 2 ^ (l - p.level) = _
  rw [numAt_qat]
  show movedNum q p i / _ / _ = _
  unfold movedNum
  rw [pow_levels hpl hlq]
  exact (moved_div (by positivity) (by positivity)).1

theorem nearest_up {q p : Quad d} {l c : ℕ} (h : l + c ≤ q.level) (hL : q.level ≤ 30) :
    numAt (nearest q p (l + c)) l = numAt (nearest q p l) l := by
  funext i
  rw [num_div (c := c) (by omega)]
  have e1 : numAt (nearest q p (l + c)) (l + c) i = movedNum q p i / 2 ^ (q.level - (l + c)) := by
    show numAt (qat (l + c) _) (l + c) i = _
    rw [numAt_qat]
  have e2 : numAt (nearest q p l) l i = movedNum q p i / 2 ^ (q.level - l) := by
    show numAt (qat l _) l i = _
    rw [numAt_qat]
  rw [e1, e2, Int.ediv_ediv_of_nonneg (by positivity), ← pow_add]
  congr 2
  omega

/-- Along an axis where `p` is outside, smaller quadrants in `p` are as far as `p`, or too far. -/
theorem out_mono {q p r : Quad d} (hr : Aligned r) (hp : Aligned p) (hpr : p.level ≤ r.level)
    (hrq : r.level ≤ q.level) (hs : Cells r ⊆ Cells p) (i : Fin d) : outNum q p i ≤ outNum q r i ∧
    (outNum q p i ≠ 0 → outNum q r i < 2 ^ (q.level - r.level) →
      numAt r r.level i = numAt (nearest q p r.level) r.level i) := by
  have h := (sub_iff hr hp hpr).mp hs i
  have e2 : numAt (nearest q p r.level) r.level i = movedNum q p i / 2 ^ (q.level - r.level) := by
    show numAt (qat r.level _) r.level i = _
    rw [numAt_qat]
  rw [e2]
  unfold outNum movedNum
  rw [pow_levels hpr hrq]
  have hC : (0 : ℤ) < 2 ^ (q.level - r.level) := by positivity
  have hE : (0 : ℤ) < 2 ^ (r.level - p.level) := by positivity
  generalize numAt r r.level i = R at *
  generalize numAt p p.level i = P at *
  generalize numAt q q.level i = Q at *
  generalize (2 : ℤ) ^ (q.level - r.level) = C at *
  generalize (2 : ℤ) ^ (r.level - p.level) = E at *
  have h1 := Int.mul_ediv_add_emod R E
  have h2 := Int.emod_nonneg R hE.ne'
  have h3 := Int.emod_lt_of_pos R hE
  rw [h] at h1
  set f := R % E with hf
  have hR : R = E * P + f := by omega
  have g1 : 0 ≤ f * C := mul_nonneg h2 hC.le
  have g2 : (f + 1) * C ≤ E * C := mul_le_mul_of_nonneg_right (by omega) hC.le
  have x1 : R * C = P * (C * E) + f * C := by rw [hR]; ring
  have x2 : (R + 1) * C = P * (C * E) + f * C + C := by rw [hR]; ring
  have x3 : (P + 1) * (C * E) = P * (C * E) + E * C := by ring
  have g3 : (f + 1) * C = f * C + C := by ring
  rw [x1, x2, x3]
  constructor
  · omega
  · intro h4 h5
    rcases lt_or_ge Q (P * (C * E)) with hlow | hlow
    · have : f * C < 1 * C := by omega
      have hf0 : f < 1 := lt_of_mul_lt_mul_right this hC.le
      have hf0' : f = 0 := by omega
      rw [max_eq_left (by omega), hR, hf0', show P * (C * E) = (E * P) * C by ring, Int.mul_ediv_cancel _ hC.ne']
      omega
    · have hhigh : P * (C * E) + E * C ≤ Q := by omega
      have : (E - 1 - f) * C < 1 * C := by
        have : (E - 1 - f) * C = E * C - (f * C + C) := by ring
        omega
      have hf0 : E - 1 - f < 1 := lt_of_mul_lt_mul_right this hC.le
      have hf0' : f = E - 1 := by omega
      have e3 : max (P * (C * E)) (min Q (P * (C * E) + E * C - 1)) = (C - 1) + (E * P + (E - 1)) * C := by
        have : (C - 1) + (E * P + (E - 1)) * C = P * (C * E) + E * C - 1 := by ring
        have : 0 < E * C := mul_pos hE hC
        omega
      rw [e3, Int.add_mul_ediv_right _ _ hC.ne', Int.ediv_eq_zero_of_lt (by omega) (by omega), hR, hf0']
      ring

/-! ## Positions in coarser quadrants -/

/-- The number of the neighbor to one side. -/
def sgn (up : Bool) : ℤ := if up then 1 else -1

/-- How far `T` is from the other side in the quadrant `m` levels coarser. -/
def pos (up : Bool) (m : ℕ) (T : ℤ) : ℕ := (if up then T % 2 ^ m else 2 ^ m - 1 - T % 2 ^ m).toNat

theorem pos_lt (up : Bool) (m : ℕ) (T : ℤ) : pos up m T < 2 ^ m := by
  have hM : (0 : ℤ) < 2 ^ m := by positivity
  have h1 := Int.emod_nonneg T hM.ne'
  have h2 := Int.emod_lt_of_pos T hM
  unfold pos
  zify
  generalize (2 : ℤ) ^ m = M at *
  cases up <;> simp <;> omega

theorem gap_self (m : ℕ) (T : ℤ) : gap m T (T / 2 ^ m) = 0 := by
  have hM : (0 : ℤ) < 2 ^ m := by positivity
  have h1 := Int.emod_nonneg T hM.ne'
  have h2 := Int.emod_lt_of_pos T hM
  have h3 := Int.mul_ediv_add_emod T (2 ^ m)
  unfold gap
  rw [mul_comm (T / 2 ^ m)]
  generalize (2 : ℤ) ^ m * (T / 2 ^ m) = X at *
  generalize (2 : ℤ) ^ m = M at *
  omega

theorem gap_next (m : ℕ) (T : ℤ) (up : Bool) : gap m T (T / 2 ^ m + sgn up) + pos up m T = 2 ^ m := by
  have hM : (0 : ℤ) < 2 ^ m := by positivity
  have h1 := Int.emod_nonneg T hM.ne'
  have h2 := Int.emod_lt_of_pos T hM
  have h3 := Int.mul_ediv_add_emod T (2 ^ m)
  unfold gap pos sgn
  rw [add_mul, mul_comm (T / 2 ^ m)]
  zify
  generalize (2 : ℤ) ^ m * (T / 2 ^ m) = X at *
  generalize (2 : ℤ) ^ m = M at *
  cases up <;> simp <;> omega

theorem gap_cases {m : ℕ} {T P : ℤ} (h : gap m T P < 2 ^ m) :
    P = T / 2 ^ m ∨ ∃ up, P = T / 2 ^ m + sgn up := by
  have hM : (0 : ℤ) < 2 ^ m := by positivity
  have h1 := Int.emod_nonneg T hM.ne'
  have h2 := Int.emod_lt_of_pos T hM
  have h3 := Int.mul_ediv_add_emod T (2 ^ m)
  unfold gap at h
  zify at h
  generalize T / 2 ^ m = A at *
  generalize (2 : ℤ) ^ m = M at *
  have h4 : (P - A - 1) * M < 1 * M := by
    have : (P - A - 1) * M = P * M - M * A - M := by ring
    omega
  have h5 : (A - P - 1) * M < 1 * M := by
    have : (A - P - 1) * M = M * A - P * M - M := by ring
    omega
  have h6 := lt_of_mul_lt_mul_right h4 hM.le
  have h7 := lt_of_mul_lt_mul_right h5 hM.le
  rcases lt_trichotomy P A with h | h | h
  · right; exact ⟨false, by simp [sgn]; omega⟩
  · left; exact h
  · right; exact ⟨true, by simp [sgn]; omega⟩

theorem pos_split (up : Bool) (m j : ℕ) (T : ℤ) :
    pos up (m + j) T = 2 ^ m * pos up j (T / 2 ^ m) + pos up m T := by
  have hM : (0 : ℤ) < 2 ^ m := by positivity
  have hJ : (0 : ℤ) < 2 ^ j := by positivity
  have h1 := Int.emod_nonneg T hM.ne'
  have h2 := Int.emod_lt_of_pos T hM
  have h3 := Int.emod_nonneg (T / 2 ^ m) hJ.ne'
  have h4 := Int.emod_lt_of_pos (T / 2 ^ m) hJ
  have h5 : T % 2 ^ (m + j) = 2 ^ m * (T / 2 ^ m % 2 ^ j) + T % 2 ^ m := by
    rw [pow_add]
    have a1 := Int.mul_ediv_add_emod T (2 ^ m * 2 ^ j)
    have a2 := Int.mul_ediv_add_emod T (2 ^ m)
    have a3 := Int.mul_ediv_add_emod (T / 2 ^ m) (2 ^ j)
    rw [Int.ediv_ediv_of_nonneg hM.le] at a3
    have a4 : (2 : ℤ) ^ m * (2 ^ j * (T / (2 ^ m * 2 ^ j)) + T / 2 ^ m % 2 ^ j) = 2 ^ m * (T / 2 ^ m) := by rw [a3]
    have a5 : (2 : ℤ) ^ m * (2 ^ j * (T / (2 ^ m * 2 ^ j)) + T / 2 ^ m % 2 ^ j) =
      2 ^ m * 2 ^ j * (T / (2 ^ m * 2 ^ j)) + 2 ^ m * (T / 2 ^ m % 2 ^ j) := by ring
    omega
  unfold pos
  rw [h5, pow_add]
  zify
  generalize T / 2 ^ m % 2 ^ j = x at *
  generalize T % 2 ^ m = y at *
  generalize (2 : ℤ) ^ m = M at *
  generalize (2 : ℤ) ^ j = J at *
  cases up
  · simp only [Bool.false_eq_true, if_false]
    have e1 : M * J - 1 - (M * x + y) = M * (J - 1 - x) + (M - 1 - y) := by ring
    have g1 : 0 ≤ M * (J - 1 - x) := mul_nonneg hM.le (by omega)
    rw [e1, Int.toNat_of_nonneg (by omega), Int.toNat_of_nonneg (by omega), Int.toNat_of_nonneg (by omega)]
  · simp only [if_true]
    have g1 : 0 ≤ M * x := mul_nonneg hM.le (by omega)
    rw [Int.toNat_of_nonneg (by omega), Int.toNat_of_nonneg (by omega), Int.toNat_of_nonneg (by omega)]

/-- The neighbor of `A` to one side is nearer to the neighbor of the coarser quadrant. -/
theorem gap_shift (j : ℕ) (A : ℤ) (up : Bool) : gap j (A + sgn up) (A / 2 ^ j + sgn up) + pos up j A + 1 = 2 ^ j := by
  have hM : (0 : ℤ) < 2 ^ j := by positivity
  have h1 := Int.emod_nonneg A hM.ne'
  have h2 := Int.emod_lt_of_pos A hM
  have h3 := Int.mul_ediv_add_emod A (2 ^ j)
  unfold gap pos sgn
  rw [add_mul, mul_comm (A / 2 ^ j)]
  zify
  generalize (2 : ℤ) ^ j * (A / 2 ^ j) = X at *
  generalize (2 : ℤ) ^ j = M at *
  cases up <;> simp <;> omega

theorem next_in (j : ℕ) (A : ℤ) (up : Bool) :
    (A + sgn up) / 2 ^ j = A / 2 ^ j ∨ (A + sgn up) / 2 ^ j = A / 2 ^ j + sgn up := by
  have hM : (0 : ℤ) < 2 ^ j := by positivity
  have h1 := Int.emod_nonneg A hM.ne'
  have h2 := Int.emod_lt_of_pos A hM
  have h3 := Int.mul_ediv_add_emod A (2 ^ j)
  have h1' := Int.emod_nonneg (A + sgn up) hM.ne'
  have h2' := Int.emod_lt_of_pos (A + sgn up) hM
  have h3' := Int.mul_ediv_add_emod (A + sgn up) (2 ^ j)
  have key : ∀ a b : ℤ, 2 ^ j * a < 2 ^ j * b + 2 ^ j → a < b + 1 := by
    intro a b h
    have : (2 : ℤ) ^ j * a < 2 ^ j * (b + 1) := by rw [mul_add, mul_one]; exact h
    exact lt_of_mul_lt_mul_left this hM.le
  cases up
  · have hs : sgn false = -1 := rfl
    rw [hs] at h1' h2' h3' ⊢
    have a1 := key (A / 2 ^ j) ((A + -1) / 2 ^ j + 1) (by rw [mul_add, mul_one]; omega)
    have a2 := key ((A + -1) / 2 ^ j) (A / 2 ^ j) (by omega)
    omega
  · have hs : sgn true = 1 := rfl
    rw [hs] at h1' h2' h3' ⊢
    have a1 := key ((A + 1) / 2 ^ j) (A / 2 ^ j + 1) (by rw [mul_add, mul_one]; omega)
    have a2 := key (A / 2 ^ j) ((A + 1) / 2 ^ j) (by omega)
    omega

/-! ## Carries -/

theorem carrySum_block : ∀ {m a b c x y z : ℕ}, x < 2 ^ m → y < 2 ^ m → z < 2 ^ m →
    carrySum (2 ^ m * a + x) (2 ^ m * b + y) (2 ^ m * c + z) = 2 ^ m * carrySum a b c + carrySum x y z
  | 0, a, b, c, x, y, z, hx, hy, hz => by
    simp only [pow_zero] at *
    obtain rfl : x = 0 := by omega
    obtain rfl : y = 0 := by omega
    obtain rfl : z = 0 := by omega
    simp [carrySum]
  | m + 1, a, b, c, x, y, z, hx, hy, hz => by
    have e : ∀ a x : ℕ, (2 ^ (m + 1) * a + x) / 2 = 2 ^ m * a + x / 2 ∧ (2 ^ (m + 1) * a + x) % 2 = x % 2 := by
      intro a x
      have : 2 ^ (m + 1) * a = 2 * (2 ^ m * a) := by rw [pow_succ]; ring
      rw [this]
      omega
    rw [carrySum_half (2 ^ (m + 1) * a + x), (e a x).1, (e b y).1, (e c z).1, (e a x).2, (e b y).2, (e c z).2,
      carrySum_block (m := m) (lt_pow_succ.mp hx) (lt_pow_succ.mp hy) (lt_pow_succ.mp hz), carrySum_half x y z, pow_succ]
    ring

theorem carry_shift {m U V W : ℕ} (hU : U < 2 ^ m) (hV : V < 2 ^ m) (hW : W < 2 ^ m)
    (h : Carry (m + 1) (2 ^ m + U) (2 ^ m + V) W) : Carry m U V W := by
  refine ⟨hU, hV, hW, ?_⟩
  have h1 := h.2.2.2
  have h2 := carrySum_block (a := 1) (b := 1) (c := 0) hU hV hW
  rw [mul_one, mul_zero, zero_add] at h2
  rw [h2, show carrySum 1 1 0 = 1 by decide, mul_one, pow_succ] at h1
  omega

/-! ## Seeds -/

/-- A seed: the nearest quadrant of the level up to which quadrants in `t` are forced. -/
structure SeedOf (k : ℕ) (q t s : Quad d) : Prop where
  level : t.level < s.level
  eq : s = nearest q t s.level
  reach : ReachLevel k q.level (halfDist q t) s.level

theorem ConSpec.seed {q t : Quad d} {r : Bool × Quad d} (h : ConSpec k q t r) : r.1 = true ∨ SeedOf k q t r.2 := by
  obtain ⟨b, hb, rfl⟩ := h
  split
  · left; rfl
  · right
    exact ⟨by show _ < b; omega, rfl, hb⟩

theorem ConSpec.forces {q t : Quad d} {r : Bool × Quad d} (h : ConSpec k q t r) (hf : Forces k q t) :
    r.1 = false ∧ SeedOf k q t r.2 := by
  obtain ⟨m, hm, hr⟩ := hf
  have h1 := (h.flag hm).mpr hr
  refine ⟨h1, ?_⟩
  rcases h.seed with h2 | h2
  · rw [h1] at h2; cases h2
  · exact h2

theorem SeedOf.fine {q t s : Quad d} (h : SeedOf k q t s) (hl : t.level < q.level) (hne : ∃ i, outNum q t i ≠ 0) :
    s.level < q.level := by
  obtain ⟨i, hi⟩ := hne
  exact h.reach.lt (by omega) (fun h => hi (halfDist_eq_zero.mp h))

theorem SeedOf.aligned {q t s : Quad d} (h : SeedOf k q t s) (hs : s.level ≤ 30) : Aligned s := by
  rw [h.eq]; exact qat_aligned hs _

theorem SeedOf.sub {q t s : Quad d} (h : SeedOf k q t s) (hq : Aligned q) (ht : Aligned t)
    (hs : s.level ≤ q.level) : Cells s ⊆ Cells t := by
  rw [h.eq]; exact nearest_sub hq ht h.level.le hs

theorem SeedOf.forced {q t s : Quad d} (h : SeedOf k q t s) (hq : Aligned q)
    (hs : s.level < q.level) : Forces k q (upOf s) := by
  have hL := hq.1
  have hl := h.level
  have e : upOf s = nearest q t (s.level - 1) := by
    have h1 := nearest_up (q := q) (p := t) (l := s.level - 1) (c := 1) (by omega) hL
    rw [show s.level - 1 + 1 = s.level by omega, ← h.eq] at h1
    unfold upOf
    rw [h1]
    exact qat_num (q := nearest q t (s.level - 1)) (qat_aligned (by omega) _)
  rw [e]
  refine ⟨q.level - s.level, ?_, ?_⟩
  · show q.level = s.level - 1 + _ + 1
    omega
  · rw [nearest_half (by omega) (by omega)]
    exact (h.reach (s.level - 1) _ (by omega)).mp (by omega)

/-- The number of the quadrant that contains the seed. -/
theorem SeedOf.num {q t s : Quad d} (h : SeedOf k q t s) (hq : Aligned q) (ht : Aligned t)
    (hs : s.level ≤ q.level) {l : ℕ} (hl : l ≤ t.level) : numAt s l = numAt t l := by
  have hL := hq.1
  have hsub := h.sub hq ht hs
  have h1 := (sub_iff (h.aligned (by omega)) ht h.level.le).mp hsub
  funext i
  have hlt := h.level
  rw [num_div (s := t) (l := l) (c := t.level - l) (by omega), show l + (t.level - l) = t.level by omega, ← h1 i,
    num_div (s := s) (l := l) (c := s.level - l) (by omega), show l + (s.level - l) = s.level by omega,
    Int.ediv_ediv_of_nonneg (by positivity), ← pow_add]
  congr 2
  omega

/-- What the seed in `t` forces. -/
theorem SeedOf.reaches {q t s r : Quad d} (h : SeedOf k q t s) (hq : Aligned q) (ht : Aligned t)
    (hs : s.level ≤ 29) (hsq : s.level ≤ q.level) {j : ℕ} (hl : t.level = r.level + j)
    (hr : CanReach k j (fun i => gap j (numAt t t.level i) (numAt r r.level i))) : Forces k s r := by
  have hlt := h.level
  obtain ⟨c, hc⟩ : ∃ c, s.level = r.level + j + c + 1 := ⟨s.level - (r.level + j) - 1, by omega⟩
  refine forces_of hs hc ?_
  rw [← hl, h.num hq ht hsq le_rfl]
  exact hr

end P4est
