import Verif.Lemmas.Compare
import Mathlib.Data.Set.Basic
import Mathlib.Data.Fin.VecNotation
import Mathlib.Tactic.Push

namespace P4est
open Spec

variable {d : ℕ}

theorem qlen_eq_side (q : Quad d) : qlen q.level = side q := rfl

theorem side_pos (q : Quad d) : 0 < side q := by unfold side; positivity

theorem Spec.Aligned.c_eq {q : Quad d} (h : Aligned q) (i : Fin d) :
    q.c i = 2 ^ (30 - q.level) * (q.c i / 2 ^ (30 - q.level)) :=
  (Int.mul_ediv_cancel' (h.2 i)).symm

theorem aligned_iff_land {q : Quad d} :
    (∀ i, Int.land (q.c i) (qlen q.level - 1) = 0) ↔ ∀ i, side q ∣ q.c i := by
  unfold qlen side MAXLEVEL
  simp only [land_mask, Int.dvd_iff_emod_eq_zero]

theorem isValid_iff {q : Quad d} : isValid q = true ↔ Valid q := by
  unfold isValid Valid isInsideRoot InRoot Aligned
  simp only [Bool.and_eq_true, decide_eq_true_eq, aligned_iff_land]
  simp only [QMAXLEVEL, rootLen, MAXLEVEL]
  constructor
  · rintro ⟨⟨h1, h2⟩, h3⟩; exact ⟨h1, ⟨by omega, h2⟩, h3⟩
  · rintro ⟨h1, ⟨_, h2⟩, h3⟩; exact ⟨⟨h1, h2⟩, h3⟩

theorem isExtended_iff {q : Quad d} : isExtended q = true ↔ Extended q := by
  unfold isExtended Extended isInside3x3 Aligned
  simp only [Bool.and_eq_true, decide_eq_true_eq, aligned_iff_land]
  simp only [QMAXLEVEL, rootLen, MAXLEVEL]
  constructor
  · rintro ⟨⟨h1, h2⟩, h3⟩
    exact ⟨h1, ⟨by omega, h2⟩, fun i => by have := h3 i; constructor <;> omega⟩
  · rintro ⟨h1, ⟨_, h2⟩, h3⟩
    exact ⟨⟨h1, h2⟩, fun i => by have := h3 i; constructor <;> omega⟩

theorem Spec.Valid.extended {q : Quad d} (h : Valid q) : Extended q :=
  ⟨h.1, h.2.1, fun i => by have := h.2.2 i; constructor <;> omega⟩

theorem Spec.Extended.int32 {q : Quad d} (h : Extended q) : Int32 q.c :=
  fun i => by have := h.2.2 i; constructor <;> omega

theorem Spec.Valid.int32 {q : Quad d} (h : Valid q) : Int32 q.c := h.extended.int32

theorem Spec.Valid.aligned {q : Quad d} (h : Valid q) : Aligned q := h.2.1
theorem Spec.Extended.aligned {q : Quad d} (h : Extended q) : Aligned q := h.2.1

/-- Membership in an aligned quadrant by quotients. -/
theorem mem_cells {q : Quad d} (h : Aligned q) {p : Fin d → ℤ} :
    p ∈ Cells q ↔ ∀ i, p i / 2 ^ (30 - q.level) = q.c i / 2 ^ (30 - q.level) := by
  have hp : (0:ℤ) < 2 ^ (30 - q.level) := by positivity
  unfold Cells side
  simp only [Set.mem_ofPred_eq]
  apply forall_congr'
  intro i
  have hc := h.c_eq i
  rw [Int.ediv_eq_iff_of_pos hp]
  constructor
  · rintro ⟨h1, h2⟩; constructor <;> linarith
  · rintro ⟨h1, h2⟩; constructor <;> linarith

theorem corner_mem (q : Quad d) : q.c ∈ Cells q := by
  intro i
  have := side_pos q
  constructor <;> linarith

theorem side_dvd_side {q r : Quad d} (h : q.level ≤ r.level) : side r ∣ side q := by
  unfold side
  exact pow_dvd_pow _ (by omega)

theorem side_le_side {q r : Quad d} (h : q.level ≤ r.level) : side r ≤ side q :=
  Int.le_of_dvd (side_pos q) (side_dvd_side h)

theorem side_lt_side {q r : Quad d} (hr : r.level ≤ 30) (h : q.level < r.level) :
    side r < side q := by
  unfold side
  exact pow_lt_pow_right₀ (by norm_num) (by omega)

/-- Quotients by a larger power follow from quotients by a smaller one. -/
theorem div_pow_mono {x y : ℤ} {j k : ℕ} (hjk : j ≤ k) (h : x / 2 ^ j = y / 2 ^ j) :
    x / 2 ^ k = y / 2 ^ k := by
  obtain ⟨m, rfl⟩ := Nat.exists_eq_add_of_le hjk
  rw [pow_add, ← Int.ediv_ediv_of_nonneg (by positivity), ← Int.ediv_ediv_of_nonneg (by positivity), h]

/-- A quadrant whose corner lies in `q` and is at least as deep lies in `q`. -/
theorem cells_subset {q r : Quad d} (hq : Aligned q) (hr : Aligned r) (hl : q.level ≤ r.level)
    (hm : r.c ∈ Cells q) : Cells r ⊆ Cells q := by
  intro p hp
  rw [mem_cells hq] at *
  rw [mem_cells hr] at hp
  intro i
  rw [← hm i]
  exact div_pow_mono (by omega) (hp i)

theorem cells_subset_iff (hd : 0 < d) {q r : Quad d} (hq : Aligned q) (hr : Aligned r) :
    Cells r ⊆ Cells q ↔ q.level ≤ r.level ∧ r.c ∈ Cells q := by
  constructor
  · intro h
    refine ⟨?_, h (corner_mem r)⟩
    by_contra hc
    have hlt : side q < side r := side_lt_side hq.1 (by omega)
    have h1 := h (corner_mem r) ⟨0, hd⟩
    have hp := side_pos q
    have hpr := side_pos r
    have h2 : (fun i => r.c i + (side r - 1)) ∈ Cells q := by
      apply h; intro i; constructor <;> linarith
    have h3 := h2 ⟨0, hd⟩
    simp only at h3
    have : (r.c ⟨0, hd⟩) = q.c ⟨0, hd⟩ + 0 ∨ True := Or.inr trivial
    -- the side of r exceeds the side of q, so r cannot fit
    linarith [h1.1, h1.2, h3.1, h3.2]
  · rintro ⟨h1, h2⟩; exact cells_subset hq hr h1 h2

theorem cells_inj (hd : 0 < d) {q r : Quad d} (hq : Aligned q) (hr : Aligned r)
    (h : Cells q = Cells r) : q = r := by
  have h1 := (cells_subset_iff hd hq hr).mp (by rw [h])
  have h2 := (cells_subset_iff hd hr hq).mp (by rw [h])
  have hl : q.level = r.level := by omega
  apply Quad.ext' _ hl
  intro i
  exact le_antisymm (h1.2 i).1 (h2.2 i).1

theorem overlap_iff {q r : Quad d} (hq : Aligned q) (hr : Aligned r) :
    (Cells q ∩ Cells r).Nonempty ↔
      ∀ i, q.c i / 2 ^ (30 - min q.level r.level) = r.c i / 2 ^ (30 - min q.level r.level) := by
  constructor
  · rintro ⟨p, hp, hp'⟩ i
    rw [mem_cells hq] at hp
    rw [mem_cells hr] at hp'
    rw [← div_pow_mono (by omega) (hp i), ← div_pow_mono (by omega) (hp' i)]
  · intro h
    rcases Nat.le_total q.level r.level with hl | hl
    · refine ⟨r.c, ?_, corner_mem r⟩
      rw [mem_cells hq]
      intro i
      have := h i
      rw [Nat.min_eq_left hl] at this
      exact this.symm
    · refine ⟨q.c, corner_mem q, ?_⟩
      rw [mem_cells hr]
      intro i
      have := h i
      rw [Nat.min_eq_right hl] at this
      exact this

theorem laminar {q r : Quad d} (hq : Aligned q) (hr : Aligned r)
    (h : (Cells q ∩ Cells r).Nonempty) : Cells r ⊆ Cells q ∨ Cells q ⊆ Cells r := by
  rw [overlap_iff hq hr] at h
  rcases Nat.le_total q.level r.level with hl | hl
  · left
    apply cells_subset hq hr hl
    rw [mem_cells hq]
    intro i
    have := h i
    rw [Nat.min_eq_left hl] at this
    exact this.symm
  · right
    apply cells_subset hr hq hl
    rw [mem_cells hr]
    intro i
    have := h i
    rw [Nat.min_eq_right hl] at this
    exact this

theorem overlaps_iff {q r : Quad d} (hq : Aligned q) (hr : Aligned r) :
    overlaps q r = true ↔ (Cells q ∩ Cells r).Nonempty := by
  rw [overlap_iff hq hr]
  unfold overlaps MAXLEVEL
  simp only [Bool.not_eq_true', decide_eq_false_iff_not, not_exists, ne_eq, not_not,
    xor_not_mask_eq_zero]

theorem isAncestor_iff_div {q r : Quad d} : isAncestor q r = true ↔
    q.level < r.level ∧ ∀ i, r.c i / 2 ^ (30 - q.level) = q.c i / 2 ^ (30 - q.level) := by
  unfold isAncestor MAXLEVEL
  by_cases h : q.level ≥ r.level
  · rw [if_pos h]
    constructor
    · intro h'; exact absurd h' (by simp)
    · rintro ⟨h1, _⟩; omega
  · rw [if_neg h]
    simp only [decide_eq_true_eq, Int.shiftRight_eq_div_pow]
    push_cast
    simp only [xor_shift_eq_zero]
    constructor
    · intro h'; exact ⟨by omega, fun i => (h' i).symm⟩
    · rintro ⟨_, h'⟩ i; exact (h' i).symm

theorem isAncestor_iff (hd : 0 < d) {q r : Quad d} (hq : Aligned q) (hr : Aligned r) :
    isAncestor q r = true ↔ Cells r ⊂ Cells q := by
  rw [isAncestor_iff_div, ← mem_cells hq, Set.ssubset_iff_subset_ne, cells_subset_iff hd hq hr]
  constructor
  · rintro ⟨h1, h2⟩
    refine ⟨⟨by omega, h2⟩, ?_⟩
    intro hc
    have := cells_inj hd hr hq hc
    rw [this] at h1; omega
  · rintro ⟨⟨h1, h2⟩, h3⟩
    refine ⟨?_, h2⟩
    by_contra hc
    have hl : q.level = r.level := by omega
    apply h3
    apply Set.Subset.antisymm (cells_subset hq hr h1 h2)
    apply cells_subset hr hq (by omega)
    rw [mem_cells hr]
    rw [mem_cells hq] at h2
    intro i
    rw [← hl]; exact (h2 i).symm

theorem isEqual_iff {q r : Quad d} : isEqual q r = true ↔ q = r := by
  unfold isEqual
  simp only [Bool.and_eq_true, decide_eq_true_eq]
  constructor
  · rintro ⟨h1, h2⟩; exact Quad.ext' h2 h1
  · rintro rfl; exact ⟨rfl, fun _ => rfl⟩

/-! ### Intervals of curve positions -/

theorem aligned_int32_cells {q : Quad d} (h : Aligned q) (hi : Int32 q.c) {p : Fin d → ℤ}
    (hp : p ∈ Cells q) : Int32 p := by
  intro i
  have h1 := hp i
  have h2 := hi i
  have hdvd : side q ∣ 2 ^ 31 := by
    unfold side; exact pow_dvd_pow _ (by omega)
  obtain ⟨a, ha⟩ := hdvd
  obtain ⟨b, hb⟩ := h.2 i
  have hs := side_pos q
  refine ⟨by omega, ?_⟩
  have : q.c i + side q ≤ 2 ^ 31 := by
    rw [hb, ha]
    have h3 : side q * b < side q * a := by rw [← hb, ← ha]; exact h2.2
    have h4 : b < a := lt_of_mul_lt_mul_left h3 hs.le
    nlinarith
  omega

theorem u32_div (z : ℤ) (hz : -2 ^ 31 ≤ z ∧ z < 2 ^ 31) (k : ℕ) (hk : k ≤ 32) :
    ((u32 z / 2 ^ k : ℕ) : ℤ) = if z ≥ 0 then z / 2 ^ k else z / 2 ^ k + 2 ^ (32 - k) := by
  push_cast
  rw [u32_cast]
  split
  · rw [Int.emod_eq_of_lt (by omega) (by omega)]
  · have h1 : z % 2 ^ 32 = z + 2 ^ k * 2 ^ (32 - k) := by
      rw [← pow_add, show k + (32 - k) = 32 by omega]; omega
    rw [h1, Int.add_mul_ediv_left _ _ (by positivity)]

theorem u32_div_eq_iff {x y : ℤ} (hx : -2 ^ 31 ≤ x ∧ x < 2 ^ 31) (hy : -2 ^ 31 ≤ y ∧ y < 2 ^ 31)
    (k : ℕ) (hk : k ≤ 31) : u32 x / 2 ^ k = u32 y / 2 ^ k ↔ x / 2 ^ k = y / 2 ^ k := by
  have e1 := u32_div x hx k (by omega)
  have e2 := u32_div y hy k (by omega)
  have hpk : (0:ℤ) < 2 ^ k := by positivity
  have hb : ∀ z : ℤ, -2 ^ 31 ≤ z ∧ z < 2 ^ 31 → (z ≥ 0 → 0 ≤ z / 2 ^ k ∧ z / 2 ^ k < 2 ^ (31 - k)) ∧
      (¬ z ≥ 0 → -2 ^ (31 - k) ≤ z / 2 ^ k ∧ z / 2 ^ k < 0) := by
    intro z hz
    have h31 : (2:ℤ) ^ 31 = 2 ^ (31 - k) * 2 ^ k := by rw [← pow_add]; congr 1; omega
    refine ⟨fun h => ⟨Int.ediv_nonneg h hpk.le, ?_⟩, fun h => ⟨?_, Int.ediv_neg_of_neg_of_pos (by omega) hpk⟩⟩
    · rw [Int.ediv_lt_iff_lt_mul hpk, ← h31]; exact hz.2
    · rw [Int.le_ediv_iff_mul_le hpk]
      have : -(2:ℤ) ^ (31 - k) * 2 ^ k = - 2 ^ 31 := by rw [h31]; ring
      rw [this]; exact hz.1
  have h32 : (2:ℤ) ^ (32 - k) = 2 * 2 ^ (31 - k) := by
    rw [← pow_succ']; congr 1; omega
  rw [h32] at e1 e2
  have bx := hb x hx
  have by' := hb y hy
  have hpos : (0:ℤ) < 2 ^ (31 - k) := by positivity
  generalize (2:ℤ) ^ (31 - k) = P at *
  generalize x / 2 ^ k = X at *
  generalize y / 2 ^ k = Y at *
  generalize u32 x / 2 ^ k = UX at *
  generalize u32 y / 2 ^ k = UY at *
  by_cases hx0 : x ≥ 0 <;> by_cases hy0 : y ≥ 0
  · rw [if_pos hx0] at e1; rw [if_pos hy0] at e2; omega
  · rw [if_pos hx0] at e1; rw [if_neg hy0] at e2
    have b1 := bx.1 hx0
    have b2 := by'.2 hy0
    omega
  · rw [if_neg hx0] at e1; rw [if_pos hy0] at e2
    have b1 := bx.2 hx0
    have b2 := by'.1 hy0
    omega
  · rw [if_neg hx0] at e1; rw [if_neg hy0] at e2; omega

theorem curve_div (p : Fin d → ℤ) (k : ℕ) (hk : k ≤ 32) :
    curve p / 2 ^ (d * k) = interleave (32 - k) (fun i => u32 (p i) / 2 ^ k) := by
  rw [curve_eq]
  conv_lhs => rw [show 32 = (32 - k) + k by omega]
  rw [interleave_div]

theorem curve_div_eq_iff {p r : Fin d → ℤ} (hp : Int32 p) (hr : Int32 r) (k : ℕ) (hk : k ≤ 31) :
    curve p / 2 ^ (d * k) = curve r / 2 ^ (d * k) ↔ ∀ i, p i / 2 ^ k = r i / 2 ^ k := by
  rw [curve_div p k (by omega), curve_div r k (by omega)]
  constructor
  · intro h i
    have := interleave_inj h i
    have hb : ∀ z, u32 z / 2 ^ k < 2 ^ (32 - k) := by
      intro z
      apply Nat.div_lt_of_lt_mul
      rw [← pow_add, show k + (32 - k) = 32 by omega]
      exact u32_lt z
    rw [Nat.mod_eq_of_lt (hb _), Nat.mod_eq_of_lt (hb _)] at this
    exact (u32_div_eq_iff (hp i) (hr i) k hk).mp this
  · intro h
    apply interleave_congr
    intro i
    simp only [(u32_div_eq_iff (hp i) (hr i) k hk).mpr (h i)]

theorem volume_pos (q : Quad d) : 0 < volume q := by unfold volume; positivity

/-- The curve position of an aligned corner is a multiple of the volume. -/
theorem volume_dvd_curve {q : Quad d} (h : Aligned q) : volume q ∣ curve q.c := by
  unfold volume
  rw [curve_eq]
  conv_rhs => rw [show 32 = (32 - (30 - q.level)) + (30 - q.level) by omega]
  have hc : (fun i => u32 (q.c i)) = (fun i => 2 ^ (30 - q.level) * (u32 (q.c i) / 2 ^ (30 - q.level))) := by
    funext i
    rw [Nat.mul_div_cancel']
    have h1 : ((2 ^ (30 - q.level) : ℕ) : ℤ) ∣ ((u32 (q.c i) : ℕ) : ℤ) := by
      rw [u32_cast]
      push_cast
      have h2 : (2:ℤ) ^ (30 - q.level) ∣ 2 ^ 32 := pow_dvd_pow _ (by omega)
      rw [Int.emod_def]
      exact dvd_sub (h.2 i) (dvd_mul_of_dvd_left h2 _)
    exact_mod_cast h1
  rw [hc, interleave_mul]
  exact Dvd.intro _ rfl

/-- A cell lies in a quadrant iff its curve position is in the interval of the quadrant. -/
theorem mem_cells_iff_curve {q : Quad d} (h : Aligned q) (hi : Int32 q.c) {p : Fin d → ℤ}
    (hp : Int32 p) : p ∈ Cells q ↔ curve q.c ≤ curve p ∧ curve p < curve q.c + volume q := by
  rw [mem_cells h, ← curve_div_eq_iff hp hi _ (by omega : 30 - q.level ≤ 31)]
  obtain ⟨a, ha⟩ := volume_dvd_curve h
  have hv := volume_pos q
  have e : 2 ^ (d * (30 - q.level)) = volume q := rfl
  rw [e, ha, Nat.mul_div_cancel_left _ hv, Nat.div_eq_iff hv]
  constructor
  · rintro ⟨h1, h2⟩
    refine ⟨by rw [mul_comm]; exact h1, ?_⟩
    rw [mul_comm a] at h2; omega
  · rintro ⟨h1, h2⟩
    refine ⟨by rw [mul_comm]; exact h1, ?_⟩
    rw [mul_comm a]; omega

end P4est
