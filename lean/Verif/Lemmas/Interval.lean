import Verif.Lemmas.Linear

namespace P4est
open Spec

variable {d : ℕ}

/-! ### Intervals of curve positions -/

theorem volume_dvd {q r : Quad d} (h : q.level ≤ r.level) : volume r ∣ volume q := by
  unfold volume
  exact pow_dvd_pow _ (Nat.mul_le_mul_left _ (by omega))

theorem volume_le_iff (hd : 0 < d) {q r : Quad d} (hq : q.level ≤ 30) (hr : r.level ≤ 30) :
    volume r ≤ volume q ↔ q.level ≤ r.level := by
  unfold volume
  rw [Nat.pow_le_pow_iff_right (by norm_num)]
  constructor
  · intro h
    have := Nat.le_of_mul_le_mul_left h hd
    omega
  · intro h
    exact Nat.mul_le_mul_left _ (by omega)

theorem volume_congr {q r : Quad d} (h : q.level = r.level) : volume q = volume r := by
  unfold volume; rw [h]

theorem start_lt_stop (q : Quad d) : start q < stop q := by
  unfold start stop; have := volume_pos q; omega

theorem stop_eq (q : Quad d) : stop q = start q + volume q := rfl

theorem volume_dvd_start {q : Quad d} (h : Aligned q) : volume q ∣ start q := volume_dvd_curve h

theorem volume_dvd_stop {q : Quad d} (h : Aligned q) : volume q ∣ stop q :=
  dvd_add (volume_dvd_curve h) dvd_rfl

theorem mem_iff_pos {q : Quad d} (h : Aligned q) (hi : Int32 q.c) {p : Fin d → ℤ} (hp : Int32 p) :
    p ∈ Cells q ↔ start q ≤ curve p ∧ curve p < stop q := mem_cells_iff_curve h hi hp

theorem subset_iff_interval (hd : 0 < d) {q r : Quad d} (hq : Aligned q) (hr : Aligned r)
    (hqi : Int32 q.c) (hri : Int32 r.c) :
    Cells r ⊆ Cells q ↔ start q ≤ start r ∧ stop r ≤ stop q := by
  rw [cells_subset_iff hd hq hr, mem_iff_pos hq hqi hri]
  constructor
  · rintro ⟨hl, h1, h2⟩
    refine ⟨h1, ?_⟩
    obtain ⟨a, ha⟩ := dvd_trans (volume_dvd hl) (volume_dvd_stop hq)
    obtain ⟨b, hb⟩ := volume_dvd_start hr
    have hv := volume_pos r
    rw [stop_eq r, hb, ha]
    have h2' : start r < stop q := h2
    rw [hb, ha] at h2'
    have := Nat.lt_of_mul_lt_mul_left h2'
    calc volume r * b + volume r = volume r * (b + 1) := by ring
      _ ≤ volume r * a := Nat.mul_le_mul_left _ this
  · rintro ⟨h1, h2⟩
    have hv := volume_pos r
    have hs := start_lt_stop r
    refine ⟨?_, h1, ?_⟩
    · rw [← volume_le_iff hd hq.1 hr.1]
      rw [stop_eq, stop_eq] at h2; omega
    · have : curve r.c = start r := rfl
      omega

theorem eq_of_interval (hd : 0 < d) {q r : Quad d} (hq : Aligned q) (hr : Aligned r)
    (hqi : Int32 q.c) (hri : Int32 r.c) (h1 : start q = start r) (h2 : stop q = stop r) : q = r := by
  apply cells_inj hd hq hr
  apply Set.Subset.antisymm
  · rw [subset_iff_interval hd hr hq hri hqi]; omega
  · rw [subset_iff_interval hd hq hr hqi hri]; omega

theorem disjoint_iff_interval {q r : Quad d} (hq : Aligned q) (hr : Aligned r)
    (hqi : Int32 q.c) (hri : Int32 r.c) :
    ¬ (Cells q ∩ Cells r).Nonempty ↔ stop q ≤ start r ∨ stop r ≤ start q := by
  constructor
  · intro h
    by_contra hc
    push Not at hc
    apply h
    rcases Nat.le_total (start q) (start r) with hs | hs
    · refine ⟨r.c, ?_, corner_mem r⟩
      rw [mem_iff_pos hq hqi hri]
      exact ⟨hs, hc.1⟩
    · refine ⟨q.c, corner_mem q, ?_⟩
      rw [mem_iff_pos hr hri hqi]
      exact ⟨hs, hc.2⟩
  · rintro h ⟨p, hp, hp'⟩
    have hpi := aligned_int32_cells hq hqi hp
    rw [mem_iff_pos hq hqi hpi] at hp
    rw [mem_iff_pos hr hri hpi] at hp'
    omega

theorem blockIndex_ancestor {q : Quad d} (hq : Aligned q) (hqi : Int32 q.c) {l : ℕ}
    (hl : l ≤ q.level) : blockIndex l (ancestor q l).c = blockIndex l q.c := by
  unfold blockIndex
  have hl30 := le_trans hl hq.1
  have hai : Int32 (ancestor q l).c := by
    intro i
    rw [ancestor_c]
    have := hqi i
    have h1 := Int.mul_ediv_self_le (x := q.c i) (k := 2 ^ (30 - l)) (by positivity)
    refine ⟨?_, by omega⟩
    have : -(2:ℤ) ^ 31 = 2 ^ (30 - l) * -2 ^ (l + 1) := by
      rw [mul_neg, ← pow_add]; congr 2; omega
    rw [this]
    apply mul_le_mul_of_nonneg_left _ (by positivity)
    rw [Int.le_ediv_iff_mul_le (by positivity)]
    have e : -(2:ℤ) ^ (l + 1) * 2 ^ (30 - l) = -2 ^ 31 := by
      rw [neg_mul, ← pow_add]; congr 2; omega
    rw [e]; omega
  rw [curve_div_eq_iff hai hqi _ (by omega)]
  intro i
  rw [ancestor_c, Int.mul_ediv_cancel_left _ (by positivity)]

theorem ancestor_int32 {q : Quad d} (hqi : Int32 q.c) {l : ℕ} (hl : l ≤ 30) :
    Int32 (ancestor q l).c := by
  intro i
  rw [ancestor_c]
  have := hqi i
  have h1 := Int.mul_ediv_self_le (x := q.c i) (k := 2 ^ (30 - l)) (by positivity)
  refine ⟨?_, by omega⟩
  have : -(2:ℤ) ^ 31 = 2 ^ (30 - l) * -2 ^ (l + 1) := by
    rw [mul_neg, ← pow_add]; congr 2; omega
  rw [this]
  apply mul_le_mul_of_nonneg_left _ (by positivity)
  rw [Int.le_ediv_iff_mul_le (by positivity)]
  have e : -(2:ℤ) ^ (l + 1) * 2 ^ (30 - l) = -2 ^ 31 := by
    rw [neg_mul, ← pow_add]; congr 2; omega
  rw [e]; omega

theorem start_ancestor {q : Quad d} (hq : Aligned q) (hqi : Int32 q.c) {l : ℕ}
    (hl : l ≤ q.level) :
    start (ancestor q l) = volume (ancestor q l) * blockIndex l q.c := by
  rw [start_eq_blockIndex (ancestor_aligned q (le_trans hl hq.1)), ancestor_level,
    blockIndex_ancestor hq hqi hl]

theorem stop_ancestor {q : Quad d} (hq : Aligned q) (hqi : Int32 q.c) {l : ℕ}
    (hl : l ≤ q.level) :
    stop (ancestor q l) = volume (ancestor q l) * (blockIndex l q.c + 1) := by
  rw [stop_eq, start_ancestor hq hqi hl]; ring

theorem within_ancestor (hd : 0 < d) {q : Quad d} (hq : Aligned q) (hqi : Int32 q.c) {l : ℕ}
    (hl : l ≤ q.level) : start (ancestor q l) ≤ start q ∧ stop q ≤ stop (ancestor q l) := by
  have hl30 := le_trans hl hq.1
  rw [← subset_iff_interval hd (ancestor_aligned q hl30) hq (ancestor_int32 hqi hl30) hqi]
  exact cells_subset_ancestor hq hl

/-! ### Cells of a quadrant by offset -/

theorem curve_add {q : Quad d} (hq : Aligned q) (hqi : Int32 q.c) (e : Fin d → ℕ)
    (he : ∀ i, e i < 2 ^ (30 - q.level)) :
    curve (fun i => q.c i + e i) = curve q.c + interleave (30 - q.level) e := by
  set k := 30 - q.level with hk
  have hmem : (fun i => q.c i + (e i : ℤ)) ∈ Cells q := by
    intro i
    unfold side
    have : ((e i : ℕ) : ℤ) < 2 ^ k := by exact_mod_cast he i
    constructor
    · simp
    · simp only; rw [← hk]; omega
  have hpi := aligned_int32_cells hq hqi hmem
  have hdvd : ∀ i, 2 ^ k ∣ u32 (q.c i) := by
    intro i
    have hh : ((2 ^ k : ℕ) : ℤ) ∣ (u32 (q.c i) : ℤ) := by
      rw [u32_cast, Int.emod_def]
      apply dvd_sub
      · have := hq.2 i
        unfold side at this
        exact_mod_cast this
      · apply dvd_mul_of_dvd_left
        push_cast
        exact pow_dvd_pow (2:ℤ) (by omega : k ≤ 32)
    exact_mod_cast hh
  have hu : ∀ i, u32 (q.c i + e i) = u32 (q.c i) + e i := by
    intro i
    apply toNat_u32_add (hqi i) (hpi i)
    intro hneg
    have hs : q.c i + side q ≤ 0 := by
      obtain ⟨t, ht⟩ := hq.2 i
      have hsp := side_pos q
      have : t < 0 := by
        by_contra hc
        have : 0 ≤ side q * t := mul_nonneg hsp.le (by omega)
        omega
      rw [ht]; nlinarith
    have := (hmem i).2
    simp only at this
    omega
  rw [curve_eq, curve_eq]
  rw [show 32 = (32 - k) + k by omega]
  rw [interleave_split (32 - k) k (fun i => u32 (q.c i + e i)),
    interleave_split (32 - k) k (fun i => u32 (q.c i))]
  have e1 : interleave (32 - k) (fun i => u32 (q.c i + e i) / 2 ^ k) =
      interleave (32 - k) (fun i => u32 (q.c i) / 2 ^ k) := by
    apply interleave_congr
    intro i
    have : u32 (q.c i + e i) / 2 ^ k = u32 (q.c i) / 2 ^ k := by
      rw [hu i]
      obtain ⟨t, ht⟩ := hdvd i
      rw [ht, Nat.mul_add_div (by positivity), Nat.div_eq_of_lt (he i), add_zero,
        Nat.mul_div_cancel_left _ (by positivity)]
    rw [this]
  have e2 : interleave k (fun i => u32 (q.c i + e i)) = interleave k e := by
    apply interleave_congr
    intro i
    rw [hu i]
    obtain ⟨t, ht⟩ := hdvd i
    rw [ht, Nat.mul_add_mod]
  have e3 : interleave k (fun i => u32 (q.c i)) = 0 := by
    rw [← interleave_zero (d := d) k]
    apply interleave_congr
    intro i
    obtain ⟨t, ht⟩ := hdvd i
    rw [ht, Nat.mul_mod_right]; simp
  rw [e1, e2, e3, add_zero]

theorem interleave_ones (k : ℕ) : interleave k (fun _ : Fin d => 2 ^ k - 1) = 2 ^ (d * k) - 1 := by
  induction k with
  | zero => simp [interleave]
  | succ k ih =>
    rw [interleave]
    have e1 : (fun _ : Fin d => (2 ^ (k + 1) - 1) / 2) = (fun _ => 2 ^ k - 1) := by
      funext _
      have : 0 < 2 ^ k := by positivity
      rw [pow_succ]; omega
    have e2 : digit (fun _ : Fin d => 2 ^ (k + 1) - 1) = 2 ^ d - 1 := by
      apply bits_ext (d := d) (digit_lt _) (by have : 0 < 2 ^ d := by positivity
                                               omega)
      intro i
      rw [digit_testBit, Nat.testBit_two_pow_sub_one]
      have : 0 < 2 ^ k := by positivity
      have h2 : (2 ^ (k + 1) - 1) % 2 = 1 := by rw [pow_succ]; omega
      simp [h2]
    rw [e1, ih, e2, Nat.mul_succ, pow_add]
    have h1 : 0 < 2 ^ (d * k) := by positivity
    have h2 : 0 < 2 ^ d := by positivity
    rw [Nat.mul_sub, mul_one, mul_comm]
    have : 2 ^ d ≤ 2 ^ (d * k) * 2 ^ d := Nat.le_mul_of_pos_left _ h1
    omega

@[simp] theorem lastDesc_level (q : Quad d) (l : ℕ) : (lastDesc q l).level = l := rfl
@[simp] theorem firstDesc_level (q : Quad d) (l : ℕ) : (firstDesc q l).level = l := rfl

theorem lastDesc_aligned {q : Quad d} (hq : Aligned q) {l : ℕ} (h : q.level ≤ l) (hl : l ≤ 30) :
    Aligned (lastDesc q l) := by
  refine ⟨hl, fun i => ?_⟩
  unfold lastDesc
  simp only [qlen_def, side]
  have h1 : (2:ℤ) ^ (30 - l) ∣ 2 ^ (30 - q.level) := pow_dvd_pow _ (by omega)
  exact dvd_add (dvd_trans h1 (hq.2 i)) (dvd_sub h1 dvd_rfl)

theorem lastDesc_mem {q : Quad d} {l : ℕ} (h : q.level ≤ l) :
    (lastDesc q l).c ∈ Cells q := by
  intro i
  unfold lastDesc
  simp only [qlen_def, side]
  have h1 : (2:ℤ) ^ (30 - l) ≤ 2 ^ (30 - q.level) := pow_le_pow_right₀ (by norm_num) (by omega)
  have h2 : (0:ℤ) < 2 ^ (30 - l) := by positivity
  constructor <;> omega

theorem lastDesc_int32 {q : Quad d} (hq : Aligned q) (hqi : Int32 q.c) {l : ℕ} (h : q.level ≤ l) :
    Int32 (lastDesc q l).c := aligned_int32_cells hq hqi (lastDesc_mem h)

theorem stop_lastDesc {q : Quad d} (hq : Aligned q) (hqi : Int32 q.c) {l : ℕ} (h : q.level ≤ l)
    (hl : l ≤ 30) : stop (lastDesc q l) = stop q := by
  have hc : (lastDesc q l).c = fun i => q.c i + ((2 ^ (30 - q.level) - 2 ^ (30 - l) : ℕ) : ℤ) := by
    funext i
    unfold lastDesc
    simp only [qlen_def]
    have : 2 ^ (30 - l) ≤ 2 ^ (30 - q.level) := Nat.pow_le_pow_right (by norm_num) (by omega)
    push_cast [this]
    rfl
  have hpos : 0 < 2 ^ (30 - l) := by positivity
  have hle : 2 ^ (30 - l) ≤ 2 ^ (30 - q.level) := Nat.pow_le_pow_right (by norm_num) (by omega)
  have e := curve_add hq hqi (fun _ => 2 ^ (30 - q.level) - 2 ^ (30 - l)) (fun i => by omega)
  have e2 : interleave (30 - q.level) (fun _ : Fin d => 2 ^ (30 - q.level) - 2 ^ (30 - l)) =
      2 ^ (d * (30 - q.level)) - 2 ^ (d * (30 - l)) := by
    have hs : 30 - q.level = (l - q.level) + (30 - l) := by omega
    have : (fun _ : Fin d => 2 ^ (30 - q.level) - 2 ^ (30 - l)) =
        (fun _ => 2 ^ (30 - l) * (2 ^ (l - q.level) - 1)) := by
      funext _
      rw [Nat.mul_sub, mul_one, ← pow_add]; congr 2; omega
    rw [this]
    conv_lhs => rw [hs]
    rw [interleave_mul (l - q.level) (30 - l) (fun _ => 2 ^ (l - q.level) - 1), interleave_ones,
      Nat.mul_sub, mul_one, ← pow_add, ← Nat.mul_add, hs, Nat.add_comm (30 - l)]
  unfold stop
  rw [hc, e, e2]
  unfold volume
  have : 2 ^ (d * (30 - l)) ≤ 2 ^ (d * (30 - q.level)) :=
    Nat.pow_le_pow_right (by norm_num) (Nat.mul_le_mul_left _ (by omega))
  rw [lastDesc_level]
  omega

theorem start_firstDesc (q : Quad d) (l : ℕ) : start (firstDesc q l) = start q := rfl

theorem firstDesc_aligned {q : Quad d} (hq : Aligned q) {l : ℕ} (h : q.level ≤ l) (hl : l ≤ 30) :
    Aligned (firstDesc q l) := by
  refine ⟨hl, fun i => ?_⟩
  exact dvd_trans (side_dvd_side (q := q) (r := firstDesc q l) h) (hq.2 i)

/-- A quadrant inside `a` ends where `a` ends iff it is the last descendant. -/
theorem stop_eq_iff_lastDesc (hd : 0 < d) {a q : Quad d} (ha : Aligned a) (hq : Aligned q)
    (hai : Int32 a.c) (hqi : Int32 q.c) (hl : a.level ≤ q.level) :
    stop q = stop a ↔ q = lastDesc a q.level := by
  constructor
  · intro h
    apply eq_of_interval hd hq (lastDesc_aligned ha hl hq.1) hqi (lastDesc_int32 ha hai hl)
    · have h1 := stop_lastDesc ha hai hl hq.1
      have h2 : volume (lastDesc a q.level) = volume q := volume_congr rfl
      rw [stop_eq, h2] at h1
      rw [stop_eq] at h
      omega
    · rw [h, stop_lastDesc ha hai hl hq.1]
  · intro h
    rw [h, stop_lastDesc ha hai hl hq.1]

theorem land_mask2 (x : ℤ) {k m : ℕ} (h : k ≤ m) :
    Int.land x (2 ^ m - 2 ^ k) = 2 ^ k * (x / 2 ^ k % 2 ^ (m - k)) := by
  have e : (2:ℤ) ^ m - 2 ^ k = 2 ^ k * (2 ^ (m - k) - 1) := by
    rw [mul_sub, ← pow_add, show k + (m - k) = m by omega, mul_one]
  rw [e]
  apply tb_ext; intro j
  rw [Int.testBit_land, tb_mul_pow, tb_mul_pow, tb_mask, tb_mod, tb_div]
  by_cases hj : j < k
  · simp [hj]
  · simp only [hj, if_false]
    rw [show k + (j - k) = j by omega, Bool.and_comm]

theorem land_mask2_eq_iff {x : ℤ} {k m : ℕ} (h : k ≤ m) (hx : (2:ℤ) ^ k ∣ x) :
    Int.land x (2 ^ m - 2 ^ k) = 2 ^ m - 2 ^ k ↔ x = 2 ^ m * (x / 2 ^ m) + (2 ^ m - 2 ^ k) := by
  rw [land_mask2 x h]
  have e0 : (2:ℤ) ^ m = 2 ^ k * 2 ^ (m - k) := by rw [← pow_add]; congr 1; omega
  obtain ⟨y, rfl⟩ := hx
  have hk : (0:ℤ) < 2 ^ k := by positivity
  have hmk : (0:ℤ) < 2 ^ (m - k) := by positivity
  rw [Int.mul_ediv_cancel_left _ hk.ne', e0, ← Int.ediv_ediv_of_nonneg hk.le,
    Int.mul_ediv_cancel_left _ hk.ne']
  have e := Int.emod_add_mul_ediv y (2 ^ (m - k))
  generalize (2:ℤ) ^ (m - k) = B at *
  generalize y / B = z at *
  generalize y % B = w at *
  generalize (2:ℤ) ^ k = K at *
  constructor
  · intro h'
    rw [← e]
    calc K * (w + B * z) = K * w + K * B * z := by ring
      _ = _ := by rw [h']; ring
  · intro h'
    rw [← e] at h'
    linarith [h', (by ring : K * (w + B * z) = K * w + K * B * z)]

theorem lidWidth_ok (hd3 : d ≤ 3) {l : ℕ} (hl : l ≤ 29) : d * (l + 2) < lidWidth d := by
  unfold lidWidth
  split
  · have : d * (l + 2) ≤ 2 * 31 := Nat.mul_le_mul (by omega) (by omega)
    omega
  · have : d * (l + 2) ≤ 3 * 31 := Nat.mul_le_mul (by omega) (by omega)
    omega

theorem lid_succ (hd : 0 < d) (hd3 : d ≤ 3) {l : ℕ} (hl : l ≤ 29) (q : Quad d) :
    (linearIdExt (lidWidth d) q l + 1) % 2 ^ lidWidth d = blockIndex l q.c + 1 := by
  have hW := lidWidth_ok hd3 hl
  rw [linearIdExt_blockIndex hd (by omega) hW.le]
  apply Nat.mod_eq_of_lt
  have h1 := blockIndex_lt l (by omega) q.c
  have h2 : 2 ^ (d * (l + 2)) < 2 ^ lidWidth d := Nat.pow_lt_pow_right (by norm_num) hW
  omega

/-- What `is_next` really decides. -/
theorem isNext_iff (hd : 0 < d) (hd3 : d ≤ 3) {q r : Quad d} (hq : Aligned q) (hr : Aligned r)
    (hqi : Int32 q.c) (hri : Int32 r.c) (hql : q.level ≤ 29) (hrl : r.level ≤ 29) :
    isNext q r = true ↔ stop q = start (ancestor r (min q.level r.level)) := by
  unfold isNext
  simp only [qlen_def]
  by_cases hc : q.level > r.level
  · rw [Nat.min_eq_right (by omega), ancestor_self hr]
    simp only [hc, true_and, if_true]
    rw [lid_succ hd hd3 hrl, linearIdExt_blockIndex hd (by omega) (lidWidth_ok hd3 hrl).le]
    have hmask : (∃ i, Int.land (q.c i) (2 ^ (30 - r.level) - 2 ^ (30 - q.level)) ≠
        2 ^ (30 - r.level) - 2 ^ (30 - q.level)) ↔ ¬ stop q = stop (ancestor q r.level) := by
      rw [stop_eq_iff_lastDesc hd (ancestor_aligned q (by omega)) hq (ancestor_int32 hqi (by omega))
        hqi (by simp; omega), ← not_forall_not]
      apply not_congr
      simp only [not_not]
      constructor
      · intro h
        refine Quad.ext' (fun i => ?_) rfl
        have := (land_mask2_eq_iff (by omega) (hq.2 i)).mp (h i)
        unfold lastDesc
        simp only [ancestor_c, qlen_def, ancestor_level]
        exact this
      · intro h i
        rw [land_mask2_eq_iff (by omega) (hq.2 i)]
        have := congrArg (fun z => z.c i) h
        unfold lastDesc at this
        simp only [ancestor_c, qlen_def, ancestor_level] at this
        exact this
    have hsa := stop_ancestor hq hqi (l := r.level) (by omega)
    have hw := within_ancestor hd hq hqi (l := r.level) (by omega)
    have hst := start_eq_blockIndex hr
    have hvv : volume (ancestor q r.level) = volume r := volume_congr rfl
    rw [hvv] at hsa
    have hv := volume_pos r
    split
    · rename_i h
      rw [hmask] at h
      constructor
      · intro h'; simp at h'
      · intro h'
        exfalso
        apply h
        -- stop q is a multiple of the volume of r within the ancestor of q
        obtain ⟨b, hb⟩ := volume_dvd_start hr
        have hs := start_lt_stop q
        have hsta := start_ancestor hq hqi (l := r.level) (by omega)
        rw [hvv] at hsta
        rw [hb] at h'
        have h1 : volume r * blockIndex r.level q.c < volume r * b := by omega
        have h2 := Nat.lt_of_mul_lt_mul_left h1
        have h3 : volume r * (blockIndex r.level q.c + 1) ≤ volume r * b := Nat.mul_le_mul_left _ h2
        omega
    · rename_i h
      rw [hmask, not_not] at h
      rw [decide_eq_true_eq, h, hsa, hst, Nat.mul_right_inj hv.ne']
  · rw [Nat.min_eq_left (by omega)]
    simp only [hc, false_and, if_false]
    rw [lid_succ hd hd3 hql, linearIdExt_blockIndex hd (by omega) (lidWidth_ok hd3 hql).le,
      decide_eq_true_eq, start_ancestor hr hri (by omega), stop_eq, start_eq_blockIndex hq]
    have hvv : volume (ancestor r q.level) = volume q := volume_congr rfl
    rw [hvv]
    have : volume q * blockIndex q.level q.c + volume q = volume q * (blockIndex q.level q.c + 1) := by
      ring
    rw [this, Nat.mul_right_inj (volume_pos q).ne']

theorem isNext_start_le (hd : 0 < d) (hd3 : d ≤ 3) {q r : Quad d} (hq : Aligned q) (hr : Aligned r)
    (hqi : Int32 q.c) (hri : Int32 r.c) (hql : q.level ≤ 29) (hrl : r.level ≤ 29)
    (h : isNext q r = true) : stop q ≤ start r := by
  rw [isNext_iff hd hd3 hq hr hqi hri hql hrl] at h
  rw [h]
  exact (within_ancestor hd hr hri (by omega)).1

end P4est
