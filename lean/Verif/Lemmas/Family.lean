import Verif.Lemmas.Region

namespace P4est
open Spec

variable {d : ℕ}

theorem qlen_def (l : ℕ) : qlen l = 2 ^ (30 - l) := rfl

theorem pow_split {l : ℕ} (h : l + 1 ≤ 30) : (2:ℤ) ^ (30 - l) = 2 * 2 ^ (30 - (l + 1)) := by
  rw [← pow_succ']; congr 1; omega

/-- Corner of a child of an aligned quadrant. -/
theorem child_c {q : Quad d} (h : Aligned q) (hl : q.level < 30) (k : ℕ) (i : Fin d) :
    (child q k).c i = q.c i + (if k.testBit i then 2 ^ (30 - (q.level + 1)) else 0) := by
  unfold child
  simp only [qlen_def]
  split
  · rw [lor_two_pow]
    have : q.c i / 2 ^ (30 - (q.level + 1)) % 2 = 0 := by
      obtain ⟨a, ha⟩ := h.2 i
      unfold side at ha
      rw [pow_split (by omega)] at ha
      rw [ha, mul_comm 2, mul_assoc, Int.mul_ediv_cancel_left _ (by positivity)]
      omega
    rw [this]; ring
  · rw [add_zero]

@[simp] theorem child_level (q : Quad d) (k : ℕ) : (child q k).level = q.level + 1 := rfl
@[simp] theorem parent_level (q : Quad d) : (parent q).level = q.level - 1 := rfl
@[simp] theorem sibling_level (q : Quad d) (k : ℕ) : (sibling q k).level = q.level := rfl
@[simp] theorem ancestor_level (q : Quad d) (l : ℕ) : (ancestor q l).level = l := rfl

theorem parent_c {q : Quad d} (hq : Aligned q) (h1 : 0 < q.level) (i : Fin d) :
    (parent q).c i = 2 ^ (30 - (q.level - 1)) * (q.c i / 2 ^ (30 - (q.level - 1))) := by
  unfold parent
  simp only [qlen_def]
  rw [land_not_two_pow]
  have hl := hq.1
  have hp := pow_split (l := q.level - 1) (by omega)
  rw [show q.level - 1 + 1 = q.level by omega] at hp
  have hc := hq.c_eq i
  have hdd : q.c i / 2 ^ (30 - (q.level - 1)) = q.c i / 2 ^ (30 - q.level) / 2 := by
    rw [Int.ediv_ediv_of_nonneg (by positivity), hp, mul_comm]
  rw [hdd, hp]
  generalize (2:ℤ) ^ (30 - q.level) = P at *
  generalize q.c i / P = z at *
  rw [hc]
  have : z = z % 2 + 2 * (z / 2) := (Int.emod_add_mul_ediv z 2).symm
  generalize z / 2 = w at *
  generalize z % 2 = m at *
  subst this
  ring

theorem ancestor_c (q : Quad d) (l : ℕ) (i : Fin d) :
    (ancestor q l).c i = 2 ^ (30 - l) * (q.c i / 2 ^ (30 - l)) := by
  unfold ancestor
  simp only [qlen_def, land_not_mask]

theorem parent_eq_ancestor {q : Quad d} (hq : Aligned q) (h1 : 0 < q.level) :
    parent q = ancestor q (q.level - 1) := by
  apply Quad.ext'
  · intro i; rw [parent_c hq h1, ancestor_c]
  · rfl

theorem ancestor_aligned (q : Quad d) {l : ℕ} (hl : l ≤ 30) : Aligned (ancestor q l) := by
  refine ⟨hl, fun i => ?_⟩
  rw [ancestor_c]
  exact Dvd.intro _ rfl

theorem mem_ancestor (q : Quad d) {l : ℕ} (hl : l ≤ 30) (p : Fin d → ℤ) :
    p ∈ Cells (ancestor q l) ↔ ∀ i, p i / 2 ^ (30 - l) = q.c i / 2 ^ (30 - l) := by
  rw [mem_cells (ancestor_aligned q hl)]
  simp only [ancestor_level, ancestor_c]
  apply forall_congr'
  intro i
  rw [Int.mul_ediv_cancel_left _ (by positivity)]

theorem cells_subset_ancestor {q : Quad d} (hq : Aligned q) {l : ℕ} (hl : l ≤ q.level) :
    Cells q ⊆ Cells (ancestor q l) := by
  apply cells_subset (ancestor_aligned q (le_trans hl hq.1)) hq hl
  rw [mem_ancestor q (le_trans hl hq.1)]
  intro i; rfl

theorem ancestor_unique {q a : Quad d} (hq : Aligned q) (ha : Aligned a) (hl : a.level ≤ q.level)
    (h : q.c ∈ Cells a) : a = ancestor q a.level := by
  apply Quad.ext'
  · intro i
    rw [ancestor_c, (mem_cells ha).mp h i]
    exact ha.c_eq i
  · rfl

theorem ancestor_self {q : Quad d} (hq : Aligned q) : ancestor q q.level = q :=
  (ancestor_unique hq hq le_rfl (corner_mem q)).symm

theorem parent_aligned {q : Quad d} (hq : Aligned q) (h1 : 0 < q.level) : Aligned (parent q) := by
  rw [parent_eq_ancestor hq h1]
  exact ancestor_aligned q (by have := hq.1; omega)

theorem child_aligned {q : Quad d} (hq : Aligned q) (hl : q.level < 30) (k : ℕ) :
    Aligned (child q k) := by
  refine ⟨by rw [child_level]; omega, fun i => ?_⟩
  rw [child_c hq hl]
  have hh := hq.2 i
  unfold side at *
  rw [pow_split (by omega)] at hh
  rw [child_level]
  apply dvd_add
  · exact dvd_trans (Dvd.intro_left _ rfl) hh
  · split
    · exact dvd_rfl
    · exact dvd_zero _

theorem child_corner_mem {q : Quad d} (hq : Aligned q) (hl : q.level < 30) (k : ℕ) :
    (child q k).c ∈ Cells q := by
  intro i
  rw [child_c hq hl]
  unfold side
  have e := pow_split (l := q.level) (by omega)
  rw [e]
  have : (0:ℤ) < 2 ^ (30 - (q.level + 1)) := by positivity
  split <;> constructor <;> linarith

theorem child_subset {q : Quad d} (hq : Aligned q) (hl : q.level < 30) (k : ℕ) :
    Cells (child q k) ⊆ Cells q :=
  cells_subset hq (child_aligned hq hl k) (by simp) (child_corner_mem hq hl k)

theorem parent_child {q : Quad d} (hq : Aligned q) (hl : q.level < 30) (k : ℕ) :
    parent (child q k) = q := by
  rw [parent_eq_ancestor (child_aligned hq hl k) (by simp)]
  have := ancestor_unique (child_aligned hq hl k) hq (by simp) (child_corner_mem hq hl k)
  simpa using this.symm

theorem sum_bits_lt (f : Fin d → Prop) [DecidablePred f] :
    (∑ i : Fin d, if f i then 2 ^ (i : ℕ) else 0) < 2 ^ d := by
  have := digit_lt (fun i : Fin d => if f i then 1 else 0)
  unfold digit at this
  refine lt_of_eq_of_lt (Finset.sum_congr rfl ?_) this
  intro i _
  by_cases h : f i <;> simp [h]

theorem sum_bits_testBit (f : Fin d → Prop) [DecidablePred f] (i : Fin d) :
    (∑ i : Fin d, if f i then 2 ^ (i : ℕ) else 0).testBit i = decide (f i) := by
  have := digit_testBit (fun i : Fin d => if f i then 1 else 0) i
  unfold digit at this
  have e : (∑ i : Fin d, if f i then 2 ^ (i : ℕ) else 0) =
      ∑ i : Fin d, 2 ^ (i : ℕ) * ((if f i then 1 else 0) % 2) :=
    Finset.sum_congr rfl (fun i _ => by by_cases h : f i <;> simp [h])
  rw [e, this]
  by_cases h : f i <;> simp [h]

theorem bits_ext {m n : ℕ} (hm : m < 2 ^ d) (hn : n < 2 ^ d)
    (h : ∀ i : Fin d, m.testBit i = n.testBit i) : m = n := by
  apply Nat.eq_of_testBit_eq
  intro j
  by_cases hj : j < d
  · exact h ⟨j, hj⟩
  · rw [Nat.testBit_lt_two_pow (lt_of_lt_of_le hm (Nat.pow_le_pow_right (by norm_num) (by omega))),
      Nat.testBit_lt_two_pow (lt_of_lt_of_le hn (Nat.pow_le_pow_right (by norm_num) (by omega)))]

theorem ancestorId_lt (q : Quad d) (l : ℕ) : ancestorId q l < 2 ^ d := by
  unfold ancestorId
  split
  · positivity
  · exact sum_bits_lt _

theorem ancestorId_testBit (q : Quad d) {l : ℕ} (hl : 0 < l) (i : Fin d) :
    (ancestorId q l).testBit i = decide (q.c i / 2 ^ (30 - l) % 2 = 1) := by
  unfold ancestorId
  rw [if_neg (by omega), sum_bits_testBit]
  simp only [qlen_def, land_two_pow_ne_zero]

theorem childId_lt (q : Quad d) : childId q < 2 ^ d := ancestorId_lt q _

theorem childId_testBit (q : Quad d) (hl : 0 < q.level) (i : Fin d) :
    (childId q).testBit i = decide (q.c i / 2 ^ (30 - q.level) % 2 = 1) :=
  ancestorId_testBit q hl i

theorem childId_child {q : Quad d} (hq : Aligned q) (hl : q.level < 30) {k : ℕ} (hk : k < 2 ^ d) :
    childId (child q k) = k := by
  apply bits_ext (childId_lt _) hk
  intro i
  rw [childId_testBit _ (by simp), child_c hq hl, child_level]
  have hh := hq.c_eq i
  rw [pow_split (by omega)] at hh
  generalize q.c i / (2 * 2 ^ (30 - (q.level + 1))) = z at hh
  rw [hh]
  generalize hP : (2:ℤ) ^ (30 - (q.level + 1)) = P
  have hP0 : P ≠ 0 := by rw [← hP]; positivity
  cases hb : k.testBit i
  · rw [if_neg (by simp), add_zero, show 2 * P * z = P * (2 * z) by ring,
      Int.mul_ediv_cancel_left _ hP0]
    simp
  · rw [if_pos rfl, show 2 * P * z + P = P * (2 * z + 1) by ring, Int.mul_ediv_cancel_left _ hP0]
    simp

theorem child_parent {q : Quad d} (hq : Aligned q) (h1 : 0 < q.level) :
    child (parent q) (childId q) = q := by
  have hl := hq.1
  apply Quad.ext'
  · intro i
    rw [child_c (parent_aligned hq h1) (by simp; omega), childId_testBit q h1, parent_c hq h1,
      parent_level, show q.level - 1 + 1 = q.level by omega]
    have hp := pow_split (l := q.level - 1) (by omega)
    rw [show q.level - 1 + 1 = q.level by omega] at hp
    have hc := hq.c_eq i
    have hdd : q.c i / 2 ^ (30 - (q.level - 1)) = q.c i / 2 ^ (30 - q.level) / 2 := by
      rw [Int.ediv_ediv_of_nonneg (by positivity), hp, mul_comm]
    rw [hdd, hp]
    generalize (2:ℤ) ^ (30 - q.level) = P at *
    generalize q.c i / P = z at *
    rw [hc]
    have e : z = z % 2 + 2 * (z / 2) := (Int.emod_add_mul_ediv z 2).symm
    by_cases hz : z % 2 = 1
    · simp only [hz, decide_true, if_true]
      generalize z / 2 = w at *
      rw [hz] at e; subst e; ring
    · have hz0 : z % 2 = 0 := by omega
      simp only [hz, decide_false, Bool.false_eq_true, if_false]
      generalize z / 2 = w at *
      rw [hz0] at e; subst e; ring
  · simp; omega

theorem sibling_eq {q : Quad d} (hq : Aligned q) (h1 : 0 < q.level) (k : ℕ) :
    sibling q k = child (parent q) k := by
  have hl := hq.1
  apply Quad.ext'
  · intro i
    unfold sibling child parent
    simp only [qlen_def, show q.level - 1 + 1 = q.level by omega]
    rw [land_not_two_pow, lor_two_pow]
    split
    · rw [lor_two_pow]
      generalize hP : (2:ℤ) ^ (30 - q.level) = P
      have hP0 : P ≠ 0 := by rw [← hP]; positivity
      have : (q.c i - P * (q.c i / P % 2)) / P % 2 = 0 := by
        rw [sub_eq_add_neg, ← mul_neg, Int.add_mul_ediv_left _ _ hP0]
        omega
      rw [this]; ring
    · rfl
  · simp; omega

theorem child_inj {q : Quad d} (hq : Aligned q) (hl : q.level < 30) {j k : ℕ} (hj : j < 2 ^ d)
    (hk : k < 2 ^ d) (h : child q j = child q k) : j = k := by
  rw [← childId_child hq hl hj, ← childId_child hq hl hk, h]

/-- A cell of `q` lies in the child of the ancestor id of the cell. -/
theorem mem_child_iff {q : Quad d} (hq : Aligned q) (hl : q.level < 30) {p : Fin d → ℤ}
    (hp : p ∈ Cells q) {k : ℕ} (hk : k < 2 ^ d) :
    p ∈ Cells (child q k) ↔ k = ancestorId ⟨p, 30⟩ (q.level + 1) := by
  have hca := child_aligned hq hl k
  constructor
  · intro h
    apply bits_ext hk (ancestorId_lt _ _)
    intro i
    rw [ancestorId_testBit _ (by omega)]
    have := (mem_cells hca).mp h i
    rw [child_level] at this
    simp only [this]
    have h2 := childId_child hq hl hk
    conv_lhs => rw [← h2]
    rw [childId_testBit _ (by simp), child_level]
  · intro h
    subst h
    rw [mem_cells hca]
    intro i
    have hp' := (mem_cells hq).mp hp i
    rw [child_level, child_c hq hl, ancestorId_testBit _ (by omega)]
    have hh := hq.c_eq i
    rw [pow_split (by omega)] at hh hp'
    have hdd : p i / (2 * 2 ^ (30 - (q.level + 1))) = p i / 2 ^ (30 - (q.level + 1)) / 2 := by
      rw [Int.ediv_ediv_of_nonneg (by positivity), mul_comm]
    rw [← hp', hdd] at hh
    generalize hP : (2:ℤ) ^ (30 - (q.level + 1)) = P at *
    have hP0 : P ≠ 0 := by rw [← hP]; positivity
    rw [hh]
    simp only
    generalize p i / P = z
    by_cases hz : z % 2 = 1
    · simp only [hz, decide_true, if_true]
      rw [show 2 * P * (z / 2) + P = P * (2 * (z / 2) + 1) by ring, Int.mul_ediv_cancel_left _ hP0]
      omega
    · simp only [hz, decide_false, Bool.false_eq_true, if_false, add_zero]
      rw [show 2 * P * (z / 2) = P * (2 * (z / 2)) by ring, Int.mul_ediv_cancel_left _ hP0]
      omega

theorem volume_child {q : Quad d} (hl : q.level < 30) (k : ℕ) :
    volume q = 2 ^ d * volume (child q k) := by
  unfold volume
  rw [← pow_add]
  congr 1
  rw [child_level]
  have : 30 - q.level = (30 - (q.level + 1)) + 1 := by omega
  rw [this]; ring

theorem child_int32 {q : Quad d} (hq : Aligned q) (hi : Int32 q.c) (hl : q.level < 30) (k : ℕ) :
    Int32 (child q k).c := aligned_int32_cells hq hi (child_corner_mem hq hl k)

theorem toNat_u32_add {z : ℤ} (hz : -2 ^ 31 ≤ z ∧ z < 2 ^ 31) {w : ℕ}
    (hw : -2 ^ 31 ≤ z + w ∧ z + w < 2 ^ 31) (hs : z < 0 → z + w < 0) :
    u32 (z + w) = u32 z + w := by
  have h1 := u32_cast z
  have h2 := u32_cast (z + w)
  omega

/-- Start of the interval of a child. -/
theorem curve_child {q : Quad d} (hq : Aligned q) (hi : Int32 q.c) (hl : q.level < 30) {k : ℕ}
    (hk : k < 2 ^ d) : curve (child q k).c = curve q.c + k * volume (child q k) := by
  have hci := child_int32 hq hi hl k
  obtain ⟨a, ha⟩ := volume_dvd_curve (child_aligned hq hl k)
  obtain ⟨b, hb⟩ := volume_dvd_curve hq
  rw [volume_child hl k] at hb
  have hv := volume_pos (child q k)
  rw [ha, hb]
  suffices a = 2 ^ d * b + k by subst this; ring
  -- the quotient of the child's position: its digit string is that of q followed by k
  set m := 30 - (q.level + 1) with hm
  have e1 : a = interleave (32 - m) (fun i => u32 ((child q k).c i) / 2 ^ m) := by
    rw [← curve_div _ m (by omega), ha]
    exact (Nat.mul_div_cancel_left _ hv).symm
  have e2 : b = interleave (31 - m) (fun i => u32 (q.c i) / 2 ^ (m + 1)) := by
    have := curve_div q.c (m + 1) (by omega)
    rw [show 32 - (m + 1) = 31 - m by omega] at this
    rw [← this, hb]
    have hvq : 2 ^ (d * (m + 1)) = 2 ^ d * volume (child q k) := by
      rw [← volume_child hl k]; unfold volume
      congr 2; omega
    rw [hvq]
    exact (Nat.mul_div_cancel_left _ (by positivity)).symm
  rw [show 32 - m = (31 - m) + 1 by omega] at e1
  rw [interleave] at e1
  have hu : ∀ i, u32 ((child q k).c i) = u32 (q.c i) + (if k.testBit i then 2 ^ m else 0) := by
    intro i
    have hch := child_c hq hl k i
    have h1 := hi i
    have h2 := hci i
    have h3 := child_corner_mem hq hl k i
    have : (child q k).c i = q.c i + ((if k.testBit i then 2 ^ m else 0 : ℕ) : ℤ) := by
      rw [hch, hm]; push_cast; rfl
    rw [this]
    apply toNat_u32_add h1 (by rw [← this]; exact h2)
    intro hneg
    rw [← this]
    have hs : q.c i + side q ≤ 0 := by
      obtain ⟨t, ht⟩ := hq.2 i
      have hsp := side_pos q
      have : t < 0 := by
        by_contra hc
        have : 0 ≤ side q * t := mul_nonneg hsp.le (by omega)
        omega
      rw [ht]; nlinarith
    linarith [h3.2]
  have hdvd : ∀ i, 2 ^ (m + 1) ∣ u32 (q.c i) := by
    intro i
    have hh : ((2 ^ (m + 1) : ℕ) : ℤ) ∣ (u32 (q.c i) : ℤ) := by
      rw [u32_cast, Int.emod_def]
      apply dvd_sub
      · have := hq.2 i
        unfold side at this
        rw [show 30 - q.level = m + 1 by omega] at this
        exact_mod_cast this
      · apply dvd_mul_of_dvd_left
        push_cast
        exact pow_dvd_pow (2:ℤ) (by omega : m + 1 ≤ 32)
    exact_mod_cast hh
  have hdiv : ∀ i, u32 ((child q k).c i) / 2 ^ m =
      2 * (u32 (q.c i) / 2 ^ (m + 1)) + (if k.testBit i then 1 else 0) := by
    intro i
    rw [hu i]
    obtain ⟨t, ht⟩ := hdvd i
    rw [ht, Nat.mul_div_cancel_left _ (by positivity), pow_succ]
    have hpm : 0 < 2 ^ m := by positivity
    split
    · rw [show 2 ^ m * 2 * t + 2 ^ m = 2 ^ m * (2 * t + 1) by ring, Nat.mul_div_cancel_left _ hpm]
    · rw [add_zero, show 2 ^ m * 2 * t = 2 ^ m * (2 * t) by ring, Nat.mul_div_cancel_left _ hpm]; rfl
  rw [e1, e2]
  congr 1
  · congr 1
    apply interleave_congr
    intro i
    have e : u32 ((child q k).c i) / 2 ^ m / 2 = u32 (q.c i) / 2 ^ (m + 1) := by
      rw [hdiv i]; split <;> omega
    rw [e]
  · conv_rhs => rw [← digit_of_bits hk]
    apply digit_congr
    intro i
    rw [hdiv i]
    rw [Nat.testBit_eq_decide_div_mod_eq]
    by_cases hb : k / 2 ^ (i:ℕ) % 2 = 1
    · simp [hb]
    · simp [hb]; omega

end P4est
