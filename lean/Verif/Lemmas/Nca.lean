import Verif.Lemmas.Interval

namespace P4est
open Spec

variable {d : ℕ}

/-! ### Nearest common ancestor -/

theorem orUpTo_lt_two_pow (e : ℕ → ℕ) (n m : ℕ) : orUpTo e n < 2 ^ m ↔ ∀ i ≤ n, e i < 2 ^ m := by
  induction n with
  | zero => simp [orUpTo]
  | succ n ih =>
    simp only [orUpTo]
    constructor
    · intro h i hi
      have h1 : orUpTo e n < 2 ^ m := lt_of_le_of_lt Nat.left_le_or h
      have h2 : e (n + 1) < 2 ^ m := lt_of_le_of_lt Nat.right_le_or h
      rcases Nat.lt_or_ge i (n + 1) with h3 | h3
      · exact (ih.mp h1) i (by omega)
      · rw [show i = n + 1 by omega]; exact h2
    · intro h
      exact Nat.or_lt_two_pow (ih.mpr (fun i hi => h i (by omega))) (h (n + 1) le_rfl)

theorem xor_lt_two_pow_iff (a b m : ℕ) : a ^^^ b < 2 ^ m ↔ a / 2 ^ m = b / 2 ^ m := by
  rw [← Nat.shiftRight_eq_div_pow, ← Nat.shiftRight_eq_div_pow]
  constructor
  · intro h
    apply Nat.eq_of_testBit_eq
    intro j
    have := Nat.testBit_lt_two_pow (lt_of_lt_of_le h (Nat.pow_le_pow_right (by norm_num) (Nat.le_add_right m j)))
    rw [Nat.testBit_xor] at this
    rw [Nat.testBit_shiftRight, Nat.testBit_shiftRight]
    simpa using this
  · intro h
    apply Nat.lt_pow_two_of_testBit
    intro j hj
    have := congrArg (fun z => z.testBit (j - m)) h
    simp only [Nat.testBit_shiftRight, show m + (j - m) = j by omega] at this
    rw [Nat.testBit_xor, this]; simp

/-- The number of low bits in which the corners differ. -/
def diffBits (q r : Quad d) : ℕ :=
  bitLength (orUpTo (fun i => u32 (Int.xor (axisVal q.c i) (axisVal r.c i))) (d - 1))

theorem diffBits_le_iff (hd : 0 < d) {q r : Quad d} (hq : Int32 q.c) (hr : Int32 r.c) {m : ℕ}
    (hm : m ≤ 31) : diffBits q r ≤ m ↔ ∀ i, q.c i / 2 ^ m = r.c i / 2 ^ m := by
  unfold diffBits bitLength
  rw [Nat.size_le, orUpTo_lt_two_pow]
  constructor
  · intro h i
    have := h i (by omega)
    simp only [axisVal, i.2, dite_true, u32_xor] at this
    rw [xor_lt_two_pow_iff] at this
    exact (u32_div_eq_iff (hq i) (hr i) m hm).mp this
  · intro h i hi
    have hi' : i < d := by omega
    simp only [axisVal, hi', dite_true, u32_xor]
    rw [xor_lt_two_pow_iff]
    exact (u32_div_eq_iff (hq _) (hr _) m hm).mpr (h ⟨i, hi'⟩)

theorem nca_eq_ancestor (hd : 0 < d) {q r : Quad d} (hq : Aligned q) (hr : Aligned r)
    (hqi : Int32 q.c) (hri : Int32 r.c) (hb : diffBits q r ≤ 30) :
    nca q r = ancestor q (min (30 - diffBits q r) (min q.level r.level)) := by
  have hdiv := (diffBits_le_iff hd hqi hri (m := diffBits q r) (by omega)).mp le_rfl
  set m := diffBits q r with hm
  have e : nca q r = ⟨fun i => Int.land (q.c i) (Int.lnot (2 ^ m - 1)),
    min (30 - m) (min q.level r.level)⟩ := rfl
  rw [e]
  refine Quad.ext' (fun i => ?_) rfl
  simp only [ancestor_c, land_not_mask]
  by_cases h1 : 30 - m ≤ min q.level r.level
  · rw [Nat.min_eq_left h1, show 30 - (30 - m) = m by omega]
  · rw [Nat.min_eq_right (by omega)]
    set M := 30 - min q.level r.level with hM
    have hmM : m ≤ M := by omega
    -- one of the corners is a multiple of 2^M
    obtain ⟨z, hz1, hz2⟩ : ∃ z : ℤ, (2:ℤ) ^ M ∣ z ∧ q.c i / 2 ^ m = z / 2 ^ m := by
      rcases Nat.le_total q.level r.level with h | h
      · refine ⟨q.c i, ?_, rfl⟩
        have := hq.2 i
        unfold side at this
        rw [hM, Nat.min_eq_left h]; exact this
      · refine ⟨r.c i, ?_, hdiv i⟩
        have := hr.2 i
        unfold side at this
        rw [hM, Nat.min_eq_right h]; exact this
    rw [hz2, div_pow_mono hmM hz2, Int.mul_ediv_cancel' hz1,
      Int.mul_ediv_cancel' (dvd_trans (pow_dvd_pow _ hmM) hz1)]

/-- A common container exists iff the corners agree above bit 30. -/
theorem common_iff (hd : 0 < d) {q r : Quad d} (hq : Aligned q) (hr : Aligned r)
    (hqi : Int32 q.c) (hri : Int32 r.c) :
    (∃ a, Aligned a ∧ Cells q ⊆ Cells a ∧ Cells r ⊆ Cells a) ↔ diffBits q r ≤ 30 := by
  rw [diffBits_le_iff hd hqi hri (by norm_num)]
  constructor
  · rintro ⟨a, ha, h1, h2⟩ i
    have e1 := (mem_cells ha).mp (h1 (corner_mem q)) i
    have e2 := (mem_cells ha).mp (h2 (corner_mem r)) i
    exact div_pow_mono (j := 30 - a.level) (by omega) (e1.trans e2.symm)
  · intro h
    refine ⟨ancestor q 0, ancestor_aligned q (by norm_num), cells_subset_ancestor hq (by omega), ?_⟩
    apply cells_subset (ancestor_aligned q (by norm_num)) hr (by simp)
    rw [mem_ancestor q (by norm_num)]
    intro i; exact (h i).symm

theorem nca_spec (hd : 0 < d) {q r : Quad d} (hq : Aligned q) (hr : Aligned r)
    (hqi : Int32 q.c) (hri : Int32 r.c) (hb : diffBits q r ≤ 30) :
    Aligned (nca q r) ∧ Cells q ⊆ Cells (nca q r) ∧ Cells r ⊆ Cells (nca q r) ∧
    ∀ a, Aligned a → Cells q ⊆ Cells a → Cells r ⊆ Cells a → Cells (nca q r) ⊆ Cells a := by
  rw [nca_eq_ancestor hd hq hr hqi hri hb]
  set L := min (30 - diffBits q r) (min q.level r.level) with hL
  have hLq : L ≤ q.level := by omega
  have hLr : L ≤ r.level := by omega
  have hL30 : L ≤ 30 := by omega
  have hdiv := (diffBits_le_iff hd hqi hri (m := 30 - L) (by omega)).mp (by omega)
  refine ⟨ancestor_aligned q hL30, cells_subset_ancestor hq hLq, ?_, ?_⟩
  · apply cells_subset (ancestor_aligned q hL30) hr hLr
    rw [mem_ancestor q hL30]
    intro i; exact (hdiv i).symm
  · intro a ha h1 h2
    have c1 := (cells_subset_iff hd ha hq).mp h1
    have c2 := (cells_subset_iff hd ha hr).mp h2
    have e1 := (mem_cells ha).mp c1.2
    have e2 := (mem_cells ha).mp c2.2
    have : diffBits q r ≤ 30 - a.level := by
      rw [diffBits_le_iff hd hqi hri (by omega)]
      intro i; rw [e1 i, e2 i]
    have ha30 := ha.1
    have hal : a.level ≤ L := by omega
    apply cells_subset ha (ancestor_aligned q hL30) hal
    rw [mem_cells ha]
    intro i
    rw [← e1 i]
    apply div_pow_mono (j := 30 - L) (by omega)
    rw [ancestor_c, Int.mul_ediv_cancel_left _ (by positivity)]

theorem ancestor_ancestor {q : Quad d} {l m : ℕ} (hlm : l ≤ m) :
    ancestor (ancestor q m) l = ancestor q l := by
  refine Quad.ext' (fun i => ?_) rfl
  rw [ancestor_c, ancestor_c, ancestor_c]
  congr 1
  apply div_pow_mono (j := 30 - m) (by omega)
  rw [Int.mul_ediv_cancel_left _ (by positivity)]

theorem promote_eq {q : Quad d} (hq : Aligned q) (l : ℕ) :
    promote q l = if l < q.level then ancestor q l else q := by
  induction h : q.level generalizing q with
  | zero => rw [promote]; simp [h]
  | succ n ih =>
    rw [promote]
    by_cases hl : l < q.level
    · rw [dif_pos hl, ih (parent_aligned hq (by omega)) (by rw [parent_level]; omega),
        parent_eq_ancestor hq (by omega)]
      rw [if_pos (show l < n + 1 by omega)]
      split
      · exact ancestor_ancestor (by omega)
      · rw [show q.level - 1 = l by omega]
    · rw [dif_neg hl, if_neg (by omega)]

theorem commonUp_spec (hd : 0 < d) : ∀ (n : ℕ) (s1 s2 : Quad d), Aligned s1 → Aligned s2 →
    s1.level = n → s2.level = n →
    (ancestor s1 0 = ancestor s2 0 → ∃ s, commonUp n s1 s2 = some s ∧ Aligned s ∧
      Cells s1 ⊆ Cells s ∧ Cells s2 ⊆ Cells s ∧
      ∀ a, Aligned a → Cells s1 ⊆ Cells a → Cells s2 ⊆ Cells a → Cells s ⊆ Cells a) ∧
    (ancestor s1 0 ≠ ancestor s2 0 → commonUp n s1 s2 = none) := by
  intro n
  induction n with
  | zero =>
    intro s1 s2 h1 h2 l1 l2
    have e1 : ancestor s1 0 = s1 := by rw [← l1]; exact ancestor_self h1
    have e2 : ancestor s2 0 = s2 := by rw [← l2]; exact ancestor_self h2
    rw [e1, e2]
    unfold commonUp
    constructor
    · rintro rfl
      rw [if_pos (isEqual_iff.mpr rfl)]
      exact ⟨s1, rfl, h1, subset_rfl, subset_rfl, fun a _ h _ => h⟩
    · intro h
      rw [if_neg (fun hc => h (isEqual_iff.mp hc))]
  | succ n ih =>
    intro s1 s2 h1 h2 l1 l2
    have p1 := parent_eq_ancestor h1 (by omega)
    have p2 := parent_eq_ancestor h2 (by omega)
    have a1 : ancestor (parent s1) 0 = ancestor s1 0 := by rw [p1, ancestor_ancestor (by omega)]
    have a2 : ancestor (parent s2) 0 = ancestor s2 0 := by rw [p2, ancestor_ancestor (by omega)]
    have := ih (parent s1) (parent s2) (parent_aligned h1 (by omega)) (parent_aligned h2 (by omega))
      (by rw [parent_level]; omega) (by rw [parent_level]; omega)
    rw [a1, a2] at this
    unfold commonUp
    by_cases he : s1 = s2
    · rw [if_pos (isEqual_iff.mpr he)]
      subst he
      exact ⟨fun _ => ⟨s1, rfl, h1, subset_rfl, subset_rfl, fun a _ h _ => h⟩, fun h => absurd rfl h⟩
    · rw [if_neg (fun hc => he (isEqual_iff.mp hc))]
      refine ⟨fun h => ?_, this.2⟩
      obtain ⟨s, hs, hsa, hs1, hs2, hs3⟩ := this.1 h
      have c1 : Cells s1 ⊆ Cells (parent s1) := by
        rw [p1]; exact cells_subset_ancestor h1 (by omega)
      have c2 : Cells s2 ⊆ Cells (parent s2) := by
        rw [p2]; exact cells_subset_ancestor h2 (by omega)
      refine ⟨s, hs, hsa, c1.trans hs1, c2.trans hs2, ?_⟩
      intro a ha ha1 ha2
      have b1 := (cells_subset_iff hd ha h1).mp ha1
      have b2 := (cells_subset_iff hd ha h2).mp ha2
      by_cases hl : a.level = n + 1
      · exfalso
        apply he
        have e1 := ancestor_unique h1 ha b1.1 b1.2
        have e2 := ancestor_unique h2 ha b2.1 b2.2
        rw [hl, ← l1, ancestor_self h1] at e1
        rw [hl, ← l2, ancestor_self h2] at e2
        rw [← e1, ← e2]
      · apply hs3 a ha
        · apply cells_subset ha (parent_aligned h1 (by omega)) (by rw [parent_level]; omega)
          rw [mem_cells ha]
          intro i
          rw [← (mem_cells ha).mp b1.2 i, p1]
          apply div_pow_mono (j := 30 - (s1.level - 1)) (by omega)
          rw [ancestor_c, Int.mul_ediv_cancel_left _ (by positivity)]
        · apply cells_subset ha (parent_aligned h2 (by omega)) (by rw [parent_level]; omega)
          rw [mem_cells ha]
          intro i
          rw [← (mem_cells ha).mp b2.2 i, p2]
          apply div_pow_mono (j := 30 - (s2.level - 1)) (by omega)
          rw [ancestor_c, Int.mul_ediv_cancel_left _ (by positivity)]

theorem ncaD_eq (hd : 0 < d) {q r : Quad d} (hq : Aligned q) (hr : Aligned r)
    (hqi : Int32 q.c) (hri : Int32 r.c) :
    ncaD q r = if diffBits q r ≤ 30 then some (nca q r) else none := by
  have hq30 := hq.1
  have hr30 := hr.1
  set L := min q.level r.level with hL
  have e1 : promote q r.level = ancestor q L := by
    rw [promote_eq hq]
    split
    · rw [hL, Nat.min_eq_right (by omega)]
    · rw [hL, Nat.min_eq_left (by omega), ancestor_self hq]
  have e2 : promote r L = ancestor r L := by
    rw [promote_eq hr]
    split
    · rfl
    · have : L = r.level := by omega
      rw [this, ancestor_self hr]
  have e : ncaD q r = commonUp L (ancestor q L) (ancestor r L) := by
    unfold ncaD
    simp only [e1, ancestor_level, e2]
  rw [e]
  have hsp := commonUp_spec hd L (ancestor q L) (ancestor r L) (ancestor_aligned q (by omega))
    (ancestor_aligned r (by omega)) rfl rfl
  rw [ancestor_ancestor (by omega), ancestor_ancestor (by omega)] at hsp
  have hiff : ancestor q 0 = ancestor r 0 ↔ diffBits q r ≤ 30 := by
    rw [diffBits_le_iff hd hqi hri (by norm_num)]
    constructor
    · intro h i
      have := congrArg (fun z => z.c i) h
      simp only [ancestor_c] at this
      exact mul_left_cancel₀ (by positivity) this
    · intro h
      refine Quad.ext' (fun i => ?_) rfl
      rw [ancestor_c, ancestor_c]
      rw [show 30 - 0 = 30 by rfl, h i]
  split
  · rename_i hb
    obtain ⟨s, hs, hsa, hs1, hs2, hs3⟩ := hsp.1 (hiff.mpr hb)
    rw [hs]
    congr 1
    obtain ⟨n1, n2, n3, n4⟩ := nca_spec hd hq hr hqi hri hb
    apply cells_inj hd hsa n1
    apply Set.Subset.antisymm
    · apply hs3 _ n1
      · have c := (cells_subset_iff hd n1 hq).mp n2
        have c' := (cells_subset_iff hd n1 hr).mp n3
        apply cells_subset n1 (ancestor_aligned q (by omega)) (by rw [ancestor_level]; omega)
        rw [mem_cells n1]
        intro i
        rw [← (mem_cells n1).mp c.2 i]
        apply div_pow_mono (j := 30 - L) (by omega)
        rw [ancestor_c, Int.mul_ediv_cancel_left _ (by positivity)]
      · have c := (cells_subset_iff hd n1 hq).mp n2
        have c' := (cells_subset_iff hd n1 hr).mp n3
        apply cells_subset n1 (ancestor_aligned r (by omega)) (by rw [ancestor_level]; omega)
        rw [mem_cells n1]
        intro i
        rw [← (mem_cells n1).mp c'.2 i]
        apply div_pow_mono (j := 30 - L) (by omega)
        rw [ancestor_c, Int.mul_ediv_cancel_left _ (by positivity)]
    · exact n4 s hsa ((cells_subset_ancestor hq (by omega)).trans hs1)
        ((cells_subset_ancestor hr (by omega)).trans hs2)
  · rename_i hb
    exact hsp.2 (fun h => hb (hiff.mp h))

/-! ### Siblings, parents -/

theorem isSibling_iff_div {q r : Quad d} (hq : Aligned q) (hr : Aligned r) :
    isSibling q r = true ↔ 0 < q.level ∧ q.level = r.level ∧ q ≠ r ∧ parent q = parent r := by
  unfold isSibling
  by_cases h0 : q.level = 0
  · rw [if_pos h0]; simp [h0]
  rw [if_neg h0]
  by_cases hc : ∀ i, q.c i = r.c i
  · rw [if_pos (by simpa only [xor_eq_zero] using hc)]
    constructor
    · intro h; simp at h
    · rintro ⟨_, hl, hne, _⟩; exact absurd (Quad.ext' hc hl) hne
  · rw [if_neg (by simpa only [xor_eq_zero] using hc)]
    simp only [Bool.and_eq_true, decide_eq_true_eq]
    simp only [qlen_def]
    have key : ∀ i, Int.land (Int.xor (q.c i) (r.c i)) (Int.lnot (2 ^ (30 - q.level))) = 0 ↔
        Int.land (q.c i) (Int.lnot (2 ^ (30 - q.level))) =
        Int.land (r.c i) (Int.lnot (2 ^ (30 - q.level))) := by
      intro i
      have e : Int.land (Int.xor (q.c i) (r.c i)) (Int.lnot (2 ^ (30 - q.level))) =
          Int.xor (Int.land (q.c i) (Int.lnot (2 ^ (30 - q.level))))
            (Int.land (r.c i) (Int.lnot (2 ^ (30 - q.level)))) := by
        apply tb_ext; intro j
        simp only [Int.testBit_land, Int.testBit_lxor, Int.testBit_lnot]
        cases (q.c i).testBit j <;> cases (r.c i).testBit j <;> simp
      rw [e, xor_eq_zero]
    simp only [key]
    constructor
    · rintro ⟨h1, h2⟩
      refine ⟨by omega, h1, fun h => hc (fun i => by rw [h]), ?_⟩
      refine Quad.ext' (fun i => ?_) (by simp [h1])
      unfold parent
      simp only [qlen_def, ← h1]
      exact h2 i
    · rintro ⟨_, h1, _, h2⟩
      refine ⟨h1, fun i => ?_⟩
      have := congrArg (fun z => z.c i) h2
      unfold parent at this
      simp only [qlen_def, ← h1] at this
      exact this

theorem isParent_iff {q r : Quad d} : isParent q r = true ↔ 0 < r.level ∧ q = parent r := by
  unfold isParent
  simp only [Bool.and_eq_true, decide_eq_true_eq]
  constructor
  · rintro ⟨h1, h2⟩
    refine ⟨by omega, Quad.ext' (fun i => h2 i) ?_⟩
    simp; omega
  · rintro ⟨h1, h2⟩
    constructor
    · rw [h2]; simp; omega
    · intro i; rw [h2]; rfl

theorem childId_last_iff {q : Quad d} (hq : Aligned q) (hqi : Int32 q.c)
    (h1 : 0 < q.level) : childId q = 2 ^ d - 1 ↔ stop q = stop (parent q) := by
  have hq30 := hq.1
  have hpa := parent_aligned hq h1
  have hpi : Int32 (parent q).c := by
    rw [parent_eq_ancestor hq h1]; exact ancestor_int32 hqi (by omega)
  have hc := child_parent hq h1
  have hlt := childId_lt q
  have e := curve_child hpa hpi (by rw [parent_level]; omega) hlt
  have ev := volume_child (q := parent q) (by rw [parent_level]; omega) (childId q)
  rw [hc] at e ev
  unfold stop
  rw [e, ev]
  have hv := volume_pos q
  have hp : 0 < 2 ^ d := by positivity
  generalize childId q = k at *
  generalize 2 ^ d = D at *
  generalize volume q = v at *
  constructor
  · intro h
    have : D = k + 1 := by omega
    rw [this]; ring
  · intro h
    have : (k + 1) * v = D * v := by
      have : (k + 1) * v = k * v + v := by ring
      omega
    have := Nat.eq_of_mul_eq_mul_right hv this
    omega

theorem lastChildUp_eq (hd : 0 < d) {q : Quad d} (hq : Aligned q) (hqi : Int32 q.c) {l : ℕ}
    (hl : l ≤ q.level) :
    lastChildUp l q = if stop q = stop (ancestor q l) then some (ancestor q l) else none := by
  have hq30 := hq.1
  induction h : q.level generalizing q with
  | zero =>
    have : l = q.level := by omega
    rw [lastChildUp, dif_neg (by omega), this, ancestor_self hq, if_pos rfl]
  | succ n ih =>
    rw [lastChildUp]
    by_cases hlt : l < q.level
    · rw [dif_pos hlt]
      have hpa := parent_aligned hq (by omega)
      have hpe := parent_eq_ancestor hq (by omega)
      have hpi : Int32 (parent q).c := by
        rw [hpe]; exact ancestor_int32 hqi (by omega)
      have hsub := within_ancestor hd hq hqi (l := q.level - 1) (by omega)
      have hsub2 := within_ancestor hd hpa hpi (l := l) (by rw [parent_level]; omega)
      rw [← hpe] at hsub
      have haa : ancestor (parent q) l = ancestor q l := by rw [hpe, ancestor_ancestor (by omega)]
      rw [haa] at hsub2
      rw [ih hpa hpi (by rw [parent_level]; omega) (by rw [parent_level]; omega)
        (by rw [parent_level]; omega), haa]
      have hiff := childId_last_iff hq hqi (by omega)
      by_cases hc : childId q = 2 ^ d - 1
      · rw [if_neg (not_not.mpr hc), ← hiff.mp hc]
      · rw [if_pos hc, if_neg]
        intro hs
        apply hc
        rw [hiff]; omega
    · have : l = q.level := by omega
      rw [dif_neg hlt, this, ancestor_self hq, if_pos rfl]

theorem lastChildUp_ge {q : Quad d} {l : ℕ} (hl : q.level ≤ l) : lastChildUp l q = some q := by
  rw [lastChildUp, dif_neg (by omega)]

theorem compare_neg_of_start (hd : 0 < d) {q r : Quad d} (hq : Int32 q.c) (hr : Int32 r.c)
    (h : start q < start r) : compare q r < 0 := (compare_neg_iff hd hq hr).mpr (Or.inl h)

theorem isNextD_eq (hd : 0 < d) (hd3 : d ≤ 3) {q r : Quad d} (hq : Aligned q) (hr : Aligned r)
    (hqi : Int32 q.c) (hri : Int32 r.c) (hql : q.level ≤ 29) (hrl : r.level ≤ 29) :
    isNextD q r = isNext q r := by
  have hN := isNext_iff hd hd3 hq hr hqi hri hql hrl
  rw [Bool.eq_iff_iff, hN]
  unfold isNextD
  have hw := within_ancestor hd hr hri (l := min q.level r.level) (by omega)
  have hs := start_lt_stop q
  by_cases hc : compare q r ≥ 0
  · rw [if_pos hc]
    constructor
    · intro h; simp at h
    · intro h
      have := compare_neg_of_start hd hqi hri (by omega)
      omega
  · rw [if_neg hc]
    rcases Nat.le_total q.level r.level with hl | hl
    · rw [lastChildUp_ge hl]
      simp only [decide_eq_true_eq]
      rw [Nat.min_eq_left hl, lid_succ hd hd3 hql,
        linearIdExt_blockIndex hd (by omega) (lidWidth_ok hd3 hql).le,
        start_ancestor hr hri (by omega), stop_eq, start_eq_blockIndex hq]
      have hvv : volume (ancestor r q.level) = volume q := volume_congr rfl
      rw [hvv]
      have : volume q * blockIndex q.level q.c + volume q = volume q * (blockIndex q.level q.c + 1) := by
        ring
      rw [this, Nat.mul_right_inj (volume_pos q).ne']
    · rw [lastChildUp_eq hd hq hqi hl, Nat.min_eq_right hl, ancestor_self hr]
      rw [Nat.min_eq_right hl, ancestor_self hr] at hN
      have hst := start_eq_blockIndex hr
      have hvv : volume (ancestor q r.level) = volume r := volume_congr rfl
      have hsa := stop_ancestor hq hqi (l := r.level) (by omega)
      have hsta := start_ancestor hq hqi (l := r.level) (by omega)
      have hwq := within_ancestor hd hq hqi (l := r.level) (by omega)
      rw [hvv] at hsa hsta
      by_cases hstop : stop q = stop (ancestor q r.level)
      · rw [if_pos hstop]
        simp only [decide_eq_true_eq]
        rw [ancestor_level, lid_succ hd hd3 hrl, linearIdExt_blockIndex hd (by omega) (lidWidth_ok hd3 hrl).le,
          blockIndex_ancestor hq hqi hl, hstop, hsa, hst, Nat.mul_right_inj (volume_pos r).ne']
      · rw [if_neg hstop]
        constructor
        · intro h; simp at h
        · intro h'
          exfalso
          apply hstop
          obtain ⟨b, hb⟩ := volume_dvd_start hr
          rw [hb] at h'
          have h1 : volume r * blockIndex r.level q.c < volume r * b := by omega
          have h2 := Nat.lt_of_mul_lt_mul_left h1
          have h3 : volume r * (blockIndex r.level q.c + 1) ≤ volume r * b := Nat.mul_le_mul_left _ h2
          omega

end P4est
