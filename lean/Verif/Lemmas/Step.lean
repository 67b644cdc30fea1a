import Verif.Lemmas.Nca

namespace P4est
open Spec

variable {d : ℕ}

theorem ancestorId_eq_childId (q : Quad d) {l : ℕ} (hl : 0 < l) (h30 : l ≤ 30) :
    ancestorId q l = childId (ancestor q l) := by
  apply bits_ext (ancestorId_lt _ _) (childId_lt _)
  intro i
  rw [ancestorId_testBit q hl, childId_testBit _ (by simpa using hl), ancestor_c, ancestor_level,
    Int.mul_ediv_cancel_left _ (by positivity)]

theorem parent_ancestor {q : Quad d} {l : ℕ} (h30 : l + 1 ≤ 30) :
    parent (ancestor q (l + 1)) = ancestor q l := by
  rw [parent_eq_ancestor (ancestor_aligned q h30) (by simp), ancestor_level,
    ancestor_ancestor (by omega), Nat.add_sub_cancel]

/-- The ancestor at level `l + 1` as a child of the ancestor at level `l`. -/
theorem child_ancestor {q : Quad d} {l : ℕ} (h30 : l + 1 ≤ 30) :
    child (ancestor q l) (ancestorId q (l + 1)) = ancestor q (l + 1) := by
  rw [ancestorId_eq_childId q (by omega) h30, ← parent_ancestor h30]
  exact child_parent (ancestor_aligned q h30) (by simp)

theorem start_ancestor_succ {q : Quad d} (hqi : Int32 q.c) {l : ℕ}
    (hl : l + 1 ≤ 30) : start (ancestor q (l + 1)) =
      start (ancestor q l) + ancestorId q (l + 1) * volume (ancestor q (l + 1)) ∧
    stop (ancestor q l) = start (ancestor q l) + 2 ^ d * volume (ancestor q (l + 1)) := by
  have hc := child_ancestor (q := q) (l := l) (by omega)
  have e := curve_child (ancestor_aligned q (l := l) (by omega)) (ancestor_int32 hqi (by omega))
    (by simp; omega) (ancestorId_lt q (l + 1))
  have ev := volume_child (q := ancestor q l) (by simp; omega) (ancestorId q (l + 1))
  rw [hc] at e ev
  exact ⟨e, by rw [stop_eq, ev]⟩

theorem last_step_iff {q : Quad d} (hqi : Int32 q.c) {l : ℕ}
    (hl : l + 1 ≤ 30) : ancestorId q (l + 1) + 1 = 2 ^ d ↔
      stop (ancestor q (l + 1)) = stop (ancestor q l) := by
  obtain ⟨e1, e2⟩ := start_ancestor_succ hqi hl
  rw [stop_eq, e1, e2]
  have hv := volume_pos (ancestor q (l + 1))
  generalize volume (ancestor q (l + 1)) = v at *
  generalize ancestorId q (l + 1) = k at *
  constructor
  · intro h; rw [← h]; ring
  · intro h
    have : (k + 1) * v = 2 ^ d * v := by
      have : (k + 1) * v = k * v + v := by ring
      omega
    exact Nat.eq_of_mul_eq_mul_right hv this

theorem first_step_iff {q : Quad d} (hqi : Int32 q.c) {l : ℕ}
    (hl : l + 1 ≤ 30) : ancestorId q (l + 1) = 0 ↔
      start (ancestor q (l + 1)) = start (ancestor q l) := by
  obtain ⟨e1, e2⟩ := start_ancestor_succ hqi hl
  rw [e1]
  have hv := volume_pos (ancestor q (l + 1))
  constructor
  · intro h; rw [h]; ring
  · intro h
    have : ancestorId q (l + 1) * volume (ancestor q (l + 1)) = 0 := by omega
    rcases Nat.mul_eq_zero.mp this with h | h <;> omega

theorem succLevel_spec {q : Quad d} (hqi : Int32 q.c) :
    ∀ l, l ≤ 30 →
    (∀ L s, succLevel q l = some (L, s) → 0 < L ∧ L ≤ l ∧ s = ancestorId q L + 1 ∧ s < 2 ^ d ∧
      stop (ancestor q L) = stop (ancestor q l)) ∧
    (succLevel q l = none → stop (ancestor q l) = stop (ancestor q 0)) := by
  intro l
  induction l with
  | zero => intro _; exact ⟨fun L s h => by simp [succLevel] at h, fun _ => rfl⟩
  | succ l ih =>
    intro hl
    have ih := ih (by omega)
    have hlt := ancestorId_lt q (l + 1)
    have hstep := last_step_iff hqi (l := l) hl
    rw [succLevel]
    by_cases hc : ancestorId q (l + 1) + 1 = 2 ^ d
    · rw [if_pos hc]
      rw [hstep.mp hc]
      refine ⟨fun L s h => ?_, ih.2⟩
      obtain ⟨h1, h2, h3⟩ := ih.1 L s h
      exact ⟨h1, by omega, h3⟩
    · rw [if_neg hc]
      refine ⟨fun L s h => ?_, fun h => by simp at h⟩
      simp only [Option.some.injEq, Prod.mk.injEq] at h
      obtain ⟨rfl, rfl⟩ := h
      exact ⟨by omega, le_rfl, rfl, by omega, rfl⟩

theorem predLevel_spec {q : Quad d} (hqi : Int32 q.c) :
    ∀ l, l ≤ 30 →
    (∀ L s, predLevel q l = some (L, s) → 0 < L ∧ L ≤ l ∧ s + 1 = ancestorId q L ∧
      start (ancestor q L) = start (ancestor q l)) ∧
    (predLevel q l = none → start (ancestor q l) = start (ancestor q 0)) := by
  intro l
  induction l with
  | zero => intro _; exact ⟨fun L s h => by simp [predLevel] at h, fun _ => rfl⟩
  | succ l ih =>
    intro hl
    have ih := ih (by omega)
    have hstep := first_step_iff hqi (l := l) hl
    rw [predLevel]
    by_cases hc : ancestorId q (l + 1) = 0
    · rw [if_pos hc]
      rw [hstep.mp hc]
      refine ⟨fun L s h => ?_, ih.2⟩
      obtain ⟨h1, h2, h3⟩ := ih.1 L s h
      exact ⟨h1, by omega, h3⟩
    · rw [if_neg hc]
      refine ⟨fun L s h => ?_, fun h => by simp at h⟩
      simp only [Option.some.injEq, Prod.mk.injEq] at h
      obtain ⟨rfl, rfl⟩ := h
      exact ⟨by omega, le_rfl, by omega, rfl⟩

/-- The successor begins where the quadrant ends; there is none iff the quadrant is the last one
in its root. -/
theorem successor_spec (hd : 0 < d) {q : Quad d} (hq : Aligned q) (hqi : Int32 q.c) :
    (∀ r, successor q = some r → r.level = q.level ∧ Aligned r ∧ r.c ∈ Cells (ancestor q 0) ∧
      start r = stop q) ∧
    (successor q = none → stop q = stop (ancestor q 0)) := by
  have h30 := hq.1
  have hsp := succLevel_spec hqi q.level h30
  rw [ancestor_self hq] at hsp
  unfold successor
  cases hs : succLevel q q.level with
  | none => exact ⟨fun r h => by simp at h, fun _ => hsp.2 hs⟩
  | some Ls =>
    obtain ⟨L, s⟩ := Ls
    obtain ⟨h1, h2, h3, h4, h5⟩ := hsp.1 L s hs
    simp only
    refine ⟨fun r hr => ?_, fun h => by split at h <;> simp at h⟩
    obtain ⟨m, rfl⟩ : ∃ m, L = m + 1 := ⟨L - 1, by omega⟩
    set A := ancestor q m with hA
    have hAa : Aligned A := ancestor_aligned q (by omega)
    have hAi : Int32 A.c := ancestor_int32 hqi (by omega)
    have hAl : A.level = m := rfl
    have key : r.level = q.level ∧ ∀ i, r.c i = (child A s).c i := by
      split at hr
      · rename_i hlt
        simp only [Option.some.injEq] at hr
        subst hr
        refine ⟨rfl, fun i => ?_⟩
        rw [child_c hAa (by omega)]
        simp only [qlen_def, land_not_mask, Nat.add_sub_cancel]
        rw [hA, ancestor_c, ancestor_level]
        split <;> simp
      · rename_i hlt
        simp only [Option.some.injEq] at hr
        subst hr
        have : q.level = m + 1 := by omega
        refine ⟨rfl, fun i => ?_⟩
        rw [sibling_eq hq (by omega), parent_eq_ancestor hq (by omega), this, Nat.add_sub_cancel]
    obtain ⟨k1, k2⟩ := key
    have k2' : r.c = (child A s).c := funext k2
    have hca := child_aligned hAa (by omega) s
    refine ⟨k1, ⟨by omega, fun i => ?_⟩, ?_, ?_⟩
    · rw [k2 i]
      exact dvd_trans (side_dvd_side (q := child A s) (r := r) (by rw [child_level]; omega)) (hca.2 i)
    · rw [k2']
      have c1 := child_corner_mem hAa (by omega) s
      have : Cells A ⊆ Cells (ancestor q 0) := by
        rw [← ancestor_ancestor (q := q) (l := 0) (m := m) (by omega)]
        exact cells_subset_ancestor hAa (by omega)
      exact this c1
    · unfold start
      rw [k2', curve_child hAa hAi (by omega) h4, ← h5]
      obtain ⟨e1, e2⟩ := start_ancestor_succ hqi (l := m) (by omega)
      rw [stop_eq, e1, h3]
      have : volume (child A s) = volume (ancestor q (m + 1)) := volume_congr rfl
      rw [← h3, this, h3]
      unfold start
      ring

theorem predecessor_spec (hd : 0 < d) {q : Quad d} (hq : Aligned q) (hqi : Int32 q.c) :
    (∀ r, predecessor q = some r → r.level = q.level ∧ Aligned r ∧ r.c ∈ Cells (ancestor q 0) ∧
      stop r = start q) ∧
    (predecessor q = none → start q = start (ancestor q 0)) := by
  have h30 := hq.1
  have hsp := predLevel_spec hqi q.level h30
  rw [ancestor_self hq] at hsp
  unfold predecessor
  cases hs : predLevel q q.level with
  | none => exact ⟨fun r h => by simp at h, fun _ => hsp.2 hs⟩
  | some Ls =>
    obtain ⟨L, s⟩ := Ls
    obtain ⟨h1, h2, h3, h5⟩ := hsp.1 L s hs
    simp only
    refine ⟨fun r hr => ?_, fun h => by split at h <;> simp at h⟩
    obtain ⟨m, rfl⟩ : ∃ m, L = m + 1 := ⟨L - 1, by omega⟩
    set A := ancestor q m with hA
    have hAa : Aligned A := ancestor_aligned q (by omega)
    have hAi : Int32 A.c := ancestor_int32 hqi (by omega)
    have hAl : A.level = m := rfl
    have hlt4 := ancestorId_lt q (m + 1)
    have hsd : s < 2 ^ d := by omega
    have key : r = lastDesc (child A s) q.level := by
      split at hr
      · rename_i hlt
        simp only [Option.some.injEq] at hr
        subst hr
        refine Quad.ext' (fun i => ?_) rfl
        unfold lastDesc
        simp only
        rw [child_c hAa (by omega)]
        simp only [qlen_def, land_not_mask, Nat.add_sub_cancel, child_level]
        rw [hA, ancestor_c, ancestor_level]
        split <;> ring
      · rename_i hlt
        simp only [Option.some.injEq] at hr
        subst hr
        have : q.level = m + 1 := by omega
        rw [sibling_eq hq (by omega), parent_eq_ancestor hq (by omega), this, Nat.add_sub_cancel]
        refine Quad.ext' (fun i => ?_) rfl
        unfold lastDesc
        simp [hA]
    have hca := child_aligned hAa (by omega) s
    have hci := child_int32 hAa hAi (by omega) s
    have hcl : (child A s).level ≤ q.level := by rw [child_level]; omega
    refine ⟨by rw [key]; rfl, by rw [key]; exact lastDesc_aligned hca hcl h30, ?_, ?_⟩
    · rw [key]
      have c1 := child_subset hAa (by omega) s (lastDesc_mem hcl)
      have : Cells A ⊆ Cells (ancestor q 0) := by
        rw [← ancestor_ancestor (q := q) (l := 0) (m := m) (by omega)]
        exact cells_subset_ancestor hAa (by omega)
      exact this c1
    · rw [key, stop_lastDesc hca hci hcl h30, ← h5]
      obtain ⟨e1, e2⟩ := start_ancestor_succ hqi (l := m) (by omega)
      unfold stop
      rw [curve_child hAa hAi (by omega) hsd, e1, ← h3]
      have : volume (child A s) = volume (ancestor q (m + 1)) := volume_congr rfl
      rw [this]
      unfold start
      ring

/-! ### enlarge -/

theorem orCoords_testBit (c : Fin d → ℤ) (k : ℕ) :
    Int.testBit (orCoords c) k = false ↔ ∀ i, Int.testBit (c i) k = false := by
  unfold orCoords
  have : ∀ (l : List (Fin d)) (w : ℤ),
      Int.testBit (l.foldl (fun w i => Int.lor w (c i)) w) k = false ↔
        Int.testBit w k = false ∧ ∀ i ∈ l, Int.testBit (c i) k = false := by
    intro l
    induction l with
    | nil => intro w; simp
    | cons a l ih =>
      intro w
      rw [List.foldl_cons, ih, Int.testBit_lor]
      simp [and_assoc]
  rw [this, tb_zero]
  simp

theorem andCoords_testBit (c : Fin d → ℤ) (k : ℕ) :
    Int.testBit (andCoords c) k = true ↔ ∀ i, Int.testBit (c i) k = true := by
  unfold andCoords
  have : ∀ (l : List (Fin d)) (w : ℤ),
      Int.testBit (l.foldl (fun w i => Int.land w (c i)) w) k = true ↔
        Int.testBit w k = true ∧ ∀ i ∈ l, Int.testBit (c i) k = true := by
    intro l
    induction l with
    | nil => intro w; simp
    | cons a l ih =>
      intro w
      rw [List.foldl_cons, ih, Int.testBit_land]
      simp [and_assoc]
  rw [this, tb_neg_one]
  simp

theorem land_pow_eq_zero_iff_tb (w : ℤ) (k : ℕ) : Int.land w (2 ^ k) = 0 ↔ Int.testBit w k = false := by
  rw [land_two_pow_eq_zero, tb_eq]
  simp only [decide_eq_false_iff_not]
  omega

theorem ancestorId_zero_iff (q : Quad d) {l : ℕ} (hl : 0 < l) :
    ancestorId q l = 0 ↔ Int.land (orCoords q.c) (qlen l) = 0 := by
  rw [qlen_def, land_pow_eq_zero_iff_tb, orCoords_testBit]
  constructor
  · intro h i
    have := ancestorId_testBit q hl i
    rw [h, Nat.zero_testBit] at this
    rw [tb_eq]; exact this.symm
  · intro h
    apply bits_ext (d := d) (ancestorId_lt _ _) (by positivity)
    intro i
    rw [ancestorId_testBit q hl, ← tb_eq, h i, Nat.zero_testBit]

theorem ancestorId_last_iff (q : Quad d) {l : ℕ} (hl : 0 < l) :
    ancestorId q l + 1 = 2 ^ d ↔ Int.land (andCoords q.c) (qlen l) ≠ 0 := by
  rw [qlen_def, ne_eq, land_pow_eq_zero_iff_tb, Bool.not_eq_false, andCoords_testBit]
  have hp : 0 < 2 ^ d := by positivity
  constructor
  · intro h i
    have := ancestorId_testBit q hl i
    rw [show ancestorId q l = 2 ^ d - 1 by omega, Nat.testBit_two_pow_sub_one] at this
    rw [tb_eq, ← this]; simp
  · intro h
    suffices ancestorId q l = 2 ^ d - 1 by omega
    apply bits_ext (d := d) (ancestorId_lt _ _) (by omega)
    intro i
    rw [ancestorId_testBit q hl, ← tb_eq, h i, Nat.testBit_two_pow_sub_one]
    simp

theorem enlargeFirstLevel_spec {q : Quad d} (hqi : Int32 q.c) (al : ℕ) :
    ∀ l, al ≤ l → l ≤ 30 →
    al ≤ enlargeFirstLevel (orCoords q.c) al l ∧ enlargeFirstLevel (orCoords q.c) al l ≤ l ∧
    start (ancestor q (enlargeFirstLevel (orCoords q.c) al l)) = start (ancestor q l) ∧
    (al < enlargeFirstLevel (orCoords q.c) al l →
      start (ancestor q (enlargeFirstLevel (orCoords q.c) al l - 1)) ≠ start (ancestor q l)) := by
  intro l
  induction l with
  | zero => intro h _; exact ⟨by simp [enlargeFirstLevel]; omega, by simp [enlargeFirstLevel], rfl,
      fun h' => by simp [enlargeFirstLevel] at h'⟩
  | succ l ih =>
    intro hal h30
    rw [enlargeFirstLevel]
    have hstep := first_step_iff hqi (l := l) h30
    rw [ancestorId_zero_iff q (by omega)] at hstep
    by_cases hc : al < l + 1 ∧ Int.land (orCoords q.c) (qlen (l + 1)) = 0
    · rw [if_pos hc]
      obtain ⟨i1, i2, i3, i4⟩ := ih (by omega) (by omega)
      rw [hstep.mp hc.2]
      exact ⟨i1, by omega, i3, i4⟩
    · rw [if_neg hc]
      refine ⟨hal, le_rfl, rfl, fun h => ?_⟩
      rw [Nat.add_sub_cancel]
      intro h'
      exact hc ⟨h, hstep.mpr h'.symm⟩

theorem enlargeLastLevel_spec {q : Quad d} (hqi : Int32 q.c) (al : ℕ) :
    ∀ l, al ≤ l → l ≤ 30 →
    al ≤ enlargeLastLevel (andCoords q.c) al l ∧ enlargeLastLevel (andCoords q.c) al l ≤ l ∧
    stop (ancestor q (enlargeLastLevel (andCoords q.c) al l)) = stop (ancestor q l) ∧
    (al < enlargeLastLevel (andCoords q.c) al l →
      stop (ancestor q (enlargeLastLevel (andCoords q.c) al l - 1)) ≠ stop (ancestor q l)) := by
  intro l
  induction l with
  | zero => intro h _; exact ⟨by simp [enlargeLastLevel]; omega, by simp [enlargeLastLevel], rfl,
      fun h' => by simp [enlargeLastLevel] at h'⟩
  | succ l ih =>
    intro hal h30
    rw [enlargeLastLevel]
    have hstep := last_step_iff hqi (l := l) h30
    rw [ancestorId_last_iff q (by omega)] at hstep
    by_cases hc : al < l + 1 ∧ Int.land (andCoords q.c) (qlen (l + 1)) ≠ 0
    · rw [if_pos hc]
      obtain ⟨i1, i2, i3, i4⟩ := ih (by omega) (by omega)
      rw [hstep.mp hc.2]
      exact ⟨i1, by omega, i3, i4⟩
    · rw [if_neg hc]
      refine ⟨hal, le_rfl, rfl, fun h => ?_⟩
      rw [Nat.add_sub_cancel]
      intro h'
      exact hc ⟨h, hstep.mpr h'.symm⟩

theorem land_not_mask2 {x : ℤ} {k m : ℕ} (h : k ≤ m) (hx : (2:ℤ) ^ k ∣ x) :
    Int.land x (Int.lnot (2 ^ m - 2 ^ k)) = 2 ^ m * (x / 2 ^ m) := by
  have e : (2:ℤ) ^ m - 2 ^ k = 2 ^ k * (2 ^ (m - k) - 1) := by
    rw [mul_sub, ← pow_add, show k + (m - k) = m by omega, mul_one]
  rw [← land_not_mask]
  obtain ⟨y, rfl⟩ := hx
  apply tb_ext; intro j
  rw [Int.testBit_land, Int.testBit_land, Int.testBit_lnot, Int.testBit_lnot, e, tb_mul_pow,
    tb_mul_pow, tb_mask, tb_mask]
  by_cases hj : j < k
  · simp [hj]
  · simp only [hj, if_false]
    have : decide (j - k < m - k) = decide (j < m) := by
      rw [decide_eq_decide]; omega
    rw [this]

theorem enlargeLast_eq {a q : Quad d} (hq : Aligned q) (hqi : Int32 q.c) (hl : a.level ≤ q.level) :
    enlargeLast a q = ancestor q (enlargeLastLevel (andCoords q.c) a.level q.level) := by
  obtain ⟨h1, h2, _, _⟩ := enlargeLastLevel_spec hqi a.level q.level hl hq.1
  unfold enlargeLast
  refine Quad.ext' (fun i => ?_) rfl
  simp only [qlen_def]
  rw [ancestor_c]
  exact land_not_mask2 (by omega) (hq.2 i)

theorem enlargeFirst_eq {a q : Quad d} (hq : Aligned q) (hqi : Int32 q.c) (hl : a.level ≤ q.level) :
    enlargeFirst a q = ancestor q (enlargeFirstLevel (orCoords q.c) a.level q.level) := by
  obtain ⟨h1, h2, h3, _⟩ := enlargeFirstLevel_spec hqi a.level q.level hl hq.1
  have h30 := hq.1
  rw [ancestor_self hq] at h3
  unfold enlargeFirst
  refine Quad.ext' (fun i => ?_) rfl
  have := curve_inj (ancestor_int32 hqi (by omega)) hqi h3
  rw [this]

/-- Squeeze: ancestors between two with the same start have the same start. -/
theorem ancestor_mono (hd : 0 < d) {q : Quad d} (hqi : Int32 q.c) {l m : ℕ} (hlm : l ≤ m)
    (hm : m ≤ 30) : start (ancestor q l) ≤ start (ancestor q m) ∧
      stop (ancestor q m) ≤ stop (ancestor q l) := by
  have := within_ancestor hd (ancestor_aligned q hm) (ancestor_int32 hqi hm) (l := l) hlm
  rwa [ancestor_ancestor hlm] at this

end P4est
