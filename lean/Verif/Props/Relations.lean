import Verif.Lemmas.Nca
import Mathlib.Tactic.FinCases

/-! # C02-C10: relations between quadrants -/

namespace P4est
open Spec

variable {d : ℕ}

/-! ## C02 -/

/-- C02. `p4est_quadrant_is_ancestor (q, r)` is true iff the region of `r` is a proper subset of
the region of `q`. -/
theorem C02_is_ancestor_iff (hd : 0 < d) (q r : Quad d) (hq : Extended q) (hr : Extended r) :
    isAncestor q r = true ↔ Cells r ⊂ Cells q :=
  isAncestor_iff hd hq.aligned hr.aligned

example : Extended (⟨![-536870912, 0], 1⟩ : Quad 2) ∧ Extended (⟨![-268435456, 268435456], 2⟩ : Quad 2)
    ∧ isAncestor (⟨![-536870912, 0], 1⟩ : Quad 2) ⟨![-268435456, 268435456], 2⟩ = true := by
  rw [← isExtended_iff, ← isExtended_iff]; decide +kernel

/-! ## C03 -/

/-- C03. `p4est_quadrant_overlaps` is true iff the two regions share a cell. -/
theorem C03_overlaps_iff (q r : Quad d) (hq : Extended q) (hr : Extended r) :
    overlaps q r = true ↔ ∃ p, p ∈ Cells q ∧ p ∈ Cells r := by
  rw [overlaps_iff hq.aligned hr.aligned]; rfl

/-- C03. Two quadrants are disjoint or one contains the other. -/
theorem C03_nested_or_disjoint (q r : Quad d) (hq : Extended q) (hr : Extended r) :
    Cells r ⊆ Cells q ∨ Cells q ⊆ Cells r ∨ ∀ p, ¬ (p ∈ Cells q ∧ p ∈ Cells r) := by
  by_cases h : (Cells q ∩ Cells r).Nonempty
  · rcases laminar hq.aligned hr.aligned h with h | h
    · exact Or.inl h
    · exact Or.inr (Or.inl h)
  · exact Or.inr (Or.inr (fun p hp => h ⟨p, hp⟩))

theorem disjoint_eq (q r : Quad d) : disjoint q r = if overlaps q r = true then 0 else compare q r := by
  unfold disjoint overlaps
  simp only [Bool.not_eq_true', decide_eq_false_iff_not]
  by_cases h : ∃ i, (Int.land (Int.xor (q.c i) (r.c i))
      (Int.lnot (2 ^ (MAXLEVEL - min q.level r.level) - 1))) ≠ 0
  · rw [if_pos h, if_neg (not_not.mpr h)]
  · rw [if_neg h, if_pos h]

/-- C03. `p4est_quadrant_disjoint` is zero iff the quadrants overlap; otherwise it is negative
iff all of `q` comes before all of `r` on the curve, and positive iff it comes after. -/
theorem C03_disjoint_sign (hd : 0 < d) (q r : Quad d) (hq : Extended q) (hr : Extended r) :
    (disjoint q r = 0 ↔ ∃ p, p ∈ Cells q ∧ p ∈ Cells r) ∧
    (disjoint q r < 0 ↔ ∀ p s, p ∈ Cells q → s ∈ Cells r → curve p < curve s) ∧
    (0 < disjoint q r ↔ ∀ p s, p ∈ Cells q → s ∈ Cells r → curve s < curve p) := by
  have hov := overlaps_iff hq.aligned hr.aligned
  have hdi := disjoint_iff_interval hq.aligned hr.aligned hq.int32 hr.int32
  have key : ∀ (q r : Quad d), Extended q → Extended r →
      ((∀ p s, p ∈ Cells q → s ∈ Cells r → curve p < curve s) ↔ stop q ≤ start r) := by
    intro q r hq hr
    constructor
    · intro h
      have h1 := h _ _ (lastDesc_mem (q := q) (l := 30) (by have := hq.1; omega)) (corner_mem r)
      have h2 := stop_lastDesc hq.aligned hq.int32 (l := 30) (by have := hq.1; omega) le_rfl
      have hv : volume (lastDesc q 30) = 1 := by simp [volume]
      unfold stop start at *
      omega
    · intro h p s hp hs
      rw [mem_iff_pos hq.aligned hq.int32 (aligned_int32_cells hq.aligned hq.int32 hp)] at hp
      rw [mem_iff_pos hr.aligned hr.int32 (aligned_int32_cells hr.aligned hr.int32 hs)] at hs
      omega
  have hrev : (∀ p s, p ∈ Cells q → s ∈ Cells r → curve s < curve p) ↔ stop r ≤ start q := by
    rw [← key r q hr hq]
    exact ⟨fun h p s hp hs => h s p hs hp, fun h p s hp hs => h s p hs hp⟩
  rw [key q r hq hr, hrev, disjoint_eq]
  have sq := start_lt_stop q
  have sr := start_lt_stop r
  by_cases h : (Cells q ∩ Cells r).Nonempty
  · rw [if_pos (hov.mpr h)]
    have : ¬ (stop q ≤ start r ∨ stop r ≤ start q) := fun h' => hdi.mpr h' h
    refine ⟨⟨fun _ => h, fun _ => rfl⟩, ⟨fun h' => by omega, fun h' => by omega⟩,
      ⟨fun h' => by omega, fun h' => by omega⟩⟩
  · rw [if_neg (fun h' => h (hov.mp h'))]
    have hc := hdi.mp h
    rw [compare_neg_iff hd hq.int32 hr.int32, compare_pos_iff hd hq.int32 hr.int32,
      compare_eq_zero_iff hd hq.int32 hr.int32]
    unfold Before
    change (_ ↔ (Cells q ∩ Cells r).Nonempty) ∧ (start q < start r ∨ start q = start r ∧ _ ↔ _) ∧
      (start r < start q ∨ start r = start q ∧ _ ↔ _)
    refine ⟨⟨fun h' => ?_, fun h' => absurd h' h⟩, ⟨fun h' => by omega, fun h' => by omega⟩,
      ⟨fun h' => by omega, fun h' => by omega⟩⟩
    subst h'; omega

example : Extended (⟨![0, 0, 536870912], 1⟩ : Quad 3) ∧ Extended (⟨![0, 0, 0], 3⟩ : Quad 3) ∧
    0 < disjoint (⟨![0, 0, 536870912], 1⟩ : Quad 3) ⟨![0, 0, 0], 3⟩ := by
  rw [← isExtended_iff, ← isExtended_iff]; decide +kernel

/-! ## C04 -/

theorem extended_subset {q r : Quad d} (hq : Extended q) (hr : Aligned r) (hl : r.level ≤ 29)
    (h : r.c ∈ Cells q) : Extended r := by
  refine ⟨hl, hr, fun i => ?_⟩
  have h1 := h i
  have h2 := hq.2.2 i
  refine ⟨by omega, ?_⟩
  exact (aligned_int32_cells hq.aligned hq.int32 h i).2

theorem valid_subset {q r : Quad d} (hq : Valid q) (hr : Aligned r) (hl : r.level ≤ 29)
    (h : r.c ∈ Cells q) : Valid r := by
  refine ⟨hl, hr, fun i => ?_⟩
  have h1 := h i
  have h2 := hq.2.2 i
  refine ⟨by omega, ?_⟩
  obtain ⟨t, ht⟩ := hq.2.1.2 i
  have hdvd : side q ∣ 2 ^ 30 := by unfold side; exact pow_dvd_pow _ (by omega)
  obtain ⟨a, ha⟩ := hdvd
  have hs := side_pos q
  have h3 : side q * t < side q * a := by rw [← ht, ← ha]; exact h2.2
  have h4 := lt_of_mul_lt_mul_left h3 hs.le
  have : q.c i + side q ≤ 2 ^ 30 := by rw [ht, ha]; nlinarith
  omega

/-- C04. Child and parent are inverse; the child id is the child number; children are legal
quadrants, and lie inside the tree if the parent does. -/
theorem C04_parent_of_child (q : Quad d) (hq : Extended q) (hl : q.level < 29) (k : ℕ)
    (hk : k < 2 ^ d) :
    parent (child q k) = q ∧ childId (child q k) = k ∧ (child q k).level = q.level + 1 ∧
    Extended (child q k) ∧ (Valid q → Valid (child q k)) := by
  have ha := child_aligned hq.aligned (by omega) k
  have hm := child_corner_mem hq.aligned (by omega) k
  exact ⟨parent_child hq.aligned (by omega) k, childId_child hq.aligned (by omega) hk, rfl,
    extended_subset hq ha (by rw [child_level]; omega) hm,
    fun hv => valid_subset hv ha (by rw [child_level]; omega) hm⟩

/-- C04. Every quadrant is the child of its parent with its own child id, and sibling `k` is
child `k` of the parent. -/
theorem C04_child_of_parent (q : Quad d) (hq : Extended q) (hl : 0 < q.level) :
    child (parent q) (childId q) = q ∧ childId q < 2 ^ d ∧
    (∀ k, sibling q k = child (parent q) k) ∧ (parent q).level + 1 = q.level :=
  ⟨child_parent hq.aligned hl, childId_lt q, fun k => sibling_eq hq.aligned hl k, by simp; omega⟩

theorem extended_super {q a : Quad d} (hq : Extended q) (ha : Aligned a) (hl : a.level ≤ 29)
    (h : q.c ∈ Cells a) : Extended a := by
  refine ⟨hl, ha, fun i => ?_⟩
  have h1 := h i
  have h2 := hq.2.2 i
  refine ⟨?_, by omega⟩
  obtain ⟨t, ht⟩ := ha.2 i
  have hdvd : side a ∣ 2 ^ 30 := by unfold side; exact pow_dvd_pow _ (by omega)
  obtain ⟨b, hb⟩ := hdvd
  have hs := side_pos a
  have h3 : side a * -b < side a * (t + 1) := by
    have : side a * (t + 1) = a.c i + side a := by rw [ht]; ring
    rw [this]
    have : side a * -b = - 2 ^ 30 := by rw [hb]; ring
    rw [this]; omega
  have h4 := lt_of_mul_lt_mul_left h3 hs.le
  have : side a * -b ≤ side a * t := mul_le_mul_of_nonneg_left (by omega) hs.le
  rw [ht]
  have : side a * -b = - 2 ^ 30 := by rw [hb]; ring
  omega

theorem valid_super {q a : Quad d} (hq : Valid q) (ha : Aligned a) (hl : a.level ≤ 29)
    (h : q.c ∈ Cells a) : Valid a := by
  refine ⟨hl, ha, fun i => ?_⟩
  have h1 := h i
  have h2 := hq.2.2 i
  refine ⟨?_, by omega⟩
  obtain ⟨t, ht⟩ := ha.2 i
  have hs := side_pos a
  have h3 : side a * 0 < side a * (t + 1) := by
    have : side a * (t + 1) = a.c i + side a := by rw [ht]; ring
    rw [this]; omega
  have h4 := lt_of_mul_lt_mul_left h3 hs.le
  rw [ht]; exact mul_nonneg hs.le (by omega)

/-- C04. `p4est_quadrant_ancestor (q, l)` is the unique quadrant of level `l` whose region
contains `q`; the parent is the ancestor one level up. -/
theorem C04_ancestor_unique (hd : 0 < d) (q : Quad d) (hq : Extended q) (l : ℕ) (hl : l < q.level) :
    (∀ a : Quad d, Extended a → (a.level = l ∧ Cells q ⊆ Cells a ↔ a = ancestor q l)) ∧
    Extended (ancestor q l) ∧ (Valid q → Valid (ancestor q l)) ∧
    (l + 1 = q.level → parent q = ancestor q l) := by
  have h29 := hq.1
  have hc : q.c ∈ Cells (ancestor q l) := cells_subset_ancestor hq.aligned hl.le (corner_mem q)
  have haa := ancestor_aligned q (l := l) (by omega)
  refine ⟨fun a ha => ⟨?_, ?_⟩, extended_super hq haa (by simp; omega) hc,
    fun hv => valid_super hv haa (by simp; omega) hc, fun h => ?_⟩
  · rintro ⟨h1, h2⟩
    have := ancestor_unique hq.aligned ha.aligned (by omega) (h2 (corner_mem q))
    rw [h1] at this; exact this
  · rintro rfl
    exact ⟨rfl, cells_subset_ancestor hq.aligned hl.le⟩
  · rw [parent_eq_ancestor hq.aligned (by omega), show q.level - 1 = l by omega]

example : Extended (⟨![-268435456, 805306368], 2⟩ : Quad 2) ∧
    childId (⟨![-268435456, 805306368], 2⟩ : Quad 2) = 3 ∧
    parent (⟨![-268435456, 805306368], 2⟩ : Quad 2) = ⟨![-536870912, 536870912], 1⟩ := by
  rw [← isExtended_iff]; decide +kernel

/-! ## C05 -/

/-- C05. The children written by `p4est_quadrant_childrenv` tile the parent: each cell of `q` is
in exactly one child and cells outside `q` are in none. -/
theorem C05_children_tile (q : Quad d) (hq : Extended q) (hl : q.level < 29) :
    (childrenv q).length = 2 ^ d ∧
    (∀ p, p ∈ Cells q ↔ ∃ r ∈ childrenv q, p ∈ Cells r) ∧
    (∀ p, ∀ r ∈ childrenv q, ∀ s ∈ childrenv q, p ∈ Cells r → p ∈ Cells s → r = s) := by
  have hqa := hq.aligned
  refine ⟨by simp [childrenv], fun p => ⟨fun hp => ?_, ?_⟩, ?_⟩
  · have hlt := ancestorId_lt (⟨p, 30⟩ : Quad d) (q.level + 1)
    refine ⟨child q _, ?_, (mem_child_iff hqa (by omega) hp hlt).mpr rfl⟩
    unfold childrenv
    exact List.mem_map.mpr ⟨_, List.mem_range.mpr hlt, rfl⟩
  · rintro ⟨r, hr, hp⟩
    unfold childrenv at hr
    obtain ⟨k, _, rfl⟩ := List.mem_map.mp hr
    exact child_subset hqa (by omega) k hp
  · intro p r hr s hs hpr hps
    unfold childrenv at hr hs
    obtain ⟨j, hj, rfl⟩ := List.mem_map.mp hr
    obtain ⟨k, hk, rfl⟩ := List.mem_map.mp hs
    have hp := child_subset hqa (by omega) j hpr
    rw [(mem_child_iff hqa (by omega) hp (List.mem_range.mp hj)).mp hpr,
      (mem_child_iff hqa (by omega) hp (List.mem_range.mp hk)).mp hps]

/-- C05. The children are consecutive along the curve: the first one starts with `q`, each one
starts where the previous one stops, and the last one stops with `q`. -/
theorem C05_children_consecutive (q : Quad d) (hq : Extended q) (hl : q.level < 29) :
    start (child q 0) = start q ∧
    (∀ k, k + 1 < 2 ^ d → stop (child q k) = start (child q (k + 1)) ∧
      Before (child q k) (child q (k + 1))) ∧
    stop (child q (2 ^ d - 1)) = stop q := by
  have hc := fun k hk => curve_child hq.aligned hq.int32 (by omega) (k := k) hk
  have hv : ∀ k, volume (child q k) = volume (child q 0) := fun k => volume_congr rfl
  have hp : 0 < 2 ^ d := by positivity
  have hvp := volume_pos (child q 0)
  refine ⟨?_, fun k hk => ?_, ?_⟩
  · unfold start; rw [hc 0 hp]; simp
  · have h1 := hc k (by omega)
    have h2 := hc (k + 1) hk
    rw [hv] at h1 h2
    have : (k + 1) * volume (child q 0) = k * volume (child q 0) + volume (child q 0) := by ring
    constructor
    · unfold stop start; rw [hv]; omega
    · left; omega
  · have h1 := hc (2 ^ d - 1) (by omega)
    rw [hv] at h1
    unfold stop
    rw [hv, h1, volume_child (q := q) (by omega) 0]
    have e : 2 ^ d = (2 ^ d - 1) + 1 := by omega
    generalize 2 ^ d - 1 = m at *
    rw [e]; ring

example : Extended (⟨![0, 536870912], 1⟩ : Quad 2) ∧
    childrenv (⟨![0, 536870912], 1⟩ : Quad 2) =
      [⟨![0, 536870912], 2⟩, ⟨![268435456, 536870912], 2⟩, ⟨![0, 805306368], 2⟩,
       ⟨![268435456, 805306368], 2⟩] := by
  rw [← isExtended_iff]; decide +kernel

/-! ## C06 -/

/-- C06. `p4est_quadrant_is_sibling` is true iff the quadrants differ and have the same parent. -/
theorem C06_is_sibling_iff (q r : Quad d) (hq : Extended q) (hr : Extended r) :
    isSibling q r = true ↔ 0 < q.level ∧ q.level = r.level ∧ q ≠ r ∧ parent q = parent r :=
  isSibling_iff_div hq.aligned hr.aligned

/-- C06. `p4est_quadrant_is_parent (q, r)` is true iff `q` is one level coarser than `r` and
contains it. -/
theorem C06_is_parent_iff (q r : Quad d) (hq : Extended q) (hr : Extended r) :
    isParent q r = true ↔ q.level + 1 = r.level ∧ Cells r ⊆ Cells q := by
  rw [isParent_iff]
  constructor
  · rintro ⟨h1, h2⟩
    rw [parent_eq_ancestor hr.aligned h1] at h2
    rw [h2]
    exact ⟨by simp; omega, cells_subset_ancestor hr.aligned (by omega)⟩
  · rintro ⟨h1, h2⟩
    refine ⟨by omega, ?_⟩
    rw [parent_eq_ancestor hr.aligned (by omega)]
    have := ancestor_unique hr.aligned hq.aligned (by omega) (h2 (corner_mem r))
    rw [this]; congr 1; rw [this, ancestor_level] at h1; omega

/-- The full C06 family claim is false: `p4est_quadrant_is_family` accepts four quadrants that do
not have a common parent (it does not check that the first one is a first child). -/
theorem C06_is_family_accepts_non_siblings :
    ∃ q0 q1 q2 q3 : Quad 2, Valid q0 ∧ Valid q1 ∧ Valid q2 ∧ Valid q3 ∧
      isFamily2 q0 q1 q2 q3 = true ∧ parent q0 ≠ parent q2 := by
  refine ⟨⟨![0, 268435456], 2⟩, ⟨![268435456, 268435456], 2⟩, ⟨![0, 536870912], 2⟩,
    ⟨![268435456, 536870912], 2⟩, ?_⟩
  rw [← isValid_iff, ← isValid_iff, ← isValid_iff, ← isValid_iff]
  decide +kernel

/-- The same for the 3D test. -/
theorem C06_is_family3_accepts_non_siblings :
    ∃ q0 q1 q2 q3 q4 q5 q6 q7 : Quad 3, (∀ q ∈ [q0, q1, q2, q3, q4, q5, q6, q7], Valid q) ∧
      isFamily3 q0 q1 q2 q3 q4 q5 q6 q7 = true ∧ parent q0 ≠ parent q4 := by
  refine ⟨⟨![0, 0, 268435456], 2⟩, ⟨![268435456, 0, 268435456], 2⟩, ⟨![0, 268435456, 268435456], 2⟩,
    ⟨![268435456, 268435456, 268435456], 2⟩, ⟨![0, 0, 536870912], 2⟩, ⟨![268435456, 0, 536870912], 2⟩,
    ⟨![0, 268435456, 536870912], 2⟩, ⟨![268435456, 268435456, 536870912], 2⟩, ?_, ?_⟩
  · simp only [← isValid_iff]; decide +kernel
  · decide +kernel

theorem parent_c_of_zero {q : Quad d} (hl : 0 < q.level) (h0 : childId q = 0) (i : Fin d) :
    (parent q).c i = q.c i := by
  have := childId_testBit q hl i
  rw [h0] at this
  unfold parent
  simp only [qlen_def, land_not_two_pow]
  have h2 : ¬ q.c i / 2 ^ (30 - q.level) % 2 = 1 := by
    intro h; simp [h] at this
  have h3 : q.c i / 2 ^ (30 - q.level) % 2 = 0 := by omega
  rw [h3]; ring

theorem child_parent_c_of_zero {q : Quad d} (hq : Aligned q) (hl : 0 < q.level) (h0 : childId q = 0)
    (k : ℕ) (i : Fin d) : (child (parent q) k).c i =
      q.c i + (if k.testBit i then qlen q.level else 0) := by
  have := hq.1
  rw [child_c (parent_aligned hq hl) (by simp; omega), parent_c_of_zero hl h0, parent_level,
    show q.level - 1 + 1 = q.level by omega]
  rfl

/-- C06, for a first argument that is a first child (what all callers that rely on it ensure, and
what the documentation presupposes): the 2D family test is true iff the four quadrants are, in
order, the four children of one quadrant.  Missing from the full claim: the case where the first
argument is not a first child, for which the claim is false (see above). -/
theorem C06_is_family2_partial (q0 q1 q2 q3 : Quad 2) (h0 : Extended q0) (hid : childId q0 = 0) :
    isFamily2 q0 q1 q2 q3 = true ↔ ∃ p : Quad 2, Aligned p ∧ p.level < 29 ∧
      [q0, q1, q2, q3] = [child p 0, child p 1, child p 2, child p 3] := by
  have hl29 := h0.1
  unfold isFamily2
  by_cases hlev : q0.level = 0 ∨ q0.level ≠ q1.level ∨ q0.level ≠ q2.level ∨ q0.level ≠ q3.level
  · rw [if_pos hlev]
    constructor
    · intro h; simp at h
    · rintro ⟨p, _, _, h⟩
      simp only [List.cons.injEq, and_true] at h
      obtain ⟨e0, e1, e2, e3⟩ := h
      subst e0 e1 e2 e3
      simp at hlev
  · rw [if_neg hlev, decide_eq_true_eq]
    push Not at hlev
    obtain ⟨l0, l1, l2, l3⟩ := hlev
    have hpos : 0 < q0.level := by omega
    have hc := child_parent_c_of_zero h0.aligned hpos hid
    have hll : q0.level - 1 + 1 = q0.level := by omega
    constructor
    · rintro ⟨⟨a1, a2⟩, ⟨b1, b2⟩, c1, c2⟩
      refine ⟨parent q0, parent_aligned h0.aligned hpos, by simp; omega, ?_⟩
      have e0 : q0 = child (parent q0) 0 := by
        conv_lhs => rw [← child_parent h0.aligned hpos, hid]
      have e1 : q1 = child (parent q0) 1 := by
        refine Quad.ext' (fun i => ?_) (by simp; omega)
        rw [hc]
        fin_cases i
        · simpa using a1.symm
        · simpa [Nat.testBit] using a2.symm
      have e2 : q2 = child (parent q0) 2 := by
        refine Quad.ext' (fun i => ?_) (by simp; omega)
        rw [hc]
        fin_cases i
        · simpa [Nat.testBit] using b1.symm
        · simpa [Nat.testBit] using b2.symm
      have e3 : q3 = child (parent q0) 3 := by
        refine Quad.ext' (fun i => ?_) (by simp; omega)
        rw [hc]
        fin_cases i
        · simpa [Nat.testBit, a1] using c1.symm
        · simpa [Nat.testBit, b2] using c2.symm
      rw [← e0, ← e1, ← e2, ← e3]
    · rintro ⟨p, hp, hpl, h⟩
      simp only [List.cons.injEq, and_true] at h
      obtain ⟨e0, e1, e2, e3⟩ := h
      subst e0 e1 e2 e3
      simp only [child_c hp (by omega : p.level < 30), child_level, qlen_def]
      simp [Nat.testBit]

example : ∃ q0 q1 q2 q3 : Quad 2, Extended q0 ∧ childId q0 = 0 ∧ isFamily2 q0 q1 q2 q3 = true := by
  refine ⟨⟨![0, 536870912], 2⟩, ⟨![268435456, 536870912], 2⟩, ⟨![0, 805306368], 2⟩,
    ⟨![268435456, 805306368], 2⟩, ?_⟩
  rw [← isExtended_iff]; decide +kernel

/-- C06 for the 3D family test, under the same condition as `C06_is_family2_partial`. -/
theorem C06_is_family3_partial (q0 q1 q2 q3 q4 q5 q6 q7 : Quad 3) (h0 : Extended q0)
    (hid : childId q0 = 0) :
    isFamily3 q0 q1 q2 q3 q4 q5 q6 q7 = true ↔ ∃ p : Quad 3, Aligned p ∧ p.level < 29 ∧
      [q0, q1, q2, q3, q4, q5, q6, q7] = [child p 0, child p 1, child p 2, child p 3,
        child p 4, child p 5, child p 6, child p 7] := by
  have hl29 := h0.1
  unfold isFamily3
  by_cases hlev : q0.level = 0 ∨ q0.level ≠ q1.level ∨ q0.level ≠ q2.level ∨ q0.level ≠ q3.level ∨
     q0.level ≠ q4.level ∨ q0.level ≠ q5.level ∨ q0.level ≠ q6.level ∨ q0.level ≠ q7.level
  · rw [if_pos hlev]
    constructor
    · intro h; simp at h
    · rintro ⟨p, _, _, h⟩
      simp only [List.cons.injEq, and_true] at h
      obtain ⟨e0, e1, e2, e3, e4, e5, e6, e7⟩ := h
      subst e0 e1 e2 e3 e4 e5 e6 e7
      simp at hlev
  · rw [if_neg hlev, decide_eq_true_eq]
    push Not at hlev
    obtain ⟨l0, l1, l2, l3, l4, l5, l6, l7⟩ := hlev
    have hpos : 0 < q0.level := by omega
    have hc := child_parent_c_of_zero h0.aligned hpos hid
    have hll : q0.level - 1 + 1 = q0.level := by omega
    constructor
    · rintro ⟨⟨a1, a2, a3⟩, ⟨b1, b2, b3⟩, ⟨c1, c2, c3⟩, ⟨d1, d2, d3⟩, ⟨e1, e2, e3⟩, ⟨f1, f2, f3⟩,
        g1, g2, g3⟩
      refine ⟨parent q0, parent_aligned h0.aligned hpos, by simp; omega, ?_⟩
      have z0 : q0 = child (parent q0) 0 := by
        conv_lhs => rw [← child_parent h0.aligned hpos, hid]
      have z1 : q1 = child (parent q0) 1 := by
        refine Quad.ext' (fun i => ?_) (by simp; omega)
        rw [hc]; fin_cases i <;> simp [Nat.testBit] <;> omega
      have z2 : q2 = child (parent q0) 2 := by
        refine Quad.ext' (fun i => ?_) (by simp; omega)
        rw [hc]; fin_cases i <;> simp [Nat.testBit] <;> omega
      have z3 : q3 = child (parent q0) 3 := by
        refine Quad.ext' (fun i => ?_) (by simp; omega)
        rw [hc]; fin_cases i <;> simp [Nat.testBit] <;> omega
      have z4 : q4 = child (parent q0) 4 := by
        refine Quad.ext' (fun i => ?_) (by simp; omega)
        rw [hc]; fin_cases i <;> simp [Nat.testBit] <;> omega
      have z5 : q5 = child (parent q0) 5 := by
        refine Quad.ext' (fun i => ?_) (by simp; omega)
        rw [hc]; fin_cases i <;> simp [Nat.testBit] <;> omega
      have z6 : q6 = child (parent q0) 6 := by
        refine Quad.ext' (fun i => ?_) (by simp; omega)
        rw [hc]; fin_cases i <;> simp [Nat.testBit] <;> omega
      have z7 : q7 = child (parent q0) 7 := by
        refine Quad.ext' (fun i => ?_) (by simp; omega)
        rw [hc]; fin_cases i <;> simp [Nat.testBit] <;> omega
      rw [← z0, ← z1, ← z2, ← z3, ← z4, ← z5, ← z6, ← z7]
    · rintro ⟨p, hp, hpl, h⟩
      simp only [List.cons.injEq, and_true] at h
      obtain ⟨e0, e1, e2, e3, e4, e5, e6, e7⟩ := h
      subst e0 e1 e2 e3 e4 e5 e6 e7
      simp only [child_c hp (by omega : p.level < 30), child_level, qlen_def]
      simp [Nat.testBit]

example : ∃ q0 q1 q2 q3 q4 q5 q6 q7 : Quad 3, Extended q0 ∧ childId q0 = 0 ∧
    isFamily3 q0 q1 q2 q3 q4 q5 q6 q7 = true := by
  refine ⟨child (root 3) 0, child (root 3) 1, child (root 3) 2, child (root 3) 3, child (root 3) 4,
    child (root 3) 5, child (root 3) 6, child (root 3) 7, ?_⟩
  rw [← isExtended_iff]; decide +kernel

/-! ## C07 -/

/-- C07. The nearest common ancestor contains both quadrants and lies in every quadrant that
contains both.  The hypothesis (some common container exists) is the C assertion that both are in
the same root. -/
theorem C07_nca_is_smallest (hd : 0 < d) (q r : Quad d) (hq : Extended q) (hr : Extended r)
    (hc : ∃ a : Quad d, Aligned a ∧ Cells q ⊆ Cells a ∧ Cells r ⊆ Cells a) :
    Extended (nca q r) ∧ Cells q ⊆ Cells (nca q r) ∧ Cells r ⊆ Cells (nca q r) ∧
    ∀ a, Aligned a → Cells q ⊆ Cells a → Cells r ⊆ Cells a → Cells (nca q r) ⊆ Cells a := by
  have hb := (common_iff hd hq.aligned hr.aligned hq.int32 hr.int32).mp hc
  obtain ⟨h1, h2, h3, h4⟩ := nca_spec hd hq.aligned hr.aligned hq.int32 hr.int32 hb
  refine ⟨extended_super hq h1 ?_ (h2 (corner_mem q)), h2, h3, h4⟩
  have := (cells_subset_iff hd h1 hq.aligned).mp h2
  have := hq.1
  omega

theorem valid_common (q r : Quad d) (hq : Valid q) (hr : Valid r) :
    ∃ a : Quad d, Aligned a ∧ Cells q ⊆ Cells a ∧ Cells r ⊆ Cells a := by
  have haa : Aligned (root d) := ⟨by simp [root], fun i => by simp [root]⟩
  have key : ∀ q : Quad d, Valid q → Cells q ⊆ Cells (root d) := by
    intro q hq
    apply cells_subset haa hq.aligned (by simp [root])
    intro i
    have := hq.2.2 i
    simp only [root, side]
    constructor <;> omega
  exact ⟨root d, haa, key q hq, key r hr⟩

/-- C07. Quadrants inside the tree always have a nearest common ancestor inside the tree, and the
reference implementation returns the same one. -/
theorem C07_nca_valid (hd : 0 < d) (q r : Quad d) (hq : Valid q) (hr : Valid r) :
    Valid (nca q r) ∧ Cells q ⊆ Cells (nca q r) ∧ Cells r ⊆ Cells (nca q r) ∧
    (∀ a, Aligned a → Cells q ⊆ Cells a → Cells r ⊆ Cells a → Cells (nca q r) ⊆ Cells a) ∧
    ncaD q r = some (nca q r) := by
  have hc := valid_common q r hq hr
  obtain ⟨h1, h2, h3, h4⟩ := C07_nca_is_smallest hd q r hq.extended hr.extended hc
  refine ⟨valid_super hq h1.aligned h1.1 (h2 (corner_mem q)), h2, h3, h4, ?_⟩
  rw [ncaD_eq hd hq.aligned hr.aligned hq.int32 hr.int32,
    if_pos ((common_iff hd hq.aligned hr.aligned hq.int32 hr.int32).mp hc)]

example : Valid (⟨![268435456, 0], 2⟩ : Quad 2) ∧ Valid (⟨![134217728, 268435456], 3⟩ : Quad 2) ∧
    nca (⟨![268435456, 0], 2⟩ : Quad 2) ⟨![134217728, 268435456], 3⟩ = ⟨![0, 0], 1⟩ := by
  rw [← isValid_iff, ← isValid_iff]; decide +kernel

/-! ## C08 -/

/-- C08. The fast predicates agree with the reference versions, on all inputs that meet the
assertions of both (for `is_ancestor_D` and `nearest_common_ancestor_D`: same root; for `is_sibling_D`: the second
quadrant has a parent). -/
theorem C08_reference_versions_agree (hd : 0 < d) (hd3 : d ≤ 3) (q r : Quad d)
    (hq : Extended q) (hr : Extended r) :
    (0 < r.level → isSiblingD q r = isSibling q r) ∧ isParentD q r = isParent q r ∧ isNextD q r = isNext q r ∧
    ((∃ a : Quad d, Aligned a ∧ Cells q ⊆ Cells a ∧ Cells r ⊆ Cells a) →
      ncaD q r = some (nca q r) ∧ isAncestorD q r = some (isAncestor q r)) := by
  refine ⟨?_, ?_, isNextD_eq hd hd3 hq.aligned hr.aligned hq.int32 hr.int32 hq.1 hr.1, fun hc => ?_⟩
  · intro hrl
    rw [Bool.eq_iff_iff, isSibling_iff_div hq.aligned hr.aligned]
    unfold isSiblingD
    by_cases h0 : q.level = 0
    · rw [if_pos h0]; simp [h0]
    rw [if_neg h0]
    by_cases he : q = r
    · rw [if_pos (isEqual_iff.mpr he)]; simp [he]
    · rw [if_neg (fun h => he (isEqual_iff.mp h)), isEqual_iff]
      constructor
      · intro h
        have h2 := congrArg (fun z => z.level) h
        simp only [parent_level] at h2
        exact ⟨by omega, by omega, he, h⟩
      · rintro ⟨_, _, _, h⟩; exact h
  · rw [Bool.eq_iff_iff, isParent_iff]
    unfold isParentD
    by_cases h0 : r.level = 0
    · rw [if_pos h0]; simp [h0]
    · rw [if_neg h0, isEqual_iff]
      exact ⟨fun h => ⟨by omega, h⟩, fun h => h.2⟩
  · have hb := (common_iff hd hq.aligned hr.aligned hq.int32 hr.int32).mp hc
    have hn : ncaD q r = some (nca q r) := by
      rw [ncaD_eq hd hq.aligned hr.aligned hq.int32 hr.int32, if_pos hb]
    refine ⟨hn, ?_⟩
    unfold isAncestorD
    by_cases he : q = r
    · rw [if_pos (isEqual_iff.mpr he)]
      congr 1
      symm
      rw [Bool.eq_false_iff]
      intro h
      rw [isAncestor_iff_div, he] at h
      omega
    · rw [if_neg (fun h => he (isEqual_iff.mp h)), hn, Option.map_some]
      congr 1
      rw [Bool.eq_iff_iff, isEqual_iff, isAncestor_iff hd hq.aligned hr.aligned]
      obtain ⟨h1, h2, h3, h4⟩ := nca_spec hd hq.aligned hr.aligned hq.int32 hr.int32 hb
      constructor
      · intro h
        rw [← h] at h3
        exact Set.ssubset_iff_subset_ne.mpr ⟨h3, fun hc => he (cells_inj hd hr.aligned hq.aligned hc).symm⟩
      · intro h
        apply cells_inj hd hq.aligned h1
        exact Set.Subset.antisymm h2 (h4 q hq.aligned subset_rfl h.subset)

end P4est
