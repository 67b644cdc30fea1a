import Verif.Lemmas.RangeBoundaries

/-! # C56: the boundary search of a range of cells -/

namespace P4est
open Spec

variable {d : ℕ}

theorem findRangeBoundaries_within (hd : d = 2 ∨ d = 3) (lq uq : Option (Quad d)) (level n : ℕ)
    (h : (findRangeBoundaries lq uq level).testBit n = true) : n < boundaryParts d := by
  have hall : (allBoundaries d).testBit n = true → n < boundaryParts d := by
    rw [allBoundaries_bit hd]; simp
  unfold findRangeBoundaries at h
  split at h
  · exact hall h
  · split at h
    · exact hall h
    · exact (limitBoundaries_within _ _ _ _ _ _ _ h).elim (by simp) hall
    · exact (limitBoundaries_within _ _ _ _ _ _ _ h).elim (by simp) hall
    · exact hall (rangeBoundaries_within _ _ _ _ _ _ h)

theorem part_corner (hd : d = 2 ∨ d = 3) {n : ℕ} (hn : n < boundaryParts d) :
    ∃ k < 2 ^ d, OnPart d (boundaryPart d n) k := by
  have h2 : ∀ n : Fin 8, ∃ k < 4, (cornerMask 2 k).testBit n = true := by decide +kernel
  have h3 : ∀ n : Fin 26, ∃ k < 8, (cornerMask 3 k).testBit n = true := by decide +kernel
  rcases hd with rfl | rfl
  · obtain ⟨k, hk, h⟩ := h2 ⟨n, by simpa [boundaryParts] using hn⟩
    exact ⟨k, hk, (cornerMask_bit (Or.inl rfl) hk hn).mp h⟩
  · obtain ⟨k, hk, h⟩ := h3 ⟨n, by simpa [boundaryParts] using hn⟩
    exact ⟨k, hk, (cornerMask_bit (Or.inr rfl) hk hn).mp h⟩

theorem ancestor_of_subset (hd : 0 < d) {a q : Quad d} (ha : Valid a) (hq : Valid q) (h : Cells q ⊆ Cells a) :
    a = ancestor q a.level :=
  ancestor_unique hq.aligned ha.aligned ((cells_subset_iff hd ha.aligned hq.aligned).mp h).1 (h (corner_mem q))

/-- **C56.**  The search of a range of smallest quadrants inside a quadrant `a` reports exactly the
faces, edges and corners of `a` which some cell of the range touches.  A missing end stands for the
first or the last cell of `a`.  Partial: when both ends are given they have to differ, unless `a` is
itself of the smallest size; see `C56_single_cell`. -/
theorem C56_range_boundaries_partial (hd : d = 2 ∨ d = 3) (a : Quad d) (ha : Valid a)
    (lq uq : Option (Quad d)) (hl : ∀ l, lq = some l → IsCell l ∧ Cells l ⊆ Cells a)
    (hu : ∀ u, uq = some u → IsCell u ∧ Cells u ⊆ Cells a)
    (hlt : ∀ l u, lq = some l → uq = some u → a.level = 29 ∨ start l < start u) (n : ℕ) :
    (findRangeBoundaries lq uq a.level).testBit n = true ↔ n < boundaryParts d ∧ RangeTouches a lq uq n := by
  have hd0 : 0 < d := by omega
  by_cases hn : n < boundaryParts d
  swap
  · exact ⟨fun h => absurd (findRangeBoundaries_within hd _ _ _ _ h) hn, fun h => absurd h.1 hn⟩
  simp only [hn, true_and]
  have hall : (allBoundaries d).testBit n = true := by rw [allBoundaries_bit hd]; simpa using hn
  unfold findRangeBoundaries
  by_cases h29 : a.level = 29
  · rw [if_pos (show a.level = QMAXLEVEL from h29)]
    refine iff_of_true hall ⟨a, ⟨ha, h29⟩, le_rfl, fun l h => ?_, fun u h => ?_, touches_self a _⟩
    · rw [cell_eq hd0 (hl l h).1 ⟨ha, h29⟩ (hl l h).2]
    · rw [cell_eq hd0 (hu u h).1 ⟨ha, h29⟩ (hu u h).2]
  rw [if_neg (show ¬ a.level = QMAXLEVEL from h29)]
  have hlev : a.level < 29 := by have := ha.1; omega
  have hlim : ∀ q up, IsCell q → Cells q ⊆ Cells a →
      ((limitBoundaries q up (max (lastLevel q) (a.level + 1) - (a.level + 1)) (a.level + 1) 0
        (allBoundaries d)).testBit n = true ↔ Reaches a q up (boundaryPart d n)) := by
    intro q up hq hqa
    obtain ⟨h1, h2⟩ := lastLevel_bits hq
    rw [limitBoundaries_bit hd hq up hn _ _ _ _ (by omega) (fun j h3 h4 h5 => h2 j (by omega) h4 h5),
      ← ancestor_of_subset hd0 ha hq.1 hqa, hall]
    simp
  match lq, uq with
  | none, none =>
    obtain ⟨k, -, hk⟩ := part_corner hd hn
    obtain ⟨u, h1, h2, h3⟩ := corner_cell ha _ hk
    exact iff_of_true hall ⟨u, h1, h2, by simp, by simp, h3⟩
  | none, some q =>
    obtain ⟨hq, hqa⟩ := hu q rfl
    show (limitBoundaries _ _ _ _ _ _).testBit n = true ↔ _
    rw [hlim q false hq hqa]
    unfold Reaches RangeTouches
    simp
  | some q, none =>
    obtain ⟨hq, hqa⟩ := hl q rfl
    show (limitBoundaries _ _ _ _ _ _).testBit n = true ↔ _
    rw [hlim q true hq hqa]
    unfold Reaches RangeTouches
    simp
  | some l, some u =>
    obtain ⟨hlq, hla⟩ := hl l rfl
    obtain ⟨huq, hua⟩ := hu u rfl
    have hs : start l < start u := (hlt l u rfl rfl).resolve_left h29
    obtain ⟨c1, c2, c3, c4, -⟩ := C07_nca_valid hd0 l u hlq.1 huq.1
    have hsub := c4 a ha.aligned hla hua
    have hle : a.level ≤ (nca l u).level := ((cells_subset_iff hd0 ha.aligned c1.aligned).mp hsub).1
    have hlt29 : (nca l u).level < 29 := by
      by_contra hc
      have hnc : IsCell (nca l u) := ⟨c1, by have := c1.1; omega⟩
      rw [cell_eq hd0 hlq hnc c2, ← cell_eq hd0 huq hnc c3] at hs
      omega
    have ea : ancestor u (nca l u).level = ancestor l (nca l u).level := by
      rw [← ancestor_of_subset hd0 c1 hlq.1 c2, ← ancestor_of_subset hd0 c1 huq.1 c3]
    have hsame : ∀ j ≤ (nca l u).level, ancestor u j = ancestor l j := by
      intro j hj
      obtain ⟨v1, v2, v3⟩ := cell_ancestor hlq (l := j) (by omega)
      have hjs : Cells (nca l u) ⊆ Cells (ancestor l j) := by
        have h5 : Cells (nca l u) ∩ Cells (ancestor l j) ≠ ∅ := by
          intro he
          have : l.c ∈ Cells (nca l u) ∩ Cells (ancestor l j) := ⟨c2 (corner_mem l), v2 (corner_mem l)⟩
          rw [he] at this
          exact this
        rw [cells_subset_iff hd0 v1.aligned c1.aligned, v3]
        refine ⟨hj, ?_⟩
        rcases C03_nested_or_disjoint (nca l u) (ancestor l j) c1.extended v1.extended with h | h | h
        · have hlv := ((cells_subset_iff hd0 c1.aligned v1.aligned).mp h).1
          have : (ancestor l j).level = (nca l u).level := by omega
          rw [v3] at this
          have e := ancestor_of_subset hd0 c1 hlq.1 c2
          rw [← this] at e
          rw [e]; exact corner_mem _
        · exact h (corner_mem _)
        · exact absurd ⟨c2 (corner_mem l), v2 (corner_mem l)⟩ (h l.c)
      have := ancestor_of_subset hd0 v1 huq.1 (c3.trans hjs)
      rw [v3] at this
      exact this.symm
    have hids : ancestorId l ((nca l u).level + 1) < ancestorId u ((nca l u).level + 1) := by
      obtain ⟨k1, s1⟩ := cell_kid hd0 c1 hlt29 hlq c2
      obtain ⟨k2, s2⟩ := cell_kid hd0 c1 hlt29 huq c3
      have e1 := (valid_subset_iff hd0 (kid_valid c1 hlt29 _) hlq.1).mp s1
      have e2 := (valid_subset_iff hd0 (kid_valid c1 hlt29 _) huq.1).mp s2
      have o1 := start_lt_stop l
      have o2 := start_lt_stop u
      rcases lt_trichotomy (ancestorId l ((nca l u).level + 1)) (ancestorId u ((nca l u).level + 1)) with h | h | h
      · exact h
      · exfalso
        rw [← h] at s2
        have := c4 _ (kid_valid c1 hlt29 _).aligned s1 s2
        exact absurd (lt_of_le_of_lt this (kid_subset hd0 c1 hlt29 k1)) (lt_irrefl _)
      · have := kid_order c1 hlt29 k1 h
        omega
    show (rangeBoundaries _ _ _ _ _).testBit n = true ↔ _
    rw [show (nca l u).level + 1 - (a.level + 1) = (nca l u).level - a.level by omega,
      rangeBoundaries_bit hd hlq huq hlt29 hsame hids hn _ _ _ (by omega),
      ← ancestor_of_subset hd0 ha hlq.1 hla, hall]
    unfold Between RangeTouches
    simp

/-- The lower left cell and the one diagonal to it, seen from the quadrant of level 28 which they
span: of the four corners the range touches all; from the root it touches two faces and a corner. -/
example : Valid (⟨![0, 0], 28⟩ : Quad 2) ∧ IsCell (⟨![0, 0], 29⟩ : Quad 2) ∧ IsCell (⟨![2, 2], 29⟩ : Quad 2) ∧
    Spec.start (⟨![0, 0], 29⟩ : Quad 2) < Spec.start (⟨![2, 2], 29⟩ : Quad 2) ∧
    findRangeBoundaries (some (⟨![0, 0], 29⟩ : Quad 2)) (some ⟨![2, 2], 29⟩) 28 = 0xff ∧
    findRangeBoundaries (some (⟨![0, 0], 29⟩ : Quad 2)) (some ⟨![2, 2], 29⟩) 0 = 0x15 := by
  unfold IsCell
  rw [← isValid_iff, ← isValid_iff, ← isValid_iff]
  decide +kernel

/-- One end missing, in three dimensions: from a cell in the last child on. -/
example : Valid (⟨![0, 0, 0], 0⟩ : Quad 3) ∧ IsCell (⟨![536870912, 536870912, 536870914], 29⟩ : Quad 3) ∧
    findRangeBoundaries (some (⟨![536870912, 536870912, 536870914], 29⟩ : Quad 3)) none 0 = 0x0202222a := by
  unfold IsCell
  rw [← isValid_iff, ← isValid_iff]
  decide +kernel

/-! ## A range of one cell -/

theorem ancestorId_thirty {q : Quad d} (hq : IsCell q) : ancestorId q 30 = 0 := by
  apply bits_ext (ancestorId_lt _ _) (by positivity)
  intro i
  obtain ⟨y, hy⟩ := cell_two hq i
  rw [ancestorId_testBit q (by omega), hy]
  simp

theorem rangeBoundaries_single (hd : d = 2 ∨ d = 3) {q : Quad d} (hq : IsCell q) {n : ℕ}
    (hn : n < boundaryParts d) :
    ∀ m l mask, l + m = 29 → ((rangeBoundaries q q m (l + 1) mask).testBit n = true ↔
      mask.testBit n = true ∧ Between (ancestor q l) q q (boundaryPart d n) ∧ OnPart d (boundaryPart d n) 0) := by
  have hd0 : 0 < d := by omega
  intro m
  induction m with
  | zero =>
    intro l mask hl
    obtain rfl : l = 29 := by omega
    have e : ancestor q 29 = q := by rw [← hq.2]; exact ancestor_self hq.1.aligned
    have hb : Between (ancestor q 29) q q (boundaryPart d n) := by
      rw [e]; exact ⟨q, hq, le_rfl, le_rfl, le_rfl, touches_self q _⟩
    unfold rangeBoundaries
    split
    · rename_i h; subst h; simp
    · have hle : lastLevel q ≤ 29 + 1 := by have := (lastLevel_bits hq).1; omega
      simp only [endBoundaries, if_pos hle, ancestorId_thirty hq]
      have hc := cornerMask_bit hd (k := 0) (by positivity) hn
      simp only [Nat.testBit_or, Nat.testBit_and, Bool.or_eq_true, Bool.and_eq_true, hc]
      have : addCorners d mask (List.range' (0 + 1) (0 - (0 + 1))) 0 = 0 := rfl
      rw [this]
      simp
      tauto
  | succ m ih =>
    intro l mask hl
    obtain ⟨a1, a2, a3⟩ := cell_ancestor hq (l := l) (by omega)
    have hf := between_same hd0 a1 (by omega) hq hq a2 a2 rfl (boundaryPart d n)
    rw [a3, kid_ancestor hq (by omega)] at hf
    unfold rangeBoundaries
    split
    · rename_i h; subst h; simp
    · rw [ih (l + 1) _ (by omega), hf, Nat.testBit_and, Bool.and_eq_true,
        cornerMask_bit hd (ancestorId_lt _ _) hn]
      tauto

/-- **C56**, what happens for a range of one cell in a larger quadrant: only those touched parts are
reported which have no upper side, that is, those that meet the first corner of the quadrant. -/
theorem C56_single_cell (hd : d = 2 ∨ d = 3) (a : Quad d) (ha : Valid a) (hl : a.level < 29) (q : Quad d)
    (hq : IsCell q) (hqa : Cells q ⊆ Cells a) (n : ℕ) :
    (findRangeBoundaries (some q) (some q) a.level).testBit n = true ↔
      n < boundaryParts d ∧ RangeTouches a (some q) (some q) n ∧
        ∀ i : Fin d, boundaryPart d n i ≠ some true := by
  have hd0 : 0 < d := by omega
  by_cases hn : n < boundaryParts d
  swap
  · exact ⟨fun h => absurd (findRangeBoundaries_within hd _ _ _ _ h) hn, fun h => absurd h.1 hn⟩
  simp only [hn, true_and]
  have hall : (allBoundaries d).testBit n = true := by rw [allBoundaries_bit hd]; simpa using hn
  obtain ⟨c1, c2, -, c4, -⟩ := C07_nca_valid hd0 q q hq.1 hq.1
  have hnca : (nca q q).level = 29 := by
    have h1 := ((cells_subset_iff hd0 hq.1.aligned c1.aligned).mp (c4 q hq.1.aligned le_rfl le_rfl)).1
    have h2 := c1.1
    rw [hq.2] at h1
    omega
  unfold findRangeBoundaries
  rw [if_neg (show ¬ a.level = QMAXLEVEL by unfold QMAXLEVEL; omega)]
  show (rangeBoundaries _ _ _ _ _).testBit n = true ↔ _
  rw [hnca, rangeBoundaries_single hd hq hn _ _ _ (by omega), ← ancestor_of_subset hd0 ha hq.1 hqa, hall]
  have h0 : OnPart d (boundaryPart d n) 0 ↔ ∀ i : Fin d, boundaryPart d n i ≠ some true := by
    unfold OnPart
    apply forall_congr'
    intro i
    rcases boundaryPart d n i with _ | _ | _ <;> simp
  rw [h0]
  unfold Between RangeTouches
  simp

/-- **C56**, counterexample: the last cell of the tree alone touches two faces and a corner, and nothing is
reported. -/
theorem C56_single_cell_missed :
    IsCell (⟨![1073741822, 1073741822], 29⟩ : Quad 2) ∧
    findRangeBoundaries (some (⟨![1073741822, 1073741822], 29⟩ : Quad 2)) (some ⟨![1073741822, 1073741822], 29⟩) 0 = 0 ∧
    ∀ n ∈ [1, 3, 7], RangeTouches (⟨![0, 0], 0⟩ : Quad 2) (some ⟨![1073741822, 1073741822], 29⟩)
      (some ⟨![1073741822, 1073741822], 29⟩) n := by
  have hc : IsCell (⟨![1073741822, 1073741822], 29⟩ : Quad 2) := by
    unfold IsCell; rw [← isValid_iff]; decide +kernel
  have hr : Valid (⟨![0, 0], 0⟩ : Quad 2) := by rw [← isValid_iff]; decide +kernel
  refine ⟨hc, by decide +kernel, fun n hn => ?_⟩
  refine ⟨_, hc, ?_, ?_, ?_, ?_⟩
  · rw [valid_subset_iff (by norm_num) hr hc.1]; decide +kernel
  · rintro l ⟨⟩; exact le_rfl
  · rintro l ⟨⟩; exact le_rfl
  · intro i
    simp only [List.mem_cons, List.not_mem_nil, or_false] at hn
    rcases hn with rfl | rfl | rfl <;> fin_cases i <;>
      simp [boundaryPart, Spec.side, show Nat.testBit 3 1 = true by decide]

end P4est
