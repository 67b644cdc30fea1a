import Verif.Lemmas.ShiftCorner
import Verif.Spec.Corner

/-! # C98: quadrants at the corners of a tree -/

namespace P4est
open Spec

variable {d : ℕ}

theorem sum_flags {p : Fin d → Prop} [DecidablePred p] : (∑ i, if p i then 1 else 0) = d ↔ ∀ i, p i := by
  rw [← Finset.card_filter]
  constructor
  · intro h i
    have := Finset.eq_univ_of_card (Finset.univ.filter p) (by rw [h]; simp)
    exact (Finset.mem_filter.mp (this ▸ Finset.mem_univ i)).2
  · intro h
    rw [Finset.filter_true_of_mem fun i _ => h i]
    simp

/-- A multiple of the side that has a cell in common with a quadrant. -/
theorem cell_multiple {s c z : ℤ} (hs : 0 < s) (hc : s ∣ c) (hz : s ∣ z) : (c ≤ z ∧ z < c + s) ↔ c = z := by
  obtain ⟨a, rfl⟩ := hc
  obtain ⟨b, rfl⟩ := hz
  constructor
  · rintro ⟨h1, h2⟩
    have e1 : a ≤ b := by by_contra h; nlinarith
    have e2 : b < a + 1 := by by_contra h; nlinarith
    have : a = b := by omega
    rw [this]
  · intro h; rw [h]; constructor <;> omega

theorem side_divides_root (q : Quad d) : side q ∣ (2 : ℤ) ^ 30 := pow_dvd_pow 2 (by omega)

/-- `p4est_quadrant_touches_corner` with `inside` tells whether a quadrant of the tree contains the cell at
the corner. -/
theorem C98_touches_inside {q : Quad d} (hq : Valid q) (corner : ℕ) :
    touchesCorner q corner true = true ↔ cellInside d corner ∈ Cells q := by
  have h29 := hq.1
  unfold touchesCorner
  simp only [MAXLEVEL, show q.level ≠ 30 by omega, if_true, if_false, decide_eq_true_eq]
  rw [sum_flags]
  refine forall_congr' fun i => ?_
  unfold cellInside lastOffsetAt rootLen MAXLEVEL
  rw [qlen_eq_side]
  have h1 := side_pos q
  have h2 := hq.2.1.2 i
  cases corner.testBit i
  · simp only [Bool.false_eq_true, if_false]
    exact (cell_multiple h1 h2 (dvd_zero _)).symm
  · simp only [if_true]
    have h3 : q.c i ≤ 2 ^ 30 - side q := by
      obtain ⟨a, ha⟩ := h2
      obtain ⟨b, hb⟩ := side_divides_root q
      have h4 := (hq.2.2 i).2
      rw [ha, hb] at *
      have : a < b := by by_contra h; nlinarith
      nlinarith
    omega

/-- Without `inside` it tells whether a quadrant contains the cell diagonally across the corner. -/
theorem C98_touches_outside {q : Quad d} (hq : Extended q) (corner : ℕ) :
    touchesCorner q corner false = true ↔ cellAcross d corner ∈ Cells q := by
  have h29 := hq.1
  unfold touchesCorner
  simp only [MAXLEVEL, show q.level ≠ 30 by omega, if_false, decide_eq_true_eq, Bool.false_eq_true]
  rw [sum_flags]
  refine forall_congr' fun i => ?_
  unfold cellAcross rootLen MAXLEVEL
  rw [qlen_eq_side]
  have h1 := side_pos q
  have h2 := hq.2.1.2 i
  cases corner.testBit i
  · simp only [Bool.false_eq_true, if_false]
    obtain ⟨a, ha⟩ := h2
    rw [ha]
    constructor
    · intro h; rw [h]; constructor <;> omega
    · rintro ⟨h3, h4⟩
      have e1 : a < 0 := by by_contra h; nlinarith
      have e2 : -1 ≤ a := by by_contra h; nlinarith
      have : a = -1 := by omega
      rw [this]; ring
  · simp only [if_true]
    exact (cell_multiple h1 h2 (side_divides_root q)).symm

/-- Of two quadrants with a common cell the coarser contains the finer. -/
theorem cells_nested {u v : Quad d} (hu : Aligned u) (hv : Aligned v) (hl : u.level ≤ v.level) {x : Fin d → ℤ}
    (h1 : x ∈ Cells u) (h2 : x ∈ Cells v) : Cells v ⊆ Cells u := by
  apply cells_subset hu hv hl
  rw [mem_cells hu]
  intro i
  have := (overlap_iff hu hv).mp ⟨x, h1, h2⟩ i
  rw [Nat.min_eq_left hl] at this
  exact this.symm

theorem atEnd_valid {corner l : ℕ} (hl : l ≤ 29) : Valid (atEnd d corner l) := by
  refine ⟨hl, fromEnd_aligned (b := fun i => corner.testBit i) (e := fun _ => 0) (by show l ≤ 30; omega) fun _ => rfl, fun i => ?_⟩
  have h30 := pow_all (l := l) (by omega)
  have hP : (0 : ℤ) < 2 ^ (30 - l) := by positivity
  have hK : (1 : ℤ) ≤ 2 ^ l := one_le_pow₀ (by norm_num)
  unfold atEnd fromEnd
  simp only
  rw [← h30]
  generalize (2 : ℤ) ^ l = K at *
  generalize (2 : ℤ) ^ (30 - l) = P at *
  generalize corner.testBit (i : ℕ) = b
  cases b
  · simp only [Bool.false_eq_true, if_false]; constructor <;> nlinarith
  · simp only [if_true]; constructor <;> nlinarith

theorem atEnd_mem {corner l : ℕ} (hl : l ≤ 29) : cellInside d corner ∈ Cells (atEnd d corner l) := by
  intro i
  have h30 := pow_all (l := l) (by omega)
  have hP : (0 : ℤ) < 2 ^ (30 - l) := by positivity
  unfold cellInside atEnd fromEnd side
  simp only
  rw [← h30]
  generalize (2 : ℤ) ^ l = K at *
  generalize (2 : ℤ) ^ (30 - l) = P at *
  generalize corner.testBit (i : ℕ) = b
  cases b
  · simp only [Bool.false_eq_true, if_false]; constructor <;> nlinarith
  · simp only [if_true]; constructor <;> nlinarith

/-- Every valid quadrant is so and so many quadrants away from a corner. -/
theorem exists_fromEnd {q : Quad d} (hq : Valid q) (corner : ℕ) :
    ∃ e : Fin d → ℤ, (∀ i, q.c i = fromEnd (corner.testBit i) q.level (e i)) ∧ ∀ i, 0 ≤ e i ∧ e i < 2 ^ q.level := by
  have hP : (0 : ℤ) < 2 ^ (30 - q.level) := by positivity
  have h30 := pow_all (l := q.level) (by have := hq.1; omega)
  have hn : ∀ i, 0 ≤ q.c i / 2 ^ (30 - q.level) ∧ q.c i / 2 ^ (30 - q.level) < 2 ^ q.level := fun i => by
    have h1 := hq.2.2 i
    refine ⟨Int.ediv_nonneg h1.1 hP.le, Int.ediv_lt_of_lt_mul hP ?_⟩
    rw [mul_comm, h30]; exact h1.2
  refine ⟨fun i => if corner.testBit i then 2 ^ q.level - 1 - q.c i / 2 ^ (30 - q.level) else q.c i / 2 ^ (30 - q.level),
    fun i => ?_, fun i => ?_⟩
  · have := hq.aligned.c_eq i
    unfold fromEnd
    dsimp only
    generalize corner.testBit (i : ℕ) = b
    cases b
    · simpa using this
    · simpa using this
  · have := hn i
    dsimp only
    split <;> omega

/-- C98.  `p4est_quadrant_shift_corner` ends without a failed assertion for every valid quadrant `q` other
than the root, and returns the leaf at the corner of the coarsest corner-balanced mesh of the tree that
is as fine as `q` where `q` is.  That is: the result is a valid quadrant that touches the corner from
the inside; in every corner-balanced mesh of the tree that has no quadrant properly around `q`, the quadrant
at the corner is the result or inside it; and there is such a mesh that has the result as a quadrant. -/
theorem C98_shift_corner (hd : 0 < d) {q : Quad d} (hq : Valid q) (h0 : 0 < q.level) (corner : ℕ) :
    ∃ r, shiftCorner q corner = some r ∧ Valid r ∧ touchesCorner r corner true = true ∧
      (∀ U, Paves (TreeBox d) U → GradedBy d U → (∀ u ∈ U, ¬ Cells q ⊂ Cells u) →
        ∀ u ∈ U, cellInside d corner ∈ Cells u → Cells u ⊆ Cells r) ∧
      ∃ U, Paves (TreeBox d) U ∧ GradedBy d U ∧ (∀ u ∈ U, ¬ Cells q ⊂ Cells u) ∧ r ∈ U := by
  have h29 := hq.1
  obtain ⟨e, hc, he⟩ := exists_fromEnd hq corner
  obtain ⟨j, hj, hr, ha, hb⟩ := shiftLoop_spec corner q.level q e h0 h29 rfl hc fun i => ⟨by have := he i; omega, (he i).2⟩
  have hrv : Valid (atEnd d corner (q.level - j)) := atEnd_valid (by omega)
  have hpv : Valid (atEnd d corner (q.level - j - 1)) := atEnd_valid (by omega)
  have hmem : cellInside d corner ∈ Cells (atEnd d corner (q.level - j)) := atEnd_mem (by omega)
  have hpmem : cellInside d corner ∈ Cells (atEnd d corner (q.level - j - 1)) := atEnd_mem (by omega)
  have hS : ∀ s ∈ ({q} : Set (Quad d)), Valid s := fun s hs => by rw [Set.mem_singleton_iff.mp hs]; exact hq
  have hdiv : Divides (TreeBox d) d {q} (atEnd d corner (q.level - j - 1)) := by
    rw [divides_treeBox hd hS hpv]
    refine ⟨q, rfl, (forces_atEnd (by omega) (fun i => (he i).1) hc).mpr ⟨by omega, fun i => ?_⟩⟩
    rw [show q.level - (q.level - j - 1) + 1 = j + 2 by omega]
    exact ha i
  have hnot : ¬ Divides (TreeBox d) d {q} (atEnd d corner (q.level - j)) := by
    rw [divides_treeBox hd hS hrv]
    rintro ⟨s, hs, hf⟩
    rw [Set.mem_singleton_iff.mp hs, forces_atEnd (by omega) (fun i => (he i).1) hc] at hf
    obtain ⟨i, hi⟩ := hb (by omega)
    have := hf.2 i
    rw [show q.level - (q.level - j) + 1 = j + 1 by omega] at this
    omega
  have hfirst : ∀ U, Paves (TreeBox d) U → GradedBy d U → (∀ u ∈ U, ¬ Cells q ⊂ Cells u) →
        ∀ u ∈ U, cellInside d corner ∈ Cells u → Cells u ⊆ Cells (atEnd d corner (q.level - j)) := by
    intro U hU hg hn u hu hm
    have hua := (hU.legal u hu).1
    have h2 := hdiv U hU hg (fun s hs => by rw [Set.mem_singleton_iff.mp hs]; exact hn) u hu
    refine cells_nested hrv.aligned hua ?_ hmem hm
    by_contra hlt
    refine h2 (cells_nested hua hpv.aligned ?_ hm hpmem)
    have h3 : ¬ q.level - j ≤ u.level := hlt
    show u.level ≤ q.level - j - 1
    omega
  refine ⟨_, hr, hrv, (C98_touches_inside hrv corner).mpr hmem, hfirst, ?_⟩
  unfold Divides at hnot
  push Not at hnot
  obtain ⟨U, hU, hg, hn, u, hu, hsub⟩ := hnot
  refine ⟨U, hU, hg, hn q rfl, ?_⟩
  have := cells_inj hd (hU.legal u hu).1 hrv.aligned (Set.Subset.antisymm (hfirst U hU hg (hn q rfl) u hu (hsub hmem)) hsub)
  rwa [← this]

/-- The documentation allows every valid quadrant, but the root has no sibling: an assertion fails. -/
theorem C98_root (corner : ℕ) {q : Quad d} (h : q.level = 0) : shiftCorner q corner = none := by
  unfold shiftCorner
  rw [h]
  rfl

/-- Number 20 of level 5 along both axes: coarsened three times to the lower corner, twice to the upper. -/
example : Valid (⟨fun _ => 20 * 2 ^ 25, 5⟩ : Quad 2) ∧ 0 < (⟨fun _ => 20 * 2 ^ 25, 5⟩ : Quad 2).level ∧
    (shiftCorner (⟨fun _ => 20 * 2 ^ 25, 5⟩ : Quad 2) 0).map (fun r => (List.ofFn r.c, r.level)) = some ([0, 0], 2) ∧
    (shiftCorner (⟨fun _ => 20 * 2 ^ 25, 5⟩ : Quad 2) 3).map (fun r => (List.ofFn r.c, r.level)) =
      some ([2 ^ 30 - 2 ^ 27, 2 ^ 30 - 2 ^ 27], 3) := by
  refine ⟨isValid_iff.mp (by decide +kernel), by decide, by decide +kernel, by decide +kernel⟩

example : Extended (⟨fun i => if i = 0 then 2 ^ 30 else -2 ^ 27, 3⟩ : Quad 2) ∧
    touchesCorner (⟨fun i => if i = 0 then 2 ^ 30 else -2 ^ 27, 3⟩ : Quad 2) 1 false = true ∧
    touchesCorner (⟨fun i => if i = 0 then 2 ^ 30 else -2 ^ 27, 3⟩ : Quad 2) 2 false = false :=
  ⟨isExtended_iff.mp (by decide +kernel), by decide +kernel, by decide +kernel⟩

end P4est
