import Verif.Model.AncestorFace
import Verif.Lemmas.BalanceGeom

/-! # C100: descendants at the faces and corners of an ancestor -/

namespace P4est
open Spec

variable {d : ℕ}

theorem end_cell {s S c C : ℤ} (hs : 0 < s) (hsS : s ∣ S) (hc : s ∣ c) (hC : s ∣ C) (h1 : C ≤ c) (h2 : c + s ≤ C + S)
    (up : Bool) : c + (if up then s else 0) = C + (if up then S else 0) ↔
      c ≤ (if up then C + S - 1 else C) ∧ (if up then C + S - 1 else C) < c + s := by
  obtain ⟨a, rfl⟩ := hsS
  obtain ⟨b, rfl⟩ := hc
  obtain ⟨e, rfl⟩ := hC
  cases up
  · simp only [Bool.false_eq_true, if_false, add_zero]
    constructor
    · intro h; rw [h]; constructor <;> omega
    · rintro ⟨h3, _⟩; omega
  · simp only [if_true]
    omega

theorem ancestor_bounds (hd : 0 < d) {p q : Quad d} (hp : Aligned p) (hq : Aligned q) (h : isAncestor p q = true) :
    side q ∣ side p ∧ ∀ i, p.c i ≤ q.c i ∧ q.c i + side q ≤ p.c i + side p := by
  have hs := ((isAncestor_iff hd hp hq).mp h).1
  have hl := ((cells_subset_iff hd hp hq).mp hs).1
  refine ⟨pow_dvd_pow 2 (by omega), fun i => ?_⟩
  have h1 := hs (corner_mem q) i
  have h2 := @hs (fun i => q.c i + (side q - 1)) (fun i => by have := side_pos q; constructor <;> dsimp only <;> omega) i
  dsimp only at h2
  constructor
  · exact h1.1
  · omega

/-- `p4est_quadrant_is_ancestor_face` tells whether a descendant has a cell at the face of the ancestor: one
whose coordinate along the axis is the lowest, or the highest, of the ancestor. -/
theorem C100_face (hd : 0 < d) {p q : Quad d} (hp : Valid p) (hq : Valid q) (h : isAncestor p q = true) (i : Fin d)
    (up : Bool) :
    isAncestorFace q p i up = true ↔ ∃ x ∈ Cells q, x i = if up then p.c i + side p - 1 else p.c i := by
  obtain ⟨hdv, hb⟩ := ancestor_bounds hd hp.aligned hq.aligned h
  unfold isAncestorFace
  simp only [decide_eq_true_eq]
  simp only [qlen_eq_side]
  rw [end_cell (side_pos q) hdv (hq.aligned.2 i) (hdv.trans (hp.aligned.2 i)) (hb i).1 (hb i).2]
  constructor
  · intro hx
    refine ⟨Function.update q.c i (if up then p.c i + side p - 1 else p.c i), fun k => ?_, by simp⟩
    by_cases hk : k = i
    · subst hk; simp only [Function.update_self]; exact hx
    · simp only [Function.update_of_ne hk]; exact corner_mem q k
  · rintro ⟨x, hx, he⟩
    rw [← he]; exact hx i

/-- `p4est_quadrant_is_ancestor_corner` tells whether a descendant contains the cell of the ancestor at the corner;
and this is so when it is at the `d` faces of the ancestor that meet there. -/
theorem C100_corner (hd : 0 < d) {p q : Quad d} (hp : Valid p) (hq : Valid q) (h : isAncestor p q = true) (corner : ℕ) :
    (isAncestorCorner q p corner = true ↔
      (fun i : Fin d => if corner.testBit i then p.c i + side p - 1 else p.c i) ∈ Cells q) ∧
    (isAncestorCorner q p corner = true ↔ ∀ i : Fin d, isAncestorFace q p i (corner.testBit i) = true) := by
  obtain ⟨hdv, hb⟩ := ancestor_bounds hd hp.aligned hq.aligned h
  unfold isAncestorCorner isAncestorFace
  simp only [decide_eq_true_eq]
  simp only [qlen_eq_side]
  refine ⟨forall_congr' fun i => ?_, forall_congr' fun i => eq_comm⟩
  rw [eq_comm]
  exact end_cell (side_pos q) hdv (hq.aligned.2 i) (hdv.trans (hp.aligned.2 i)) (hb i).1 (hb i).2 _

/-- So at every finer level exactly one descendant is at a given corner of a quadrant. -/
theorem C100_unique (hd : 0 < d) {p : Quad d} (hp : Valid p) {l : ℕ} (hl : p.level < l) (hl29 : l ≤ 29) (corner : ℕ) :
    ∃ q, (Valid q ∧ q.level = l ∧ isAncestor p q = true ∧ isAncestorCorner q p corner = true) ∧
      ∀ r, Valid r → r.level = l → isAncestor p r = true → isAncestorCorner r p corner = true → r = q := by
  let x : Fin d → ℤ := fun i => if corner.testBit i then p.c i + side p - 1 else p.c i
  have hx : x ∈ Cells p := fun i => by
    have := side_pos p
    show p.c i ≤ (if corner.testBit i then p.c i + side p - 1 else p.c i) ∧
      (if corner.testBit i then p.c i + side p - 1 else p.c i) < p.c i + side p
    split <;> constructor <;> omega
  let q : Quad d := ⟨fun i => 2 ^ (30 - l) * (x i / 2 ^ (30 - l)), l⟩
  have hqa : Aligned q := ⟨by show l ≤ 30; omega, fun i => dvd_mul_right _ _⟩
  have hxq : x ∈ Cells q := (mem_cells hqa).mpr fun i => by
    show x i / 2 ^ (30 - l) = 2 ^ (30 - l) * (x i / 2 ^ (30 - l)) / 2 ^ (30 - l)
    rw [Int.mul_ediv_cancel_left _ (by positivity)]
  have hsub : Cells q ⊆ Cells p := by
    apply cells_subset hp.aligned hqa (by show p.level ≤ l; omega)
    rw [mem_cells hp.aligned]
    intro i
    have := (overlap_iff hp.aligned hqa).mp ⟨x, hx, hxq⟩ i
    rw [Nat.min_eq_left (by show p.level ≤ l; omega)] at this
    exact this.symm
  have hanc : isAncestor p q = true := (isAncestor_iff hd hp.aligned hqa).mpr
    ⟨hsub, fun h => by
      have := ((cells_subset_iff hd hqa hp.aligned).mp h).1
      have : l ≤ p.level := this
      omega⟩
  have hqv : Valid q := by
    refine ⟨hl29, hqa, fun i => ?_⟩
    have h1 := hsub (corner_mem q) i
    have h2 := hp.2.2 i
    refine ⟨h2.1.trans h1.1, ?_⟩
    have h3 : p.c i + side p ≤ 2 ^ 30 := by
      obtain ⟨a, ha⟩ := hp.aligned.2 i
      obtain ⟨b, hb⟩ : side p ∣ (2 : ℤ) ^ 30 := pow_dvd_pow 2 (by omega)
      have h4 := h2.2
      have h5 := side_pos p
      rw [ha, hb] at *
      have : a < b := by by_contra h; nlinarith
      nlinarith
    omega
  refine ⟨q, ⟨hqv, rfl, hanc, ((C100_corner hd hp hqv hanc corner).1).mpr hxq⟩, fun r hr hrl hra hrc => ?_⟩
  have hxr := ((C100_corner hd hp hr hra corner).1).mp hrc
  apply Quad.ext' _ hrl
  intro i
  have e1 := (mem_cells hr.aligned).mp hxr i
  have e2 := hr.aligned.c_eq i
  rw [hrl] at e1 e2
  rw [e2, ← e1]

example : Valid (⟨fun _ => 0, 1⟩ : Quad 2) ∧ Valid (⟨![2 ^ 29 - 2 ^ 26, 2 ^ 26], 4⟩ : Quad 2) ∧
    isAncestor (⟨fun _ => 0, 1⟩ : Quad 2) ⟨![2 ^ 29 - 2 ^ 26, 2 ^ 26], 4⟩ = true ∧
    isAncestorFace (⟨![2 ^ 29 - 2 ^ 26, 2 ^ 26], 4⟩ : Quad 2) ⟨fun _ => 0, 1⟩ 0 true = true ∧
    isAncestorFace (⟨![2 ^ 29 - 2 ^ 26, 2 ^ 26], 4⟩ : Quad 2) ⟨fun _ => 0, 1⟩ 1 false = false ∧
    isAncestorCorner (⟨![2 ^ 29 - 2 ^ 26, 0], 4⟩ : Quad 2) ⟨fun _ => 0, 1⟩ 1 = true :=
  ⟨isValid_iff.mp (by decide +kernel), isValid_iff.mp (by decide +kernel), by decide +kernel, by decide +kernel,
    by decide +kernel, by decide +kernel⟩

end P4est
