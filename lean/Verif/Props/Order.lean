import Verif.Lemmas.Compare
import Mathlib.Data.Fin.VecNotation

/-! # C01: quadrant comparison is the Morton order -/

namespace P4est
open Spec

variable {d : ℕ}

/-- C01. `p4est_quadrant_compare` is negative, zero, positive exactly as the first quadrant
precedes, equals, follows the second along the space-filling curve (coarser first at equal
corners).  All int32 coordinates, all levels, any dimension. -/
theorem C01_compare_is_curve_order (hd : 0 < d) (q r : Quad d) (hq : Int32 q.c) (hr : Int32 r.c) :
    (compare q r < 0 ↔ Before q r) ∧ (compare q r = 0 ↔ q = r) ∧ (0 < compare q r ↔ Before r q) :=
  ⟨compare_neg_iff hd hq hr, compare_eq_zero_iff hd hq hr, compare_pos_iff hd hq hr⟩

/-- C01. `p4est_coordinates_compare` returns -1, 0, 1 by curve position. -/
theorem C01_coordinates_compare (hd : 0 < d) (a b : Fin d → ℤ) (ha : Int32 a) (hb : Int32 b) :
    (coordsCompare a b = -1 ↔ curve a < curve b) ∧ (coordsCompare a b = 0 ↔ a = b) ∧
    (coordsCompare a b = 1 ↔ curve b < curve a) := by
  rcases coordsCompare_cases hd ha hb with ⟨h1, h2⟩ | ⟨h1, h2⟩ | ⟨h1, h2⟩
  · refine ⟨⟨fun _ => h1, fun _ => h2⟩, ⟨fun h => by omega, fun h => ?_⟩, ⟨fun h => by omega, fun h => by omega⟩⟩
    rw [h] at h1; omega
  · subst h1
    exact ⟨⟨fun h => by omega, fun h => by omega⟩, ⟨fun _ => rfl, fun _ => h2⟩, ⟨fun h => by omega, fun h => by omega⟩⟩
  · refine ⟨⟨fun h => by omega, fun h => by omega⟩, ⟨fun h => by omega, fun h => ?_⟩, ⟨fun _ => h1, fun _ => h2⟩⟩
    rw [h] at h1; omega

/-- C01. The comparison is a strict total order, as `qsort` and `bsearch` require:
antisymmetric sign, transitive, and zero only for equal quadrants. -/
theorem C01_compare_total_order (hd : 0 < d) (q r s : Quad d)
    (hq : Int32 q.c) (hr : Int32 r.c) (hs : Int32 s.c) :
    (compare q r < 0 ↔ 0 < compare r q) ∧
    (compare q r < 0 → compare r s < 0 → compare q s < 0) ∧
    (compare q r = 0 ↔ q = r) := by
  rw [compare_neg_iff hd hq hr, compare_pos_iff hd hr hq, compare_neg_iff hd hr hs,
    compare_neg_iff hd hq hs]
  exact ⟨Iff.rfl, Spec.Before.trans, compare_eq_zero_iff hd hq hr⟩

-- Non-vacuity: quadrants with and without negative coordinates, compared both ways.
example : Spec.Int32 (![-536870912, 1073741824] : Fin 2 → ℤ) := by unfold Spec.Int32; decide
example : compare (⟨![536870912, 0], 1⟩ : Quad 2) ⟨![0, 536870912], 1⟩ < 0 := by decide +kernel
example : compare (⟨![-536870912, 0], 1⟩ : Quad 2) ⟨![0, 536870912], 1⟩ > 0 := by decide +kernel
example : compare (⟨![0, 0, 536870912], 1⟩ : Quad 3) ⟨![536870912, 536870912, 0], 1⟩ > 0 := by
  decide +kernel
example : compare (⟨![0, 0, 0], 1⟩ : Quad 3) ⟨![0, 0, 0], 2⟩ < 0 := by decide +kernel

end P4est
