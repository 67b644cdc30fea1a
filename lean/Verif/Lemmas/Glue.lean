import Verif.Lemmas.Connectivity

/-! # The gluing map is unique -/

namespace P4est

open Spec

variable {d : ℕ}

/-- The form that a gluing map must have: axes permuted by `a`, with directions `s`. -/
def glueForm (f nf : ℕ) (a : Fin d → Fin d) (s : Fin d → Bool) (x : Fin d → ℤ) : Fin d → ℤ := fun i =>
  if (i : ℕ) = nf / 2 then normal (2 * (f % 2) + nf % 2) 0 (x (a i)) else if s i then x (a i) else 2 ^ 30 - x (a i)

/-- The two corners that the orientation speaks of. -/
def orientCorners (d f nf o : ℕ) : Option ℕ × Option ℕ :=
  if f ≤ nf then (faceCorner d f 0, faceCorner d nf o) else (faceCorner d f o, faceCorner d nf 0)

/-- The first of them goes to the second. -/
def goodCorner (f nf o : ℕ) (T : (Fin d → ℤ) → Fin d → ℤ) : Prop :=
  match orientCorners d f nf o with
  | (some k, some k') => ∀ i, T (cornerPoint k) i = cornerPoint k' i
  | _ => False

instance (f nf o : ℕ) (T : (Fin d → ℤ) → Fin d → ℤ) : Decidable (goodCorner f nf o T) := by
  unfold goodCorner; split <;> infer_instance

/-- Two maps agree on the origin and the unit vectors. -/
def sameFrame (T T' : (Fin d → ℤ) → Fin d → ℤ) : Prop := (∀ i, T 0 i = T' 0 i) ∧ ∀ j i, T (Pi.single j 1) i = T' (Pi.single j 1) i

instance (T T' : (Fin d → ℤ) → Fin d → ℤ) : Decidable (sameFrame T T') := by
  unfold sameFrame; infer_instance

def matchAxes (f nf : ℕ) (a : Fin d → Fin d) : Prop :=
  (∀ i : Fin d, (i : ℕ) = nf / 2 ↔ (a i : ℕ) = f / 2) ∧ ∀ i j, a i = a j → i = j

instance (f nf : ℕ) (a : Fin d → Fin d) : Decidable (matchAxes f nf a) := by unfold matchAxes; infer_instance

def hand3 (T : (Fin 3 → ℤ) → Fin 3 → ℤ) : Prop :=
  Matrix.det (Matrix.of fun i j : Fin 3 => T (Pi.single i 1) j - T 0 j) = 1

instance (T : (Fin 3 → ℤ) → Fin 3 → ℤ) : Decidable (hand3 T) := by
  unfold hand3; rw [Matrix.det_fin_three]; infer_instance

theorem glue_all2 : ∀ f nf : Fin 4, ∀ a : Fin 2 → Fin 2, matchAxes f nf a → ∀ o : Fin 2, ∀ ft ∈ expandFaceInternal 2 f nf o,
    ∀ s : Fin 2 → Bool, goodCorner f nf o (glueForm f nf a s) → sameFrame (glueForm f nf a s) (faceImage ft 0) := by
  decide +kernel

theorem glue_all3 : ∀ f nf : Fin 6, ∀ a : Fin 3 → Fin 3, matchAxes f nf a → ∀ o : Fin 4, ∀ ft ∈ expandFaceInternal 3 f nf o,
    ∀ s : Fin 3 → Bool, goodCorner f nf o (glueForm f nf a s) → hand3 (glueForm f nf a s) →
      sameFrame (glueForm f nf a s) (faceImage ft 0) := by
  decide +kernel

end P4est
