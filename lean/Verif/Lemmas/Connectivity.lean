import Mathlib.Data.Fin.VecNotation
import Mathlib.Tactic.FinCases
import Verif.Model.Connectivity
import Verif.Spec.Glue
import Verif.Lemmas.Interval

/-! # Closed form of the face transformation -/

namespace P4est

open Spec

variable {d : ℕ}

/-- The coordinate of axis `a`. -/
def axis (x : Fin d → ℤ) (a : ℕ) : ℤ := if h : a < d then x ⟨a, h⟩ else 0

theorem axis_val (x : Fin d → ℤ) (i : Fin d) : axis x i = x i := by
  unfold axis; rw [dif_pos i.2]

/-- What the transformation of face `f` to face `nf` looks like. -/
structure FTGood (d f nf : ℕ) (ft : FTransform) : Prop where
  dim : d = 2 ∨ d = 3
  my0 : ft.my0 < d
  my1 : d = 3 → ft.my1 < d ∧ ft.my1 ≠ ft.my0 ∧ ft.my1 ≠ ft.my2
  my2 : ft.my2 < d
  myne : ft.my0 ≠ ft.my2
  t0 : ft.target0 < d
  t1 : d = 3 → ft.target1 < d ∧ ft.target1 ≠ ft.target0 ∧ ft.target1 ≠ ft.target2
  t2 : ft.target2 < d
  tne : ft.target0 ≠ ft.target2
  myf : ft.my2 = f / 2
  tf : ft.target2 = nf / 2
  rev : ft.reverse2 = 2 * (f % 2) + nf % 2

instance (d f nf : ℕ) (ft : FTransform) : Decidable (FTGood d f nf ft) :=
  decidable_of_iff ((d = 2 ∨ d = 3) ∧ ft.my0 < d ∧ (d = 3 → ft.my1 < d ∧ ft.my1 ≠ ft.my0 ∧ ft.my1 ≠ ft.my2) ∧
      ft.my2 < d ∧ ft.my0 ≠ ft.my2 ∧ ft.target0 < d ∧
      (d = 3 → ft.target1 < d ∧ ft.target1 ≠ ft.target0 ∧ ft.target1 ≠ ft.target2) ∧
      ft.target2 < d ∧ ft.target0 ≠ ft.target2 ∧ ft.my2 = f / 2 ∧ ft.target2 = nf / 2 ∧
      ft.reverse2 = 2 * (f % 2) + nf % 2)
    ⟨fun ⟨a, b, c, d, e, f, g, h, i, j, k, l⟩ => ⟨a, b, c, d, e, f, g, h, i, j, k, l⟩,
     fun ⟨a, b, c, d, e, f, g, h, i, j, k, l⟩ => ⟨a, b, c, d, e, f, g, h, i, j, k, l⟩⟩

/-- Value along a tangential axis. -/
def tangent (r : ℕ) (mh v : ℤ) : ℤ := if r = 0 then v else rootLen + mh - v

/-- Value along the normal axis. -/
def normal (r : ℕ) (mh v : ℤ) : ℤ :=
  match r with
  | 0 => mh - v
  | 1 => v + rootLen
  | 2 => v - rootLen
  | _ => rootLen + (rootLen + mh) - v

/-- The result of the transformation. -/
def faceImage (ft : FTransform) (mh : ℤ) (x : Fin d → ℤ) : Fin d → ℤ := fun i =>
  if (i : ℕ) = ft.target0 then tangent ft.reverse0 mh (axis x ft.my0)
  else if (i : ℕ) = ft.target2 then normal ft.reverse2 mh (axis x ft.my2)
  else tangent ft.reverse1 mh (axis x ft.my1)

theorem FTGood.assign {f nf : ℕ} {ft : FTransform} (h : FTGood d f nf ft) (mem : Fin d → ℤ) (mh : ℤ) (x : Fin d → ℤ) :
    faceAssign mem ft mh x = some (faceImage ft mh x) := by
  have h2 : faceNormalValue ft.reverse2 mh (axis x ft.my2) = some (normal ft.reverse2 mh (axis x ft.my2)) := by
    have := h.rev
    have hlt : ft.reverse2 < 4 := by omega
    unfold faceNormalValue normal
    generalize ft.reverse2 = r at *
    match r, hlt with
    | 0, _ => rfl
    | 1, _ => rfl
    | 2, _ => rfl
    | 3, _ => rfl
  have hr : ∀ a, a < d → readAxis x a = some (axis x a) := by
    intro a ha; unfold readAxis axis; rw [dif_pos ha, dif_pos ha]
  unfold faceAssign faceTangential
  rw [hr _ h.my0, hr _ h.my2]
  simp only [Option.bind_eq_bind, Option.bind_some]
  rw [h2]
  unfold writeAxis
  rw [dif_pos h.t0]
  simp only [Option.bind_some, dif_pos h.t2]
  rcases h.dim with hd | hd
  · rw [if_neg (by omega)]
    simp only [Option.bind_some]
    rw [Option.some.injEq]
    funext i
    unfold faceImage
    have := h.tne
    have := h.t0
    have := h.t2
    have := i.2
    by_cases h0 : (i : ℕ) = ft.target0
    · rw [if_pos h0, Function.update_of_ne (by intro h; rw [h] at h0; simp at h0; omega), show i = ⟨ft.target0, h.t0⟩ from Fin.ext h0,
        Function.update_self]
      rfl
    · rw [if_neg h0, if_pos (show (i : ℕ) = ft.target2 by omega), show i = ⟨ft.target2, h.t2⟩ from Fin.ext (by show (i : ℕ) = ft.target2; omega), Function.update_self]
  · rw [if_pos hd, hr _ (h.my1 hd).1]
    simp only [Option.bind_some]
    rw [dif_pos (h.t1 hd).1]
    simp only [Option.bind_some]
    rw [Option.some.injEq]
    funext i
    unfold faceImage
    have := h.tne
    have := h.t0
    have := h.t2
    have := h.t1 hd
    have := i.2
    by_cases h0 : (i : ℕ) = ft.target0
    · rw [if_pos h0, Function.update_of_ne (by intro h; rw [h] at h0; simp at h0; omega),
        Function.update_of_ne (by intro h; rw [h] at h0; simp at h0; omega), show i = ⟨ft.target0, h.t0⟩ from Fin.ext h0,
        Function.update_self]
      rfl
    · rw [if_neg h0]
      by_cases h2 : (i : ℕ) = ft.target2
      · rw [if_pos h2, show i = ⟨ft.target2, h.t2⟩ from Fin.ext h2, Function.update_self]
      · rw [if_neg h2, Function.update_of_ne (by intro h; rw [h] at h2; simp at h2),
          show i = ⟨ft.target1, (h.t1 hd).1⟩ from Fin.ext (by show (i : ℕ) = ft.target1; omega), Function.update_self]
        rfl

/-- A statement about all axes of the target. -/
theorem FTGood.all_target {f nf : ℕ} {ft : FTransform} (h : FTGood d f nf ft) (p : Fin d → Prop) :
    (∀ i, p i) ↔ p ⟨ft.target0, h.t0⟩ ∧ p ⟨ft.target2, h.t2⟩ ∧ ∀ hd : d = 3, p ⟨ft.target1, (h.t1 hd).1⟩ := by
  refine ⟨fun hp => ⟨hp _, hp _, fun _ => hp _⟩, fun ⟨h0, h2, h1⟩ i => ?_⟩
  have a1 := h.tne
  have a2 := h.t0
  have a3 := h.t2
  have a4 := i.2
  by_cases e0 : (i : ℕ) = ft.target0
  · rwa [show i = ⟨ft.target0, h.t0⟩ from Fin.ext e0]
  · by_cases e2 : (i : ℕ) = ft.target2
    · rwa [show i = ⟨ft.target2, h.t2⟩ from Fin.ext e2]
    · rcases h.dim with hd | hd
      · omega
      · have a5 := h.t1 hd
        rw [show i = ⟨ft.target1, (h.t1 hd).1⟩ from Fin.ext (by show (i : ℕ) = ft.target1; omega)]
        exact h1 hd

/-- A statement about all axes of the source. -/
theorem FTGood.all_my {f nf : ℕ} {ft : FTransform} (h : FTGood d f nf ft) (p : Fin d → Prop) :
    (∀ i, p i) ↔ p ⟨ft.my0, h.my0⟩ ∧ p ⟨ft.my2, h.my2⟩ ∧ ∀ hd : d = 3, p ⟨ft.my1, (h.my1 hd).1⟩ := by
  refine ⟨fun hp => ⟨hp _, hp _, fun _ => hp _⟩, fun ⟨h0, h2, h1⟩ i => ?_⟩
  have a1 := h.myne
  have a2 := h.my0
  have a3 := h.my2
  have a4 := i.2
  by_cases e0 : (i : ℕ) = ft.my0
  · rwa [show i = ⟨ft.my0, h.my0⟩ from Fin.ext e0]
  · by_cases e2 : (i : ℕ) = ft.my2
    · rwa [show i = ⟨ft.my2, h.my2⟩ from Fin.ext e2]
    · rcases h.dim with hd | hd
      · omega
      · have a5 := h.my1 hd
        rw [show i = ⟨ft.my1, (h.my1 hd).1⟩ from Fin.ext (by show (i : ℕ) = ft.my1; omega)]
        exact h1 hd

theorem FTGood.image0 {f nf : ℕ} {ft : FTransform} (h : FTGood d f nf ft) (mh : ℤ) (x : Fin d → ℤ) :
    faceImage ft mh x ⟨ft.target0, h.t0⟩ = tangent ft.reverse0 mh (x ⟨ft.my0, h.my0⟩) := by
  unfold faceImage
  rw [if_pos rfl]
  congr 1
  exact axis_val x ⟨ft.my0, h.my0⟩

theorem FTGood.image2 {f nf : ℕ} {ft : FTransform} (h : FTGood d f nf ft) (mh : ℤ) (x : Fin d → ℤ) :
    faceImage ft mh x ⟨ft.target2, h.t2⟩ = normal ft.reverse2 mh (x ⟨ft.my2, h.my2⟩) := by
  unfold faceImage
  rw [if_neg h.tne.symm, if_pos rfl]
  congr 1
  exact axis_val x ⟨ft.my2, h.my2⟩

theorem FTGood.image1 {f nf : ℕ} {ft : FTransform} (h : FTGood d f nf ft) (hd : d = 3) (mh : ℤ) (x : Fin d → ℤ) :
    faceImage ft mh x ⟨ft.target1, (h.t1 hd).1⟩ = tangent ft.reverse1 mh (x ⟨ft.my1, (h.my1 hd).1⟩) := by
  unfold faceImage
  rw [if_neg (h.t1 hd).2.1, if_neg (h.t1 hd).2.2]
  congr 1
  exact axis_val x ⟨ft.my1, (h.my1 hd).1⟩

end P4est
