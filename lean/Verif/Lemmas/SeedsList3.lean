import Mathlib.Tactic.IntervalCases
import Verif.Lemmas.SeedsList

/-! # The list of seeds at a face in 3D -/

namespace P4est
open Spec

variable {k : ℕ}

/-- The quadrant beside, at a face. -/
def faceTemp (a : Quad 3) (face : ℕ) (j i : ℤ) : Quad 3 :=
  shiftBy a (tangentAt 3 (face / 2) 0) (tangentAt 3 (face / 2) 1) i j

/-- The test of the quadrant beside. -/
def faceTest (q a : Quad 3) (blevel face balance : ℕ) (j i : ℤ) : Bool × Quad 3 :=
  if i ≠ 0 ∧ j ≠ 0 then
    cornerCon q (if balance = 0 ∧ childId a = tableAt (faceCornersTable 3) face ((1 + j) + (1 + i) / 2).toNat then
      maskTo (faceTemp a face j i).c (blevel - 2) else faceTemp a face j i)
      (tableAt (faceCornersTable 3) face ((1 - j) + (1 - i) / 2).toNat) balance
  else edgeConBase q (faceTemp a face j i) (if i = 0 then tableAt faceEdgesTable face ((1 - j) / 2).toNat
        else tableAt faceEdgesTable face (2 + (1 - i) / 2).toNat) balance

/-- The entry for the quadrant beside. -/
def faceCell (q porig a : Quad 3) (blevel face balance : ℕ) (j i : ℤ) : Option (Quad 3) :=
  entryOf (leaves (faceTemp a face j i) porig) (faceTest q a blevel face balance j i)

theorem put_cell {add : Extra 3} {z : ℤ} {r : Bool × Quad 3} {lv : Bool} :
    (if lv then add else add.put z r) = fun n : ℕ => if (n : ℤ) = z then (entryOf lv r).or (add n) else add n := by
  funext n
  unfold Extra.put entryOf
  cases lv <;> cases r.1 <;> simp

theorem faceStep3_eq (q porig a : Quad 3) (blevel face balance : ℕ) (j i : ℤ) (h : ¬ (i = 0 ∧ j = 0)) (add : Extra 3) :
    faceStep3 q porig a blevel face balance j i add =
      fun n : ℕ => if (n : ℤ) = 4 + 3 * j + i then (faceCell q porig a blevel face balance j i).or (add n) else add n := by
  unfold faceCell
  rw [← put_cell]
  unfold faceStep3 faceTest
  rw [if_neg h]
  dsimp only
  by_cases h2 : i ≠ 0 ∧ j ≠ 0
  · rw [if_pos h2, if_pos h2]; rfl
  · rw [if_neg h2, if_neg h2]; rfl

theorem faceStep3_mid (q porig a : Quad 3) (blevel face balance : ℕ) (add : Extra 3) :
    faceStep3 q porig a blevel face balance 0 0 add = add := by
  unfold faceStep3
  rw [if_pos ⟨rfl, rfl⟩]

theorem faceLoop3_at (q porig a s0 : Quad 3) (blevel face balance : ℕ) (n : ℕ) :
    faceLoop3 q porig a blevel face balance (fun n => if n = 4 then some s0 else none) n =
      if n = 4 then some s0 else if n < 9 then
        faceCell q porig a blevel face balance ((n : ℤ) / 3 - 1) ((n : ℤ) % 3 - 1) else none := by
  unfold faceLoop3
  simp only [List.foldl_cons, List.foldl_nil, faceStep3_mid]
  rw [faceStep3_eq _ _ _ _ _ _ _ _ (by decide), faceStep3_eq _ _ _ _ _ _ _ _ (by decide), faceStep3_eq _ _ _ _ _ _ _ _ (by decide),
    faceStep3_eq _ _ _ _ _ _ _ _ (by decide), faceStep3_eq _ _ _ _ _ _ _ _ (by decide), faceStep3_eq _ _ _ _ _ _ _ _ (by decide),
    faceStep3_eq _ _ _ _ _ _ _ _ (by decide), faceStep3_eq _ _ _ _ _ _ _ _ (by decide)]
  by_cases h : n < 9
  · interval_cases n <;> simp
  · have h1 : ∀ z : ℤ, z < 9 → ¬ ((n : ℤ) = z) := fun z hz => by omega
    simp only [h1 _ (show (4 + 3 * 1 + 1 : ℤ) < 9 by norm_num), h1 _ (show (4 + 3 * 1 + 0 : ℤ) < 9 by norm_num),
      h1 _ (show (4 + 3 * 1 + -1 : ℤ) < 9 by norm_num), h1 _ (show (4 + 3 * 0 + 1 : ℤ) < 9 by norm_num),
      h1 _ (show (4 + 3 * 0 + -1 : ℤ) < 9 by norm_num), h1 _ (show (4 + 3 * -1 + 1 : ℤ) < 9 by norm_num),
      h1 _ (show (4 + 3 * -1 + 0 : ℤ) < 9 by norm_num), h1 _ (show (4 + 3 * -1 + -1 : ℤ) < 9 by norm_num), if_false, h]

theorem facePrune3_eq {d : ℕ} (b : ℕ) (add : Extra d) : facePrune3 b add =
    pruneStep b (pruneStep b (pruneStep b (pruneStep b add (-1) (-1)) (-1) 1) 1 (-1)) 1 1 := rfl

/-- One step of the removal. -/
theorem prune_step (b : ℕ) (add : Extra 3) (j i : ℤ) (n : ℕ) : pruneStep b add j i n =
    if (n : ℤ) = 4 + 3 * j + i ∧ ∃ s, add n = some s ∧ s.level < b ∧
      (add (4 + 3 * j).toNat ≠ none ∨ add (4 + i).toNat ≠ none) then none else add n := by
  unfold pruneStep
  by_cases hn : (n : ℤ) = 4 + 3 * j + i
  · have e : (4 + 3 * j + i).toNat = n := by omega
    rw [e]
    cases h : add n with
    | none => simp [h]
    | some s =>
      dsimp only
      by_cases hc : s.level < b ∧ (add (4 + 3 * j).toNat ≠ none ∨ add (4 + i).toNat ≠ none)
      · have h2 : (n : ℤ) = 4 + 3 * j + i ∧ ∃ s', some s = some s' ∧ s'.level < b ∧
          (add (4 + 3 * j).toNat ≠ none ∨ add (4 + i).toNat ≠ none) := ⟨hn, s, rfl, hc⟩
        rw [if_pos hc, if_pos h2, if_pos hn]
      · rw [if_neg hc, if_neg, h]
        rintro ⟨_, s', hs, h2⟩
        injection hs with hs
        subst hs
        exact hc h2
  · rw [if_neg (fun h => hn h.1)]
    cases h : add (4 + 3 * j + i).toNat with
    | none => rfl
    | some s =>
      dsimp only
      split
      · show (if (n : ℤ) = 4 + 3 * j + i then none else add n) = add n
        rw [if_neg hn]
      · rfl

/-- What the removal keeps. -/
theorem facePrune3_at (b : ℕ) (add : Extra 3) :
    (∀ n s, facePrune3 b add n = some s → add n = some s) ∧
    (∀ n s, add n = some s → n ≠ 0 → n ≠ 2 → n ≠ 6 → n ≠ 8 → facePrune3 b add n = some s) ∧
    (∀ up vp s, add (4 + 3 * sgn vp + sgn up).toNat = some s →
      facePrune3 b add (4 + 3 * sgn vp + sgn up).toNat = some s ∨
      (s.level < b ∧ (add (4 + 3 * sgn vp).toNat ≠ none ∨ add (4 + sgn up).toNat ≠ none))) := by
  rw [facePrune3_eq]
  have g1 := fun n => prune_step b add (-1) (-1) n
  generalize pruneStep b add (-1) (-1) = a1 at *
  have g2 := fun n => prune_step b a1 (-1) 1 n
  generalize pruneStep b a1 (-1) 1 = a2 at *
  have g3 := fun n => prune_step b a2 1 (-1) n
  generalize pruneStep b a2 1 (-1) = a3 at *
  have g4 := fun n => prune_step b a3 1 1 n
  generalize pruneStep b a3 1 1 = a4 at *
  have x1 : ∀ n, n ≠ 0 → a1 n = add n := fun n h => by rw [g1, if_neg (by omega)]
  have x2 : ∀ n, n ≠ 2 → a2 n = a1 n := fun n h => by rw [g2, if_neg (by omega)]
  have x3 : ∀ n, n ≠ 6 → a3 n = a2 n := fun n h => by rw [g3, if_neg (by omega)]
  have x4 : ∀ n, n ≠ 8 → a4 n = a3 n := fun n h => by rw [g4, if_neg (by omega)]
  refine ⟨?_, ?_, ?_⟩
  · intro n s h
    rw [g4] at h
    split at h
    · cases h
    rw [g3] at h
    split at h
    · cases h
    rw [g2] at h
    split at h
    · cases h
    rw [g1] at h
    split at h
    · cases h
    exact h
  · intro n s h h0 h2 h6 h8
    rw [x4 n h8, x3 n h6, x2 n h2, x1 n h0, h]
  · intro up vp s h
    cases up <;> cases vp
    · show a4 0 = some s ∨ _
      have h' : add 0 = some s := h
      rw [x4 _ (by omega), x3 _ (by omega), x2 _ (by omega), g1]
      split
      · rename_i hc
        right
        obtain ⟨_, s', e1, e2⟩ := hc
        rw [h'] at e1
        injection e1 with e1
        subst e1
        exact e2
      · left; exact h'
    · show a4 6 = some s ∨ _
      have h' : add 6 = some s := h
      rw [x4 _ (by omega), g3]
      split
      · rename_i hc
        right
        obtain ⟨_, s', e1, e2⟩ := hc
        rw [x2 _ (by omega), x1 _ (by omega), h'] at e1
        injection e1 with e1
        subst e1
        rw [x2 _ (by decide), x1 _ (by decide), x2 _ (by decide), x1 _ (by decide)] at e2
        exact e2
      · left; rw [x2 _ (by omega), x1 _ (by omega)]; exact h'
    · show a4 2 = some s ∨ _
      have h' : add 2 = some s := h
      rw [x4 _ (by omega), x3 _ (by omega), g2]
      split
      · rename_i hc
        right
        obtain ⟨_, s', e1, e2⟩ := hc
        rw [x1 _ (by omega), h'] at e1
        injection e1 with e1
        subst e1
        rw [x1 _ (by decide), x1 _ (by decide)] at e2
        exact e2
      · left; rw [x1 _ (by omega)]; exact h'
    · show a4 8 = some s ∨ _
      have h' : add 8 = some s := h
      rw [g4]
      split
      · rename_i hc
        right
        obtain ⟨_, s', e1, e2⟩ := hc
        rw [x3 _ (by omega), x2 _ (by omega), x1 _ (by omega), h'] at e1
        injection e1 with e1
        subst e1
        rw [x3 _ (by decide), x2 _ (by decide), x1 _ (by decide), x3 _ (by decide), x2 _ (by decide), x1 _ (by decide)] at e2
        exact e2
      · left; rw [x3 _ (by omega), x2 _ (by omega), x1 _ (by omega)]; exact h'

end P4est
