import Verif.Spec.ConnComplete
import Verif.Model.ConnComplete
import Mathlib.Data.List.Perm.Basic
import Mathlib.Data.List.Sort
import Mathlib.Tactic.IntervalCases

/-! # Lemmas: faces connected by their vertices -/

namespace P4est

open Spec

theorem bubbleFrom_spec : ∀ (l : List ℕ) (a : ℕ), ∃ init m, bubbleFrom a l = init ++ [m] ∧ (a :: l).Perm (init ++ [m]) ∧ ∀ z ∈ init, z ≤ m := by
  intro l
  induction l with
  | nil => intro a; exact ⟨[], a, rfl, List.Perm.refl _, by simp⟩
  | cons b l ih =>
    intro a
    unfold bubbleFrom
    split
    · rename_i h
      obtain ⟨i, m, h1, h2, h3⟩ := ih a
      refine ⟨b :: i, m, by rw [h1]; rfl, (List.Perm.swap b a l).trans (h2.cons b), ?_⟩
      have ha : a ≤ m := by
        have : a ∈ i ++ [m] := h2.subset (by simp)
        rcases List.mem_append.mp this with h | h
        · exact h3 a h
        · simp at h; omega
      intro z hz
      rcases List.mem_cons.mp hz with rfl | hz
      · omega
      · exact h3 z hz
    · rename_i h
      obtain ⟨i, m, h1, h2, h3⟩ := ih b
      refine ⟨a :: i, m, by rw [h1]; rfl, h2.cons a, ?_⟩
      have hb : b ≤ m := by
        have : b ∈ i ++ [m] := h2.subset (by simp)
        rcases List.mem_append.mp this with h | h
        · exact h3 b h
        · simp at h; omega
      intro z hz
      rcases List.mem_cons.mp hz with rfl | hz
      · omega
      · exact h3 z hz

theorem topidxBsort_aux : ∀ (i : ℕ) (A B : List ℕ), A.length = i + 1 → B.Pairwise (· ≤ ·) → (∀ a ∈ A, ∀ b ∈ B, a ≤ b) →
    (topidxBsort i (A ++ B)).Pairwise (· ≤ ·) ∧ (topidxBsort i (A ++ B)).Perm (A ++ B) := by
  intro i
  induction i with
  | zero =>
    intro A B hA hB hAB
    obtain ⟨a, rfl⟩ := List.length_eq_one_iff.mp hA
    refine ⟨?_, List.Perm.refl _⟩
    simp only [topidxBsort, List.singleton_append, List.pairwise_cons]
    exact ⟨fun b hb => hAB a (by simp) b hb, hB⟩
  | succ i ih =>
    intro A B hA hB hAB
    unfold topidxBsort
    rw [show i + 2 = A.length by omega, List.take_left, List.drop_left]
    obtain ⟨a, l, rfl⟩ : ∃ a l, A = a :: l := by
      cases A with
      | nil => simp at hA
      | cons a l => exact ⟨a, l, rfl⟩
    obtain ⟨init, m, h1, h2, h3⟩ := bubbleFrom_spec l a
    rw [show bubblePass (a :: l) = init ++ [m] from h1, List.append_assoc]
    have hlen : init.length = i + 1 := by have := h2.length_eq; simp at this hA; omega
    obtain ⟨g1, g2⟩ := ih init ([m] ++ B) hlen (by
      rw [List.singleton_append, List.pairwise_cons]
      exact ⟨fun b hb => hAB m (h2.symm.subset (by simp)) b hb, hB⟩) (by
      intro z hz b hb
      rcases List.mem_append.mp hb with h | h
      · simp at h; rw [h]; exact h3 z hz
      · exact hAB z (h2.symm.subset (by simp [hz])) b h)
    refine ⟨g1, g2.trans ?_⟩
    rw [← List.append_assoc]
    exact (h2.symm).append_right B

theorem topidxBsort_spec {l : List ℕ} (h : l ≠ []) :
    (topidxBsort (l.length - 1) l).Pairwise (· ≤ ·) ∧ (topidxBsort (l.length - 1) l).Perm l := by
  have h0 : 0 < l.length := List.length_pos_iff.mpr h
  have := topidxBsort_aux (l.length - 1) l [] (by omega) (by simp) (by simp)
  simpa using this

variable {d : ℕ}

theorem table_cornersOf (hd : d = 2 ∨ d = 3) {f : ℕ} (hf : f < 2 * d) : (faceCornersTable d)[f]? = some (cornersOf d f) := by
  rcases hd with rfl | rfl <;> interval_cases f <;> decide

theorem cornersOf_length (hd : d = 2 ∨ d = 3) {f : ℕ} (hf : f < 2 * d) : (cornersOf d f).length = 2 ^ (d - 1) := by
  rcases hd with rfl | rfl <;> interval_cases f <;> decide

theorem cornersOf_lt {f c : ℕ} (h : c ∈ cornersOf d f) : c < 2 ^ d := by
  unfold cornersOf at h; simp at h; exact h.1

theorem entry_cornersOf (hd : d = 2 ∨ d = 3) {f : ℕ} (hf : f < 2 * d) (j : ℕ) : entry (faceCornersTable d) f j = (cornersOf d f)[j]? := by
  unfold entry; rw [table_cornersOf hd hf]; rfl

theorem row_inj {n t t' f f' : ℕ} (hf : f < n) (hf' : f' < n) (h : n * t + f = n * t' + f') : t = t' ∧ f = f' := by
  have h1 : (n * t + f) / n = t := by rw [Nat.mul_add_div (by omega), Nat.div_eq_of_lt hf]; omega
  have h2 : (n * t' + f') / n = t' := by rw [Nat.mul_add_div (by omega), Nat.div_eq_of_lt hf']; omega
  have : t = t' := by rw [← h1, ← h2, h]
  subst this
  exact ⟨rfl, by omega⟩

theorem row_lt {n m t f : ℕ} (ht : t < m) (hf : f < n) : n * t + f < n * m := by
  calc n * t + f < n * t + n := by omega
    _ = n * (t + 1) := by ring
    _ ≤ n * m := Nat.mul_le_mul_left n ht

/-- The vertices of a face. -/
def vertsOf (d : ℕ) (ttv : List ℕ) (x : ℕ × ℕ) : List ℕ := (cornersOf d x.2).map fun c => (ttv[2 ^ d * x.1 + c]?).getD 0

theorem mapM_map {α β : Type} {f : α → Option β} {g : α → β} : ∀ {l : List α}, (∀ x ∈ l, f x = some (g x)) → l.mapM f = some (l.map g) := by
  intro l
  induction l with
  | nil => intro _; rfl
  | cons a l ih =>
    intro h
    rw [List.mapM_cons, h a (by simp), ih fun x hx => h x (by simp [hx])]
    rfl

variable {m : ℕ} {ttv : List ℕ}

theorem vertexAt_some {n : ℕ} (hlen : ttv.length = 2 ^ d * n) {t c : ℕ} (ht : t < n) (hc : c < 2 ^ d) :
    vertexAt d ttv t c = some ((ttv[2 ^ d * t + c]?).getD 0) := by
  unfold vertexAt
  rw [List.getElem?_eq_getElem (by rw [hlen]; exact row_lt ht hc)]
  rfl

theorem verts_map {n : ℕ} (hlen : ttv.length = 2 ^ d * n) {x : ℕ × ℕ} (ht : x.1 < n) :
    (cornersOf d x.2).map (vertexAt d ttv x.1) = (vertsOf d ttv x).map some := by
  unfold vertsOf
  rw [List.map_map]
  refine List.map_congr_left fun c hc => ?_
  exact vertexAt_some hlen ht (cornersOf_lt hc)

theorem sameFace_iff {n : ℕ} (hlen : ttv.length = 2 ^ d * n) {x y : ℕ × ℕ} (hx : x.1 < n) (hy : y.1 < n) :
    FaceMatch d ttv x y ↔ (vertsOf d ttv x).Perm (vertsOf d ttv y) := by
  unfold FaceMatch
  rw [verts_map hlen hx, verts_map hlen hy]
  exact List.map_perm_map_iff (Option.some_injective _)

/-- The key of a face. -/
def keyOf (d : ℕ) (ttv : List ℕ) (x : ℕ × ℕ) : List ℕ := topidxBsort (2 ^ (d - 1) - 1) (vertsOf d ttv x)

theorem faceKey_eq (hd : d = 2 ∨ d = 3) {n : ℕ} (hlen : ttv.length = 2 ^ d * n) {x : ℕ × ℕ} (hx : x.1 < n) (hf : x.2 < 2 * d) :
    faceKey d ttv x.1 x.2 = some (keyOf d ttv x) := by
  unfold faceKey keyOf
  have : (List.range (2 ^ (d - 1))).mapM (fun fc => do
      let c ← entry (faceCornersTable d) x.2 fc
      ttv[2 ^ d * x.1 + c]?) = some (vertsOf d ttv x) := by
    rw [mapM_map (g := fun fc => (ttv[2 ^ d * x.1 + ((cornersOf d x.2)[fc]?).getD 0]?).getD 0)]
    · unfold vertsOf
      congr 1
      apply List.ext_getElem
      · simp [cornersOf_length hd hf]
      · intro i h1 h2
        simp at h1 h2
        simp [h2]
    · intro fc hfc
      rw [List.mem_range, ← cornersOf_length hd hf] at hfc
      rw [entry_cornersOf hd hf, List.getElem?_eq_getElem hfc]
      exact vertexAt_some hlen hx (cornersOf_lt (List.getElem_mem hfc))
  rw [this]
  rfl

theorem vertsOf_length (hd : d = 2 ∨ d = 3) {x : ℕ × ℕ} (hf : x.2 < 2 * d) : (vertsOf d ttv x).length = 2 ^ (d - 1) := by
  unfold vertsOf; rw [List.length_map, cornersOf_length hd hf]

theorem key_iff (hd : d = 2 ∨ d = 3) {n : ℕ} (hlen : ttv.length = 2 ^ d * n) {x y : ℕ × ℕ} (hx : x.1 < n) (hxf : x.2 < 2 * d)
    (hy : y.1 < n) (hyf : y.2 < 2 * d) : keyOf d ttv x = keyOf d ttv y ↔ FaceMatch d ttv x y := by
  rw [sameFace_iff hlen hx hy]
  have h0 : 0 < 2 ^ (d - 1) := Nat.pow_pos (by decide)
  have hl1 := vertsOf_length (ttv := ttv) hd hxf
  have hl2 := vertsOf_length (ttv := ttv) hd hyf
  obtain ⟨p1, p2⟩ := topidxBsort_spec (l := vertsOf d ttv x) (by intro h; rw [h] at hl1; simp at hl1; omega)
  obtain ⟨q1, q2⟩ := topidxBsort_spec (l := vertsOf d ttv y) (by intro h; rw [h] at hl2; simp at hl2; omega)
  rw [hl1] at p1 p2
  rw [hl2] at q1 q2
  unfold keyOf
  constructor
  · intro h
    rw [h] at p2
    exact p2.symm.trans q2
  · intro h
    exact List.Perm.eq_of_pairwise (fun a b _ _ h1 h2 => le_antisymm h1 h2) p1 q1 ((p2.trans h).trans q2.symm)

/-- What the loop for the orientation finds. -/
theorem findOrientation_spec (hd : d = 2 ∨ d = 3) {n : ℕ} (hlen : ttv.length = 2 ^ d * n) {t f v : ℕ} (ht : t < n) (hf : f < 2 * d)
    (hv : ∃ j < 2 ^ (d - 1), (vertsOf d ttv (t, f))[j]? = some v) :
    ∃ r < 2 ^ (d - 1), findOrientation d ttv v t f 0 (2 ^ (d - 1)) = some r ∧ (vertsOf d ttv (t, f))[r]? = some v := by
  have aux : ∀ k r, r + k = 2 ^ (d - 1) → (∃ j, r ≤ j ∧ j < 2 ^ (d - 1) ∧ (vertsOf d ttv (t, f))[j]? = some v) →
      ∃ s < 2 ^ (d - 1), findOrientation d ttv v t f r k = some s ∧ (vertsOf d ttv (t, f))[s]? = some v := by
    intro k
    induction k with
    | zero => rintro r hr ⟨j, h1, h2, -⟩; omega
    | succ k ih =>
      rintro r hr ⟨j, h1, h2, h3⟩
      have hrl : r < (cornersOf d f).length := by rw [cornersOf_length hd hf]; omega
      have hva := vertexAt_some hlen ht (cornersOf_lt (List.getElem_mem hrl))
      have hvr : (vertsOf d ttv (t, f))[r]? = some ((ttv[2 ^ d * t + (cornersOf d f)[r]]?).getD 0) := by
        unfold vertsOf; rw [List.getElem?_map, List.getElem?_eq_getElem hrl]; rfl
      unfold vertexAt at hva
      unfold findOrientation
      rw [entry_cornersOf hd hf, List.getElem?_eq_getElem hrl]
      simp only [Option.bind_eq_bind, Option.bind_some]
      rw [hva]
      simp only [Option.bind_some]
      split
      · rename_i h
        exact ⟨r, by omega, rfl, by rw [hvr, h]⟩
      · rename_i h
        refine ih (r + 1) (by omega) ⟨j, ?_, h2, h3⟩
        rcases Nat.lt_or_ge r j with g | g
        · exact g
        · have : j = r := by omega
          subst this
          rw [hvr, Option.some.injEq] at h3
          exact absurd h3.symm h
  obtain ⟨j, h1, h2⟩ := hv
  exact aux _ 0 (by omega) ⟨j, Nat.zero_le _, h1, h2⟩

end P4est
