import Verif.Props.Curve
import Verif.Model.Neighbor
import Mathlib.Tactic.IntervalCases

/-! # C14, C15, C44: neighbors, midpoints and nodes -/

namespace P4est
namespace Spec

variable {d : ℕ}

/-- Outward unit normal of face `f` (faces `2 i` and `2 i + 1` are the lower and upper one of
axis `i`). -/
def faceNormal (f : ℕ) (i : Fin d) : ℤ :=
  if f = 2 * (i : ℕ) then -1 else if f = 2 * (i : ℕ) + 1 then 1 else 0

/-- Outward direction of corner `k`: bit `i` of `k` selects the upper end of axis `i`. -/
def cornerDir (k : ℕ) (i : Fin d) : ℤ := if k.testBit i then 1 else -1

/-- Outward direction of edge `e` of a cube: edges `4 a ... 4 a + 3` are parallel to axis `a`; the
two bits of `e` belong to the other two axes in increasing order. -/
def edgeDir (e : ℕ) : Fin 3 → ℤ :=
  let b0 : ℤ := if e.testBit 0 then 1 else -1
  let b1 : ℤ := if e.testBit 1 then 1 else -1
  if e / 4 = 0 then ![0, b0, b1] else if e / 4 = 1 then ![b0, 0, b1] else ![b0, b1, 0]

/-- Translate of a cell. -/
def move (v : Fin d → ℤ) (p : Fin d → ℤ) : Fin d → ℤ := fun i => p i + v i

end Spec

open Spec

variable {d : ℕ}

theorem xor_one_eq (f : ℕ) : f ^^^ 1 = if f % 2 = 0 then f + 1 else f - 1 := by
  have h1 : (f ^^^ 1) / 2 = f / 2 := by
    rw [Nat.xor_div_two]; simp
  have h2 : (f ^^^ 1) % 2 = (f + 1) % 2 := by
    exact Nat.xor_mod_two_eq
  split <;> omega

theorem translate_spec {q r : Quad d} {v : Fin d → ℤ} (hl : r.level = q.level)
    (hc : ∀ i, r.c i = q.c i + v i * side q) :
    (∀ p, p ∈ Cells q ↔ move (fun i => v i * side q) p ∈ Cells r) ∧
    (Valid q → (∀ i, -1 ≤ v i ∧ v i ≤ 1) → Extended r) := by
  have hs : side r = side q := by unfold side; rw [hl]
  refine ⟨fun p => ?_, fun hq hv => ?_⟩
  · unfold Cells move
    simp only [Set.mem_ofPred_eq]
    apply forall_congr'
    intro i
    rw [hs, hc i]
    constructor <;> intro h <;> constructor <;> linarith [h.1, h.2]
  · refine ⟨by rw [hl]; exact hq.1, ⟨by rw [hl]; exact hq.aligned.1, fun i => ?_⟩, fun i => ?_⟩
    · rw [hs, hc i]
      exact dvd_add (hq.aligned.2 i) (Dvd.intro_left _ rfl)
    · have h1 := hq.2.2 i
      have h2 := hv i
      rw [hc i]
      have hs0 := side_pos q
      have hdvd : side q ∣ 2 ^ 30 := by unfold side; exact pow_dvd_pow _ (by omega)
      have hle : side q ≤ 2 ^ 30 := Int.le_of_dvd (by norm_num) hdvd
      have h3 : v i * side q ≤ 1 * side q := mul_le_mul_of_nonneg_right h2.2 hs0.le
      have h4 : -1 * side q ≤ v i * side q := mul_le_mul_of_nonneg_right h2.1 hs0.le
      constructor
      · linarith
      · have : (2:ℤ) ^ 31 = 2 ^ 30 + 2 ^ 30 := by norm_num
        linarith

/-- C14. The face neighbor is the translate of the quadrant by its side length along the outward
normal of the face: it is legal, of the same size, and its neighbor across the opposite face is
the quadrant itself. -/
theorem C14_face_neighbor (q : Quad d) (hq : Valid q) (f : ℕ) :
    (faceNeighbor q f).level = q.level ∧ Extended (faceNeighbor q f) ∧
    (∀ p, p ∈ Cells q ↔ move (fun i => faceNormal f i * side q) p ∈ Cells (faceNeighbor q f)) ∧
    faceNeighbor (faceNeighbor q f) (f ^^^ 1) = q := by
  have hc : ∀ i, (faceNeighbor q f).c i = q.c i + faceNormal f i * side q := by
    intro i
    unfold faceNeighbor faceNormal
    simp only [qlen_eq_side]
    split
    · ring
    · split <;> ring
  obtain ⟨h1, h2⟩ := translate_spec (q := q) (r := faceNeighbor q f) (v := faceNormal f) rfl hc
  refine ⟨rfl, h2 hq (fun i => by unfold faceNormal; split <;> [omega; split <;> omega]), h1, ?_⟩
  refine Quad.ext' (fun i => ?_) rfl
  have hx := xor_one_eq f
  unfold faceNeighbor
  simp only
  rw [hx]
  by_cases c1 : f = 2 * (i : ℕ)
  · have e1 : f % 2 = 0 := by omega
    simp [e1, c1]
  · by_cases c2 : f = 2 * (i : ℕ) + 1
    · have e1 : ¬ f % 2 = 0 := by omega
      have e2 : (2 * (i : ℕ) + 1) % 2 = 1 := by omega
      simp [c2, e2]
    · rw [if_neg c1, if_neg c2]
      by_cases e1 : f % 2 = 0
      · rw [if_pos e1, if_neg (by omega), if_neg (by omega)]; ring
      · rw [if_neg e1, if_neg (by omega), if_neg (by omega)]; ring

/-- C14. The corner neighbor, likewise; the opposite corner number complements all bits. -/
theorem C14_corner_neighbor (q : Quad d) (hq : Valid q) (k : ℕ) (hk : k < 2 ^ d) :
    (cornerNeighbor q k).level = q.level ∧ Extended (cornerNeighbor q k) ∧
    (∀ p, p ∈ Cells q ↔ move (fun i => cornerDir k i * side q) p ∈ Cells (cornerNeighbor q k)) ∧
    cornerNeighbor (cornerNeighbor q k) (k ^^^ (2 ^ d - 1)) = q := by
  have hc : ∀ i, (cornerNeighbor q k).c i = q.c i + cornerDir k i * side q := fun i => rfl
  obtain ⟨h1, h2⟩ := translate_spec (q := q) (r := cornerNeighbor q k) (v := cornerDir k) rfl hc
  refine ⟨rfl, h2 hq (fun i => by unfold cornerDir; split <;> omega), h1, ?_⟩
  refine Quad.ext' (fun i => ?_) rfl
  unfold cornerNeighbor
  simp only [Nat.testBit_xor, Nat.testBit_two_pow_sub_one]
  by_cases c : k.testBit i
  · simp [c]
  · simp [c]

/-- C14. The edge neighbor (3D), likewise; the opposite edge number complements both bits. -/
theorem C14_edge_neighbor (q : Quad 3) (hq : Valid q) (e : ℕ) (he : e < 12) :
    (edgeNeighbor q e).level = q.level ∧ Extended (edgeNeighbor q e) ∧
    (∀ p, p ∈ Cells q ↔ move (fun i => edgeDir e i * side q) p ∈ Cells (edgeNeighbor q e)) ∧
    edgeNeighbor (edgeNeighbor q e) (e ^^^ 3) = q := by
  have hl : (edgeNeighbor q e).level = q.level := by interval_cases e <;> rfl
  have hc : ∀ i, (edgeNeighbor q e).c i = q.c i + edgeDir e i * side q := by
    intro i
    rw [← qlen_eq_side]
    interval_cases e <;> fin_cases i <;>
      simp [edgeNeighbor, edgeDir, Nat.testBit, Nat.shiftRight_eq_div_pow]
  obtain ⟨h1, h2⟩ := translate_spec (q := q) (r := edgeNeighbor q e) (v := edgeDir e) hl hc
  refine ⟨hl, h2 hq (fun i => ?_), h1, ?_⟩
  · unfold edgeDir
    interval_cases e <;> fin_cases i <;> simp [Nat.testBit, Nat.shiftRight_eq_div_pow]
  · refine Quad.ext' (fun i => ?_) (by interval_cases e <;> rfl)
    interval_cases e <;> fin_cases i <;> simp [edgeNeighbor]

theorem halfFace_c (q : Quad d) (hl : q.level < 29) (f i : ℕ) (a : Fin d) :
    (halfFaceNeighbor q f i).c a =
      if (a : ℕ) = f / 2 then
        (if f % 2 = 0 then q.c a - 2 ^ (29 - q.level) else q.c a + 2 ^ (30 - q.level))
      else q.c a + (if i.testBit (if (a : ℕ) < f / 2 then a else a - 1) then 2 ^ (29 - q.level) else 0) := by
  unfold halfFaceNeighbor
  simp only [qlen_def, show 30 - (q.level + 1) = 29 - q.level by omega]
  by_cases h : (a : ℕ) = f / 2
  · rw [if_pos h, if_pos h]
    by_cases h0 : f % 2 = 0
    · rw [if_pos h0, if_pos (by omega)]; ring
    · rw [if_neg h0, if_neg (by omega), if_pos (by omega)]; ring
  · rw [if_neg h, if_neg h, if_neg (by omega), if_neg (by omega)]; ring

/-- The layer of thickness `w` outside face `f` of `q`. -/
def Spec.Layer (q : Quad d) (f : ℕ) (w : ℤ) : Set (Fin d → ℤ) :=
  {p | ∀ a : Fin d, if (a : ℕ) = f / 2 then
      (if f % 2 = 0 then q.c a - w ≤ p a ∧ p a < q.c a
       else q.c a + side q ≤ p a ∧ p a < q.c a + side q + w)
      else q.c a ≤ p a ∧ p a < q.c a + side q}

/-- The number whose bits are the given Booleans. -/
theorem exists_bits (n : ℕ) (b : ℕ → Bool) : ∃ i < 2 ^ n, ∀ j < n, i.testBit j = b j := by
  induction n with
  | zero => exact ⟨0, by norm_num, by omega⟩
  | succ n ih =>
    obtain ⟨i, hi, h⟩ := ih
    refine ⟨if b n then 2 ^ n + i else i, ?_, fun j hj => ?_⟩
    · rw [pow_succ]; split <;> omega
    · by_cases hjn : j = n
      · subst hjn
        by_cases hb : b j
        · rw [if_pos hb, Nat.testBit_two_pow_add_eq, Nat.testBit_lt_two_pow hi, hb]; rfl
        · rw [if_neg hb, Nat.testBit_lt_two_pow hi]; simpa using hb
      · have hjn' : j < n := by omega
        rw [← h j hjn']
        split
        · exact Nat.testBit_two_pow_add_gt (by omega) i
        · rfl

/-- C14. The half-size face neighbors are legal quadrants one level finer and tile the layer of
half the quadrant's width outside the face: every cell of that layer is in exactly one of
them and they cover nothing else.  `nur` holds their last descendants. -/
theorem C14_half_face_neighbors (hd : 0 < d) (q : Quad d) (hq : Valid q) (hl : q.level < 29) (f : ℕ)
    (hf : f < 2 * d) :
    (halfFaceNeighbors q f).length = 2 ^ (d - 1) ∧
    (∀ n ∈ halfFaceNeighbors q f, Extended n ∧ n.level = q.level + 1) ∧
    (∀ p, p ∈ Layer q f (side q / 2) ↔ ∃! i, i < 2 ^ (d - 1) ∧ p ∈ Cells (halfFaceNeighbor q f i)) ∧
    (∀ p, (∃ n ∈ halfFaceNeighbors q f, p ∈ Cells n) ↔ p ∈ Layer q f (side q / 2)) ∧
    halfFaceNeighborsUpperRight q f = (halfFaceNeighbors q f).map (fun n => lastDesc n 29) := by
  have hside : side q = 2 * 2 ^ (29 - q.level) := by
    unfold side; rw [show 30 - q.level = (29 - q.level) + 1 by omega, pow_succ]; ring
  have hhalf : side q / 2 = 2 ^ (29 - q.level) := by rw [hside]; simp
  have hns : ∀ i, side (halfFaceNeighbor q f i) = 2 ^ (29 - q.level) := by
    intro i; unfold side; simp only [halfFaceNeighbor]; congr 1; omega
  have hpos : (0:ℤ) < 2 ^ (29 - q.level) := by positivity
  have e30 : (2:ℤ) ^ (30 - q.level) = 2 * 2 ^ (29 - q.level) := hside
  have hex : ∀ p, p ∈ Layer q f (side q / 2) →
      ∃ i, i < 2 ^ (d - 1) ∧ p ∈ Cells (halfFaceNeighbor q f i) := by
    intro p hp
    -- tangential axis number t
    obtain ⟨i, hi, hb⟩ := exists_bits (d - 1) (fun t =>
      if h : (if t < f / 2 then t else t + 1) < d then
        decide (q.c ⟨_, h⟩ + 2 ^ (29 - q.level) ≤ p ⟨_, h⟩) else false)
    refine ⟨i, hi, fun a => ?_⟩
    have ha := hp a
    rw [hns, halfFace_c q hl]
    by_cases h : (a : ℕ) = f / 2
    · rw [if_pos h] at ha ⊢
      by_cases h0 : f % 2 = 0
      · rw [if_pos h0] at ha ⊢
        rw [hhalf] at ha; constructor <;> linarith [ha.1, ha.2]
      · rw [if_neg h0] at ha ⊢
        rw [hhalf, hside] at ha; rw [e30]; constructor <;> linarith [ha.1, ha.2]
    · rw [if_neg h] at ha ⊢
      have had := a.2
      have hbit := hb (if (a : ℕ) < f / 2 then (a : ℕ) else a - 1) (by split <;> omega)
      have hidx : (if (if (a : ℕ) < f / 2 then (a : ℕ) else a - 1) < f / 2 then
          (if (a : ℕ) < f / 2 then (a : ℕ) else a - 1)
          else (if (a : ℕ) < f / 2 then (a : ℕ) else a - 1) + 1) = a := by
        by_cases hlt : (a : ℕ) < f / 2
        · simp only [if_pos hlt]
        · simp only [if_neg hlt]
          rw [if_neg (by omega)]; omega
      generalize hg : (if (a : ℕ) < f / 2 then (a : ℕ) else a - 1) = t at *
      rw [hbit]
      have : ∀ (m : ℕ) (hm : m = (a : ℕ)), (if h : m < d then
          decide (q.c ⟨_, h⟩ + 2 ^ (29 - q.level) ≤ p ⟨_, h⟩) else false) =
          decide (q.c a + 2 ^ (29 - q.level) ≤ p a) := by
        rintro m rfl; simp [had]
      rw [this _ hidx]
      rw [hside] at ha
      by_cases hge : q.c a + 2 ^ (29 - q.level) ≤ p a
      · rw [decide_eq_true hge, if_pos rfl]; constructor <;> linarith [ha.1, ha.2]
      · rw [decide_eq_false hge, if_neg (by simp)]
        push Not at hge; constructor <;> linarith [ha.1, ha.2]
  have hsub : ∀ p i, p ∈ Cells (halfFaceNeighbor q f i) → p ∈ Layer q f (side q / 2) := by
    intro p i hp a
    have ha := hp a
    rw [hns, halfFace_c q hl] at ha
    by_cases h : (a : ℕ) = f / 2
    · rw [if_pos h] at ha ⊢
      by_cases h0 : f % 2 = 0
      · rw [if_pos h0] at ha ⊢
        rw [hhalf]; constructor <;> linarith [ha.1, ha.2]
      · rw [if_neg h0] at ha ⊢
        rw [hhalf, hside]; rw [e30] at ha; constructor <;> linarith [ha.1, ha.2]
    · rw [if_neg h] at ha ⊢
      rw [hside]
      generalize i.testBit _ = b at ha
      cases b <;> simp only [if_true, if_false, Bool.false_eq_true] at ha <;>
        constructor <;> linarith [ha.1, ha.2]
  have huniq : ∀ p i j, i < 2 ^ (d - 1) → j < 2 ^ (d - 1) → p ∈ Cells (halfFaceNeighbor q f i) →
      p ∈ Cells (halfFaceNeighbor q f j) → i = j := by
    intro p i j hi hj hpi hpj
    apply Nat.eq_of_testBit_eq
    intro t
    by_cases ht : t < d - 1
    · have key : ∀ a : Fin d, (a : ℕ) ≠ f / 2 → (if (a : ℕ) < f / 2 then (a : ℕ) else a - 1) = t →
          i.testBit t = j.testBit t := by
        intro a hne hidx
        have h1 := hpi a
        have h2 := hpj a
        rw [hns, halfFace_c q hl, if_neg hne, hidx] at h1 h2
        by_cases c1 : i.testBit t <;> by_cases c2 : j.testBit t
        · rw [c1, c2]
        · rw [if_pos c1] at h1; rw [if_neg c2] at h2; linarith [h1.1, h2.2]
        · rw [if_neg c1] at h1; rw [if_pos c2] at h2; linarith [h1.2, h2.1]
        · simp only [Bool.not_eq_true] at c1 c2; rw [c1, c2]
      by_cases hlt : t < f / 2
      · exact key ⟨t, by omega⟩ (by simp; omega) (by simp [hlt])
      · refine key ⟨t + 1, by omega⟩ (by simp; omega) ?_
        simp only
        rw [if_neg (by omega)]; omega
    · have h1 : 2 ^ (d - 1) ≤ 2 ^ t := Nat.pow_le_pow_right (by norm_num) (by omega)
      rw [Nat.testBit_lt_two_pow (by omega), Nat.testBit_lt_two_pow (by omega)]
  refine ⟨by simp [halfFaceNeighbors], fun n hn => ?_, fun p => ⟨fun hp => ?_, ?_⟩, fun p => ?_, ?_⟩
  · simp only [halfFaceNeighbors, List.mem_map, List.mem_range] at hn
    obtain ⟨i, hi, rfl⟩ := hn
    refine ⟨⟨by simp only [halfFaceNeighbor]; omega, ⟨by simp only [halfFaceNeighbor]; omega, fun a => ?_⟩,
      fun a => ?_⟩, rfl⟩
    · rw [hns, halfFace_c q hl]
      have h1 : (2:ℤ) ^ (29 - q.level) ∣ q.c a := by
        refine dvd_trans ?_ (hq.aligned.2 a)
        rw [hside]; exact Dvd.intro_left _ rfl
      have h2 : (2:ℤ) ^ (29 - q.level) ∣ 2 ^ (30 - q.level) := pow_dvd_pow _ (by omega)
      split
      · split
        · exact dvd_sub h1 dvd_rfl
        · exact dvd_add h1 h2
      · refine dvd_add h1 ?_
        generalize i.testBit _ = b
        cases b
        · simp
        · simp
    · rw [halfFace_c q hl]
      have h1 := hq.2.2 a
      have hle : (2:ℤ) ^ (30 - q.level) ≤ 2 ^ 30 := pow_le_pow_right₀ (by norm_num) (by omega)
      have : (2:ℤ) ^ 31 = 2 ^ 30 + 2 ^ 30 := by norm_num
      rw [e30] at hle ⊢
      split
      · split <;> constructor <;> linarith [h1.1, h1.2]
      · generalize i.testBit _ = b
        cases b <;> simp only [if_true, if_false, Bool.false_eq_true] <;>
          constructor <;> linarith [h1.1, h1.2]
  · obtain ⟨i, hi, hpi⟩ := hex p hp
    exact ⟨i, ⟨hi, hpi⟩, fun j hj => huniq p j i hj.1 hi hj.2 hpi⟩
  · rintro ⟨i, ⟨hi, hpi⟩, _⟩
    exact hsub p i hpi
  · constructor
    · rintro ⟨n, hn, hp⟩
      simp only [halfFaceNeighbors, List.mem_map, List.mem_range] at hn
      obtain ⟨i, hi, rfl⟩ := hn
      exact hsub p i hp
    · intro hp
      obtain ⟨i, hi, hpi⟩ := hex p hp
      exact ⟨_, List.mem_map.mpr ⟨i, List.mem_range.mpr hi, rfl⟩, hpi⟩
  · unfold halfFaceNeighborsUpperRight halfFaceNeighbors
    rw [List.map_map]
    rfl

/-- C14. The half-size corner neighbor is the half-size quadrant inside the corner neighbor that
touches the quadrant's corner, i.e. the descendant of the corner neighbor at its opposite corner. -/
theorem C14_half_corner_neighbor (q : Quad d) (hl : q.level < 29) (k : ℕ) :
    halfCornerNeighbor q k = cornerDesc (cornerNeighbor q k) (k ^^^ (2 ^ d - 1)) (q.level + 1) := by
  refine Quad.ext' (fun i => ?_) rfl
  unfold halfCornerNeighbor cornerDesc cornerNeighbor
  simp only [Nat.testBit_xor, Nat.testBit_two_pow_sub_one, Fin.is_lt, decide_true, Bool.xor_true]
  by_cases c : k.testBit i
  · simp [c]
  · simp [c]; ring

/-- C14. `p4est_quadrant_all_face_neighbors`: the half-size neighbors are omitted only at the
maximum level; a neighbor of double size is returned iff the quadrant is not the root and its face
neighbor is outside of its parent, and then it is the parent's face neighbor, which contains
the face neighbor of equal size. -/
theorem C14_all_face_neighbors (hd : 0 < d) (q : Quad d) (hq : Valid q) (f : ℕ) (hf : f < 2 * d) :
    ((allFaceNeighbors q f).1 = if q.level = 29 then none else some (halfFaceNeighbors q f)) ∧
    (allFaceNeighbors q f).2.1 = faceNeighbor q f ∧
    ((allFaceNeighbors q f).2.2 = none ↔
      q.level = 0 ∨ Cells (faceNeighbor q f) ⊆ Cells (parent q)) ∧
    (∀ r, (allFaceNeighbors q f).2.2 = some r →
      r.level + 1 = q.level ∧ Cells (faceNeighbor q f) ⊆ Cells r ∧
      ∀ p, p ∈ Cells (parent q) ↔ move (fun i => faceNormal f i * side (parent q)) p ∈ Cells r) := by
  refine ⟨rfl, rfl, ?_⟩
  have h29 := hq.1
  rcases Nat.eq_zero_or_pos q.level with h0 | h0
  · have e : (allFaceNeighbors q f).2.2 = none := by simp [allFaceNeighbors, h0]
    rw [e]; simp [h0]
  have hpa := parent_aligned hq.aligned h0
  have hpl : (parent q).level + 1 = q.level := by simp; omega
  have hfn := C14_face_neighbor q hq f
  have hfa : Aligned (faceNeighbor q f) := hfn.2.1.aligned
  set ax : Fin d := ⟨f / 2, by omega⟩ with hax
  have hps : side (parent q) = 2 * side q := by
    unfold side
    rw [show 30 - (parent q).level = (30 - q.level) + 1 by omega, pow_succ]; ring
  have hcid : (childId q >>> (f / 2)) % 2 = if (childId q).testBit ax then 1 else 0 := by
    rw [Nat.testBit, Nat.shiftRight_eq_div_pow]
    simp only [hax, Nat.one_and_eq_mod_two]
    have := Nat.mod_two_eq_zero_or_one (childId q / 2 ^ (f / 2))
    rcases this with h | h <;> simp [h]
  have hpc : ∀ i, q.c i = (parent q).c i + if (childId q).testBit i then side q else 0 := by
    intro i
    conv_lhs => rw [← child_parent hq.aligned h0]
    rw [child_c hpa (by omega), hpl]; rfl
  have hfc : ∀ i, (faceNeighbor q f).c i = q.c i +
      if (i : ℕ) = f / 2 then (if f % 2 = 0 then -side q else side q) else 0 := by
    intro i
    unfold faceNeighbor
    simp only [qlen_eq_side]
    by_cases h : (i : ℕ) = f / 2
    · rw [if_pos h]
      by_cases hm : f % 2 = 0
      · rw [if_pos hm, if_pos (by omega)]
      · rw [if_neg hm, if_neg (by omega), if_pos (by omega)]
    · rw [if_neg h, if_neg (by omega), if_neg (by omega)]
  have hsp := side_pos q
  have hsubq : Cells (faceNeighbor q f) ⊆ Cells (parent q) ↔
      (childId q >>> (f / 2)) % 2 ≠ f % 2 := by
    rw [cells_subset_iff hd hpa hfa, hcid]
    have hlv : (parent q).level ≤ (faceNeighbor q f).level := by
      change (parent q).level ≤ q.level; omega
    simp only [hlv, true_and]
    constructor
    · intro h
      have h1 := h ax
      rw [hfc ax, hpc ax, hps, if_pos rfl] at h1
      have hm := Nat.mod_two_eq_zero_or_one f
      by_cases hb : (childId q).testBit ax
      · rw [if_pos hb] at h1 ⊢
        intro hc
        rw [if_neg (by omega)] at h1; omega
      · rw [if_neg hb] at h1 ⊢
        intro hc
        rw [if_pos (by omega)] at h1; omega
    · intro h i
      rw [hfc i, hpc i, hps]
      by_cases hi : (i : ℕ) = f / 2
      · rw [if_pos hi]
        have : i = ax := Fin.ext hi
        subst this
        have hm := Nat.mod_two_eq_zero_or_one f
        by_cases hb : (childId q).testBit ax
        · rw [if_pos hb] at h ⊢
          rw [if_pos (by omega)]; constructor <;> linarith
        · rw [if_neg hb] at h ⊢
          rw [if_neg (by omega)]; constructor <;> linarith
      · rw [if_neg hi]
        split <;> constructor <;> linarith
  refine ⟨?_, fun r hr => ?_⟩
  · rw [hsubq]
    simp only [allFaceNeighbors, h0.ne', or_false, false_or]
    by_cases hb : (childId q >>> (f / 2)) % 2 ≠ f % 2
    · simp [hb]
    · simp [hb]
  · simp only [allFaceNeighbors, h0.ne', or_false] at hr
    by_cases hb : (childId q >>> (f / 2)) % 2 ≠ f % 2
    · rw [if_pos hb] at hr; simp at hr
    rw [if_neg hb] at hr
    simp only [Option.some.injEq] at hr
    subst hr
    have hpv : Valid (parent q) := by
      apply valid_super hq hpa (by omega)
      rw [parent_eq_ancestor hq.aligned h0]
      exact cells_subset_ancestor hq.aligned (by omega) (corner_mem q)
    have hfp := C14_face_neighbor (parent q) hpv f
    refine ⟨by rw [hfp.1]; exact hpl, ?_, hfp.2.2.1⟩
    rw [cells_subset_iff hd hfp.2.1.aligned hfa]
    refine ⟨by rw [hfp.1]; change _ ≤ q.level; omega, fun i => ?_⟩
    have hfpc : (faceNeighbor (parent q) f).c i = (parent q).c i +
        if (i : ℕ) = f / 2 then (if f % 2 = 0 then -side (parent q) else side (parent q)) else 0 := by
      unfold faceNeighbor
      simp only [qlen_eq_side]
      by_cases h : (i : ℕ) = f / 2
      · rw [if_pos h]
        by_cases hm : f % 2 = 0
        · rw [if_pos hm, if_pos (by omega)]
        · rw [if_neg hm, if_neg (by omega), if_pos (by omega)]
      · rw [if_neg h, if_neg (by omega), if_neg (by omega)]
    have hs2 : side (faceNeighbor (parent q) f) = 2 * side q := hps
    rw [hfpc, hfc i, hpc i, hs2, hps]
    by_cases hi : (i : ℕ) = f / 2
    · rw [if_pos hi, if_pos hi]
      have : i = ax := Fin.ext hi
      subst this
      push Not at hb
      rw [hcid] at hb
      by_cases hbt : (childId q).testBit ax
      · rw [if_pos hbt] at hb ⊢
        rw [if_neg (by omega), if_neg (by omega)]; constructor <;> linarith
      · rw [if_neg hbt] at hb ⊢
        rw [if_pos (by omega), if_pos (by omega)]; constructor <;> linarith
    · rw [if_neg hi, if_neg hi]
      split <;> constructor <;> linarith

example : Valid (⟨![536870912, 0, 536870912], 1⟩ : Quad 3) ∧
    faceNeighbor (⟨![536870912, 0, 536870912], 1⟩ : Quad 3) 3 = ⟨![536870912, 536870912, 536870912], 1⟩ ∧
    edgeNeighbor (⟨![536870912, 0, 536870912], 1⟩ : Quad 3) 6 = ⟨![0, 0, 1073741824], 1⟩ ∧
    (allFaceNeighbors (⟨![536870912, 0, 536870912], 1⟩ : Quad 3) 5).2.2 = some ⟨![0, 0, 1073741824], 0⟩ ∧
    halfFaceNeighbors (⟨![0, 0], 1⟩ : Quad 2) 1 =
      [⟨![536870912, 0], 2⟩, ⟨![536870912, 268435456], 2⟩] := by
  rw [← isValid_iff]; decide +kernel

/-! ## C44: points on both sides agree -/

/-- C44. A quadrant and its neighbor across a face, a corner or an edge compute the same midpoint
or corner point for the shared face, corner or edge. -/
theorem C44_shared_points (q : Quad d) (f k : ℕ) (hk : k < 2 ^ d) :
    faceCoordinates (faceNeighbor q f) (f ^^^ 1) = faceCoordinates q f ∧
    cornerCoordinates (cornerNeighbor q k) (k ^^^ (2 ^ d - 1)) = cornerCoordinates q k ∧
    cornerNode (cornerNeighbor q k) (k ^^^ (2 ^ d - 1)) = cornerNode q k := by
  have hx := xor_one_eq f
  refine ⟨?_, ?_, ?_⟩
  · funext i
    unfold faceCoordinates faceNeighbor
    simp only [Nat.testBit_zero, decide_eq_true_eq]
    rw [hx]
    by_cases hm : f % 2 = 0
    · rw [if_pos hm]
      by_cases h : f / 2 = (i : ℕ)
      · rw [if_pos (by omega), if_pos (by omega), if_pos (by omega), if_pos (by omega), if_neg (by omega)]; ring
      · rw [if_neg (by omega), if_neg (by omega), if_neg (by omega), if_neg (by omega)]; ring
    · rw [if_neg hm]
      by_cases h : f / 2 = (i : ℕ)
      · rw [if_neg (by omega), if_pos (by omega), if_pos (by omega), if_neg (by omega), if_pos (by omega),
          if_pos (by omega)]; ring
      · rw [if_neg (by omega), if_neg (by omega), if_neg (by omega), if_neg (by omega)]; ring
  · funext i
    unfold cornerCoordinates cornerNeighbor
    simp only [Nat.testBit_xor, Nat.testBit_two_pow_sub_one, Fin.is_lt, decide_true, Bool.xor_true]
    by_cases c : k.testBit i <;> simp [c]
  · refine Quad.ext' (fun i => ?_) rfl
    unfold cornerNode cornerNeighbor
    simp only [Nat.testBit_xor, Nat.testBit_two_pow_sub_one, Fin.is_lt, decide_true, Bool.xor_true]
    by_cases c : k.testBit i <;> simp [c]

/-- C44 for edges. -/
theorem C44_shared_edge_points (q : Quad 3) (e : ℕ) (he : e < 12) :
    edgeCoordinates (edgeNeighbor q e) (e ^^^ 3) = edgeCoordinates q e := by
  funext i
  interval_cases e <;> fin_cases i <;> simp [edgeCoordinates, edgeNeighbor]

/-- C44. The midpoint of a quadrant is the corner point shared by all its children. -/
theorem C44_volume_point (q : Quad d) (hq : Extended q) (hl : q.level < 29) (k : ℕ) (hk : k < 2 ^ d) :
    cornerCoordinates (child q k) (k ^^^ (2 ^ d - 1)) = volumeCoordinates q := by
  funext i
  unfold cornerCoordinates volumeCoordinates
  rw [child_c hq.aligned (by omega)]
  simp only [Nat.testBit_xor, Nat.testBit_two_pow_sub_one, Fin.is_lt, decide_true, Bool.xor_true,
    child_level, qlen_def]
  by_cases c : k.testBit i <;> simp [c]

example : faceCoordinates (⟨![536870912, 0], 1⟩ : Quad 2) 0 = ![536870912, 268435456] ∧
    faceCoordinates (⟨![0, 0], 1⟩ : Quad 2) 1 = ![536870912, 268435456] := by decide +kernel

/-! ## C15 -/

/-- A legal node: an even corner point of the closed root. -/
def Spec.NodeAny (n : Quad d) : Prop := n.level = 30 ∧ ∀ i, 0 ≤ n.c i ∧ n.c i ≤ 2 ^ 30 ∧ 2 ∣ n.c i

/-- A legal node in clamped form: the upper end of the root is replaced by the last cell. -/
def Spec.NodeInside (n : Quad d) : Prop :=
  n.level = 30 ∧ ∀ i, 0 ≤ n.c i ∧ n.c i < 2 ^ 30 ∧ (2 ∣ n.c i ∨ n.c i = 2 ^ 30 - 1)

theorem isNode_false_iff {n : Quad d} : isNode n false = true ↔ NodeAny n := by
  unfold isNode NodeAny
  simp only [decide_eq_true_eq, Bool.and_eq_true]
  simp only [MAXLEVEL, QMAXLEVEL, rootLen, Bool.false_eq_true, if_false]
  norm_num
  have e : ∀ x : ℤ, Int.land x 1 = x % 2 := fun x => by have := land_mask x 1; norm_num at this; exact this
  simp only [e]
  constructor
  · rintro ⟨⟨h0, h1⟩, h2⟩
    exact ⟨h0, fun i => by have := h1 i; have := h2 i; omega⟩
  · rintro ⟨h0, h1⟩
    exact ⟨⟨h0, fun i => by have := h1 i; omega⟩, fun i => by have := h1 i; omega⟩

theorem isNode_true_iff {n : Quad d} : isNode n true = true ↔ NodeInside n := by
  unfold isNode NodeInside
  simp only [decide_eq_true_eq, Bool.and_eq_true]
  simp only [MAXLEVEL, QMAXLEVEL, rootLen, if_true]
  norm_num
  have e : ∀ x : ℤ, Int.land x 1 = x % 2 := fun x => by have := land_mask x 1; norm_num at this; exact this
  simp only [e]
  constructor
  · rintro ⟨⟨h0, h1⟩, h2⟩
    exact ⟨h0, fun i => by have := h1 i; have := h2 i; omega⟩
  · rintro ⟨h0, h1⟩
    exact ⟨⟨h0, fun i => by have := h1 i; omega⟩, fun i => by have := h1 i; omega⟩

/-- C15. Clamping a legal node yields a legal clamped node, unclamping restores it, and vice
versa. -/
theorem C15_clamp_roundtrip (n : Quad d) :
    (NodeAny n → NodeInside (nodeClampInside n) ∧ nodeUnclamp (nodeClampInside n) = n) ∧
    (NodeInside n → NodeAny (nodeUnclamp n) ∧ nodeClampInside (nodeUnclamp n) = n) := by
  have hr : rootLen = 2 ^ 30 := rfl
  constructor
  · intro h
    refine ⟨⟨rfl, fun i => ?_⟩, Quad.ext' (fun i => ?_) h.1.symm⟩
    · have := h.2 i
      simp only [nodeClampInside, hr]
      split <;> omega
    · have := h.2 i
      simp only [nodeUnclamp, nodeClampInside, hr]
      by_cases c : n.c i = 2 ^ 30
      · rw [if_pos c, if_pos rfl, c]
      · rw [if_neg c, if_neg (by omega)]
  · intro h
    refine ⟨⟨h.1, fun i => ?_⟩, Quad.ext' (fun i => ?_) h.1.symm⟩
    · have := h.2 i
      simp only [nodeUnclamp, hr]
      split <;> omega
    · have := h.2 i
      simp only [nodeUnclamp, nodeClampInside, hr]
      by_cases c : n.c i = 2 ^ 30 - 1
      · rw [if_pos c, if_pos rfl, c]
      · rw [if_neg c, if_neg (by omega)]

/-- C15. `p4est_node_to_quadrant` returns the one legal quadrant of the given level that contains
the (clamped) node, as tested by `p4est_quadrant_contains_node`. -/
theorem C15_node_to_quadrant (hd : 0 < d) (n : Quad d) (hn : NodeInside n) (l : ℕ) (hl : l ≤ 29) :
    Valid (nodeToQuadrant n l) ∧ (nodeToQuadrant n l).level = l ∧
    ∀ q : Quad d, Valid q → q.level = l → (containsNode q n = true ↔ q = nodeToQuadrant n l) := by
  have hc : ∀ i, (nodeToQuadrant n l).c i = 2 ^ (30 - l) * (n.c i / 2 ^ (30 - l)) := fun i =>
    land_not_mask _ _
  have hmem : n.c ∈ Cells (nodeToQuadrant n l) := by
    intro i
    have hs : side (nodeToQuadrant n l) = 2 ^ (30 - l) := rfl
    rw [hs, hc i]
    have hp : (0:ℤ) < 2 ^ (30 - l) := by positivity
    have h1 := Int.mul_ediv_self_le (x := n.c i) (k := 2 ^ (30 - l)) hp.ne'
    have h2 := Int.lt_mul_ediv_self_add (x := n.c i) hp
    exact ⟨h1, h2⟩
  have hal : Aligned (nodeToQuadrant n l) := ⟨by change l ≤ 30; omega, fun i => ⟨_, hc i⟩⟩
  have hval : Valid (nodeToQuadrant n l) := by
    refine ⟨hl, hal, fun i => ?_⟩
    have h1 := hn.2 i
    rw [hc i]
    have hp : (0:ℤ) < 2 ^ (30 - l) := by positivity
    have h2 := Int.mul_ediv_self_le (x := n.c i) (k := 2 ^ (30 - l)) hp.ne'
    exact ⟨mul_nonneg hp.le (Int.ediv_nonneg h1.1 hp.le), by omega⟩
  refine ⟨hval, rfl, fun q hq hql => ?_⟩
  have hcn : containsNode q n = true ↔ n.c ∈ Cells q := by
    unfold containsNode
    simp only [decide_eq_true_eq]
    rfl
  rw [hcn]
  constructor
  · intro h
    rw [mem_cells hq.aligned] at h
    rw [mem_cells hal] at hmem
    refine Quad.ext' (fun i => ?_) hql
    rw [hq.aligned.c_eq i, ← h i, hal.c_eq i, ← hmem i, hql]; rfl
  · rintro rfl; exact hmem

example : NodeAny (⟨![1073741824, 2], 30⟩ : Quad 2) ∧
    nodeClampInside (⟨![1073741824, 2], 30⟩ : Quad 2) = ⟨![1073741823, 2], 30⟩ ∧
    NodeInside (⟨![1073741823, 2], 30⟩ : Quad 2) ∧
    nodeToQuadrant (⟨![1073741823, 2], 30⟩ : Quad 2) 1 = ⟨![536870912, 0], 1⟩ := by
  rw [← isNode_false_iff, ← isNode_true_iff]; decide +kernel

end P4est
