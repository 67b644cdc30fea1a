import Verif.Model.Overlap
import Verif.Spec.Overlap
import Verif.Lemmas.SeedsAll

/-! # One leaf inside of the insulation layer -/

namespace P4est
open Spec

variable {d : ℕ} {k : ℕ}

theorem edgeShift_eq (q : Quad 3) (e : ℕ) (he : e < 12) : edgeShift q e = edgeNeighbor q e := by
  have h : (edgeShift q e).c = (edgeNeighbor q e).c := by
    funext i
    interval_cases e <;> fin_cases i <;> simp [edgeShift, edgeNeighbor]
  have h2 : (edgeShift q e).level = (edgeNeighbor q e).level := by
    interval_cases e <;> rfl
  exact Quad.ext' (fun i => congrFun h i) h2

/-- The position in the insulation layer along an axis. -/
def insulOff (d which : ℕ) (i : Fin d) : ℤ := ((which / 3 ^ (i : ℕ) % 3 : ℕ) : ℤ) - 1

theorem insulQuad_c (inq : Quad d) (w : ℕ) (i : Fin d) :
    (insulQuad inq w).c i = inq.c i + insulOff d w i * qlen inq.level := rfl

theorem insulOff_cases (w : ℕ) (i : Fin d) : insulOff d w i = -1 ∨ insulOff d w i = 0 ∨ insulOff d w i = 1 := by
  unfold insulOff
  have := Nat.mod_lt (w / 3 ^ (i : ℕ)) (show 0 < 3 by norm_num)
  omega

/-- The step towards the quadrant in the middle. -/
def toward (tq : Quad d) (o : Fin d → ℤ) : Quad d := ⟨fun i => tq.c i - o i * qlen tq.level, tq.level⟩

theorem toward_aligned {tq : Quad d} (h : Aligned tq) (o : Fin d → ℤ) : Aligned (toward tq o) := by
  refine ⟨h.1, fun i => ?_⟩
  have h1 := h.2 i
  show qlen tq.level ∣ tq.c i - o i * qlen tq.level
  exact dvd_sub h1 (dvd_mul_left _ _)

set_option synthInstance.maxHeartbeats 400000 in
set_option synthInstance.maxSize 1024 in
theorem table2 : ∀ w < 9, w ≠ 4 →
    (outsideType (insulOff 2 w) = 1 → (insulToFace 2).getD w (-1) = outsideFace (insulOff 2 w) ∧
      (insulToCorner 2).getD w (-1) < 0 ∧
      ∀ i : Fin 2, (if outsideFace (insulOff 2 w) ^^^ 1 = 2 * (i : ℕ) then (-1 : ℤ)
        else if outsideFace (insulOff 2 w) ^^^ 1 = 2 * (i : ℕ) + 1 then 1 else 0) = - insulOff 2 w i) ∧
    (outsideType (insulOff 2 w) ≠ 1 → outsideType (insulOff 2 w) = 2 ∧ (insulToFace 2).getD w (-1) < 0 ∧
      (insulToCorner 2).getD w (-1) = outsideCorner (insulOff 2 w) ∧
      ∀ i : Fin 2, (if ((2 ^ 2 - 1) ^^^ outsideCorner (insulOff 2 w)).testBit i then (1 : ℤ) else -1) = - insulOff 2 w i) := by
  decide +kernel

set_option synthInstance.maxHeartbeats 400000 in
set_option synthInstance.maxSize 1024 in
theorem table3 : ∀ w < 27, w ≠ 13 →
    (outsideType (insulOff 3 w) = 1 → (insulToFace 3).getD w (-1) = outsideFace (insulOff 3 w) ∧
      (insulToCorner 3).getD w (-1) < 0 ∧
      ∀ i : Fin 3, (if outsideFace (insulOff 3 w) ^^^ 1 = 2 * (i : ℕ) then (-1 : ℤ)
        else if outsideFace (insulOff 3 w) ^^^ 1 = 2 * (i : ℕ) + 1 then 1 else 0) = - insulOff 3 w i) ∧
    (outsideType (insulOff 3 w) = 3 → (insulToFace 3).getD w (-1) < 0 ∧ (insulToEdge 3).getD w (-1) < 0 ∧
      (insulToCorner 3).getD w (-1) = outsideCorner (insulOff 3 w) ∧
      ∀ i : Fin 3, (if ((2 ^ 3 - 1) ^^^ outsideCorner (insulOff 3 w)).testBit i then (1 : ℤ) else -1) = - insulOff 3 w i) ∧
    (outsideType (insulOff 3 w) ≠ 1 → outsideType (insulOff 3 w) ≠ 3 → (insulToFace 3).getD w (-1) < 0 ∧
      (insulToCorner 3).getD w (-1) < 0 ∧ (insulToEdge 3).getD w (-1) = outsideEdge (insulOff 3 w) ∧
      ∀ i : Fin 3, (if (i : ℕ) = (outsideEdge (insulOff 3 w) ^^^ 3) / 4 then (0 : ℤ)
        else if (i : ℕ) = (if (outsideEdge (insulOff 3 w) ^^^ 3) / 4 = 0 then 1 else 0)
          then 2 * ((outsideEdge (insulOff 3 w) ^^^ 3) &&& 1 : ℕ) - 1
        else ((outsideEdge (insulOff 3 w) ^^^ 3) &&& 2 : ℕ) - 1) = - insulOff 3 w i) := by
  decide +kernel

/-- `tq` is in the quadrant `w` of the insulation layer of `inq`. -/
structure InLayer (inq tq : Quad d) (w : ℕ) : Prop where
  aq : Aligned inq
  at_ : Aligned tq
  range : w < 3 ^ d
  middle : w ≠ 3 ^ d / 2
  sub : Cells tq ⊆ Cells (insulQuad inq w)
  level : inq.level < tq.level

theorem InLayer.bounds {inq tq : Quad d} {w : ℕ} (h : InLayer inq tq w) (i : Fin d) :
    inq.c i + insulOff d w i * qlen inq.level ≤ tq.c i ∧
    tq.c i + qlen tq.level ≤ inq.c i + insulOff d w i * qlen inq.level + qlen inq.level := by
  have h1 := h.sub
  rw [show Cells (insulQuad inq w) = BoxOf (insulQuad inq w).c (fun i => (insulQuad inq w).c i + side (insulQuad inq w)) from rfl,
    cells_sub_box] at h1
  exact h1 i

theorem InLayer.outside {inq tq : Quad d} {w : ℕ} (h : InLayer inq tq w) (i : Fin d) :
    outsideAt tq inq i = some (insulOff d w i) := by
  have hb := h.bounds i
  have h1 := qlen_pos tq.level
  have h2 := qlen_pos inq.level
  unfold outsideAt
  dsimp only
  rcases insulOff_cases w i with e | e | e <;> rw [e] at hb ⊢
  · rw [if_pos (by linarith), if_neg (by linarith)]
  · rw [if_neg (by linarith), if_neg (by linarith), if_neg (by linarith)]
  · rw [if_neg (by linarith), if_neg (by linarith), if_pos (by linarith)]

theorem InLayer.outs {inq tq : Quad d} {w : ℕ} (h : InLayer inq tq w) : outs tq inq = insulOff d w := by
  funext i
  unfold P4est.outs
  rw [h.outside i]
  rfl

theorem InLayer.touching {inq tq : Quad d} (hd : 0 < d) {w : ℕ} (h : InLayer inq tq w) :
    isAncestor inq (toward tq (insulOff d w)) = true ↔ Touching tq inq := by
  rw [isAncestor_iff hd h.aq (toward_aligned h.at_ _)]
  have hs : Cells (toward tq (insulOff d w)) ⊂ Cells inq ↔ Cells (toward tq (insulOff d w)) ⊆ Cells inq := by
    refine ⟨fun h => h.1, fun h1 => ⟨h1, fun h2 => ?_⟩⟩
    have := ((cells_subset_iff hd (toward_aligned h.at_ _) h.aq).mp h2).1
    have h3 := h.level
    have h4 : (toward tq (insulOff d w)).level = tq.level := rfl
    omega
  rw [hs, show Cells inq = BoxOf inq.c (fun i => inq.c i + side inq) from rfl, cells_sub_box]
  unfold Touching
  refine forall_congr' fun i => ?_
  have hb := h.bounds i
  have h1 := qlen_pos tq.level
  have h2 := qlen_pos inq.level
  have h3 : qlen tq.level ≤ qlen inq.level := by
    rw [side_qlen, side_qlen]
    exact pow_le_pow_right₀ (by norm_num) (by have := h.level; omega)
  have e1 : side (toward tq (insulOff d w)) = qlen tq.level := rfl
  have e2 : side tq = qlen tq.level := rfl
  have e3 : side inq = qlen inq.level := rfl
  have e4 : (toward tq (insulOff d w)).c i = tq.c i - insulOff d w i * qlen tq.level := rfl
  rw [e1, e2, e3, e4]
  rcases insulOff_cases w i with e | e | e <;> rw [e] at hb ⊢ <;> constructor <;> rintro ⟨a, b⟩ <;> constructor <;> linarith

open Classical in
/-- What the loop does with one leaf. -/
theorem overlapSplit_eq (hdim : d = 2 ∨ d = 3) {inq tq : Quad d} {w : ℕ} (h : InLayer inq tq w) :
    overlapSplit k inq tq ((insulToFace d).getD w (-1)) ((insulToEdge d).getD w (-1)) ((insulToCorner d).getD w (-1)) =
      if Touching tq inq then (false, []) else seedsOutside tq inq k := by
  have hd : 0 < d := by omega
  have ht := h.touching hd
  unfold overlapSplit seedsOutside
  rw [h.outs]
  have hr := h.range
  have hm := h.middle
  have stepf : (∀ i : Fin d, (if outsideFace (insulOff d w) ^^^ 1 = 2 * (i : ℕ) then (-1 : ℤ)
        else if outsideFace (insulOff d w) ^^^ 1 = 2 * (i : ℕ) + 1 then 1 else 0) = - insulOff d w i) →
      faceNeighbor tq (outsideFace (insulOff d w) ^^^ 1) = toward tq (insulOff d w) := by
    intro h1
    refine Quad.ext' (fun i => ?_) rfl
    unfold faceNeighbor toward
    dsimp only
    have h2 := h1 i
    split_ifs at h2 ⊢ <;> rw [show insulOff d w i = - _ from (neg_eq_iff_eq_neg.mp h2.symm)] <;> ring
  have stepc : (∀ i : Fin d, (if ((2 ^ d - 1) ^^^ outsideCorner (insulOff d w)).testBit i then (1 : ℤ) else -1) = - insulOff d w i) →
      cornerNeighbor tq ((2 ^ d - 1) ^^^ outsideCorner (insulOff d w)) = toward tq (insulOff d w) := by
    intro h1
    refine Quad.ext' (fun i => ?_) rfl
    unfold cornerNeighbor toward
    dsimp only
    rw [h1 i]
    ring
  rcases hdim with rfl | rfl
  · obtain ⟨t1, t2⟩ := table2 w (by simpa using hr) (by simpa using hm)
    by_cases h1 : outsideType (insulOff 2 w) = 1
    · obtain ⟨a1, a2, a3⟩ := t1 h1
      rw [a1, if_pos (by omega), Int.toNat_natCast, stepf a3, if_pos h1]
      split_ifs <;> simp_all
    · obtain ⟨a0, a1, a2, a3⟩ := t2 h1
      rw [a2, if_neg (by omega), if_neg (by omega), Int.toNat_natCast, stepc a3, if_neg h1, if_pos a0]
      split_ifs <;> simp_all
  · obtain ⟨t1, t2, t3⟩ := table3 w (by simpa using hr) (by simpa using hm)
    by_cases h1 : outsideType (insulOff 3 w) = 1
    · obtain ⟨a1, a2, a3⟩ := t1 h1
      rw [a1, if_pos (by omega), Int.toNat_natCast, stepf a3, if_pos h1]
      split_ifs <;> simp_all
    · by_cases h2 : outsideType (insulOff 3 w) = 3
      · obtain ⟨a1, a2, a3, a4⟩ := t2 h2
        rw [a3, if_neg (by omega), if_neg (by omega), Int.toNat_natCast, stepc a4, if_neg h1, if_pos h2]
        split_ifs <;> simp_all
      · obtain ⟨a1, a2, a3, a4⟩ := t3 h1 h2
        have stepe : edgeShift tq (outsideEdge (insulOff 3 w) ^^^ 3) = toward tq (insulOff 3 w) := by
          refine Quad.ext' (fun i => ?_) rfl
          unfold edgeShift toward
          dsimp only
          rw [a4 i]
          ring
        rw [a3, if_neg (by omega), if_pos (by omega), Int.toNat_natCast, stepe, if_neg h1, if_neg h2]
        split_ifs <;> simp_all

/-- Whether the quadrant of the layer is at a corner. -/
theorem insulCorner_iff (hdim : d = 2 ∨ d = 3) {w : ℕ} (hr : w < 3 ^ d) (hm : w ≠ 3 ^ d / 2) :
    (insulToCorner d).getD w (-1) ≥ 0 ↔ outsideType (insulOff d w) = d := by
  rcases hdim with rfl | rfl
  · obtain ⟨t1, t2⟩ := table2 w (by simpa using hr) (by simpa using hm)
    by_cases h1 : outsideType (insulOff 2 w) = 1
    · have := (t1 h1).2.1
      omega
    · have := t2 h1
      omega
  · obtain ⟨t1, t2, t3⟩ := table3 w (by simpa using hr) (by simpa using hm)
    by_cases h1 : outsideType (insulOff 3 w) = 1
    · have := (t1 h1).2.1
      omega
    · by_cases h2 : outsideType (insulOff 3 w) = 3
      · have := t2 h2
        omega
      · have := t3 h1 h2
        omega

end P4est
