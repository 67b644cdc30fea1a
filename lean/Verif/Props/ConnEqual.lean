import Verif.Model.ConnEqual
import Verif.Spec.File

/-! # C103: equality of connectivities -/

namespace P4est
open Spec

theorem memDiffers_full {α : Type*} [DecidableEq α] {n : ℕ} {a b : List α} (ha : a.length = n) (hb : b.length = n) :
    memDiffers n a b = some (decide (a ≠ b)) := by
  unfold memDiffers
  rw [if_pos ⟨ha.ge, hb.ge⟩, List.take_of_length_le ha.le, List.take_of_length_le hb.le]

/-- A test that decides whether `p` fails. -/
theorem returnZero_step {p r : Prop} [Decidable p] [Decidable r] {t : Option Bool} {l : List (Option Bool)}
    (ht : t = some (decide (¬ p))) (hr : r → p) (h : p → returnZeroIfAny l = some (decide r)) :
    returnZeroIfAny (t :: l) = some (decide r) := by
  rw [ht]
  by_cases hp : p
  · rw [show decide (¬ p) = false by simpa using hp]
    exact h hp
  · rw [show decide (¬ p) = true by simpa using hp, show decide r = false by simpa using fun x => hp (hr x)]
    rfl

/-- A test of arrays that may both be missing. -/
theorem arrays_test {there : Prop} [Decidable there] {size n : ℕ} {a b : List ℤ} (ha : ArrayOf there size n a)
    (hb : ArrayOf there size n b) :
    (if there then memDiffers n a b else some false) = some (decide (¬ a = b)) := by
  by_cases h : there
  · rw [if_pos h, memDiffers_full (ha.length h) (hb.length h)]
  · rw [if_neg h, ha.absent h, hb.absent h]; simp

/-- C103.  For two connectivities with arrays as documented `p4est_connectivity_is_equal` reads no array past its
end, and returns true if and only if all numbers and all arrays are the same.  Without edges or corners the
offset arrays have the one entry zero. -/
theorem C103_equal {d : ℕ} {c1 c2 : ConnFile} {e1 e2 k1 k2 : ℕ} (h1 : ConnShape d c1 e1 k1) (h2 : ConnShape d c2 e2 k2)
    (he1 : c1.numEdges = 0 → e1 = 0) (hk1 : c1.numCorners = 0 → k1 = 0) :
    connIsEqual d c1 c2 = some (decide (c1 = c2)) := by
  unfold connIsEqual
  split
  · next h =>
    rw [show decide (c1 = c2) = false by simp; rintro rfl; simp at h]
  · next h =>
    push Not at h
    obtain ⟨nv, nt, ne', nc⟩ := h
    have ne : c1.numEdges = c2.numEdges := by
      by_cases hd : d = 3
      · exact ne' hd
      · rw [(h1.noEdges hd).1, (h2.noEdges hd).1]
    have a2 := h2.treeToEdge
    have a3 := h2.treeToVertex
    have a4 := h2.treeToCorner
    have a5 := h2.treeToTree
    have a6 := h2.treeToFace
    have a7 := h2.ettOffset
    have a8 := h2.edgeToTree
    have a9 := h2.edgeToEdge
    have b1 := h2.cttOffset
    have b2 := h2.cornerToTree
    have b3 := h2.cornerToCorner
    have v2 := h2.vertices
    have t2 := h2.attr
    rw [← nt] at a2 a3 a4 a5 a6 t2
    rw [← nv] at a3 v2
    rw [← ne] at a2 a7 a8 a9
    rw [← nc] at a4 b1 b2 b3
    unfold connTests
    simp only [List.cons_append, List.nil_append]
    refine returnZero_step (p := c1.vertices = c2.vertices) ?_ (by rintro rfl; rfl) fun q1 => ?_
    · by_cases hv : c1.numVertices > 0
      · rw [if_pos hv, memDiffers_full h1.vertices v2]
      · rw [if_neg hv]
        have e : c1.numVertices = 0 := by omega
        have x1 := h1.vertices
        rw [e] at x1 v2
        have y1 : c1.vertices = [] := List.length_eq_zero_iff.mp (by simpa using x1)
        have y2 : c2.vertices = [] := List.length_eq_zero_iff.mp (by simpa using v2)
        rw [y1, y2]
        simp
    refine returnZero_step (p := c1.treeToVertex = c2.treeToVertex) (arrays_test h1.treeToVertex a3) (by rintro rfl; rfl) fun q2 => ?_
    refine returnZero_step (p := c1.treeToEdge = c2.treeToEdge) (arrays_test h1.treeToEdge a2) (by rintro rfl; rfl) fun q3 => ?_
    refine returnZero_step (p := c1.treeToCorner = c2.treeToCorner) (arrays_test h1.treeToCorner a4) (by rintro rfl; rfl) fun q4 => ?_
    refine returnZero_step (p := c1.treeToTree = c2.treeToTree) (memDiffers_full (h1.treeToTree.length trivial) (a5.length trivial))
      (by rintro rfl; rfl) fun q5 => ?_
    refine returnZero_step (p := c1.treeToFace = c2.treeToFace) (memDiffers_full (h1.treeToFace.length trivial) (a6.length trivial))
      (by rintro rfl; rfl) fun q6 => ?_
    refine returnZero_step (p := decide (c1.attr = []) = decide (c2.attr = [])) rfl (by rintro rfl; rfl) fun q7 => ?_
    refine returnZero_step (p := c1.attrBytes = c2.attrBytes) rfl (by rintro rfl; rfl) fun q8 => ?_
    refine returnZero_step (p := c1.attr = c2.attr) ?_ (by rintro rfl; rfl) fun q9 => ?_
    · by_cases hat : c1.attr = []
      · have hat2 : c2.attr = [] := by rw [hat] at q7; simpa using q7
        rw [hat, hat2]; simp
      · rw [if_pos hat, memDiffers_full h1.attr (by rw [t2, q8])]
    have fin : ∀ {l : List (Option Bool)}, (c1.ettOffset = c2.ettOffset → c1.edgeToTree = c2.edgeToTree →
        c1.edgeToEdge = c2.edgeToEdge → returnZeroIfAny l = some (decide (c1 = c2))) →
        returnZeroIfAny ((if d = 3 then
    [c1.ettOffset[c1.numEdges]?.map fun _ => false,
     memDiffers (c1.numEdges + 1) c1.ettOffset c2.ettOffset,
     c1.ettOffset[c1.numEdges]?.bind fun n => memDiffers n.toNat c1.edgeToTree c2.edgeToTree,
     c1.ettOffset[c1.numEdges]?.bind fun n => memDiffers n.toNat c1.edgeToEdge c2.edgeToEdge] else []) ++ l) = some (decide (c1 = c2)) := by
      intro l hl
      by_cases hd : d = 3
      · have hlast := h1.ettLast hd
        rw [if_pos hd]
        simp only [List.cons_append, List.nil_append]
        rw [hlast]
        simp only [Option.map_some, Option.bind_some, Int.toNat_natCast]
        refine returnZero_step (p := True) (by simp) (fun _ => trivial) fun _ => ?_
        refine returnZero_step (p := c1.ettOffset = c2.ettOffset) (memDiffers_full (h1.ettOffset.length hd) (a7.length hd))
          (by rintro rfl; rfl) fun r1 => ?_
        have hee : e1 = e2 := by
          have := h2.ettLast hd
          rw [← r1, ← ne, hlast] at this
          simpa using this
        have hz : ¬ (0 < c1.numEdges) → e1 = 0 := fun h => he1 (by omega)
        have len : ∀ {size : ℕ} {a : List ℤ}, ArrayOf (d = 3 ∧ 0 < c1.numEdges) size e1 a → a.length = e1 := fun {size a} ha => by
          by_cases hp : 0 < c1.numEdges
          · exact ha.length ⟨hd, hp⟩
          · rw [ha.absent (fun x => hp x.2), hz hp]; rfl
        refine returnZero_step (p := c1.edgeToTree = c2.edgeToTree) (memDiffers_full (len h1.edgeToTree) (len (hee ▸ a8)))
          (by rintro rfl; rfl) fun r2 => ?_
        refine returnZero_step (p := c1.edgeToEdge = c2.edgeToEdge) (memDiffers_full (len h1.edgeToEdge) (len (hee ▸ a9)))
          (by rintro rfl; rfl) fun r3 => ?_
        exact hl r1 r2 r3
      · rw [if_neg hd]
        exact hl (by rw [h1.ettOffset.absent hd, a7.absent hd])
          (by rw [h1.edgeToTree.absent (fun x => hd x.1), a8.absent (fun x => hd x.1)])
          (by rw [h1.edgeToEdge.absent (fun x => hd x.1), a9.absent (fun x => hd x.1)])
    refine fin fun r1 r2 r3 => ?_
    have hlast := h1.cttLast
    rw [hlast]
    simp only [Option.map_some, Option.bind_some, Int.toNat_natCast]
    refine returnZero_step (p := True) (by simp) (fun _ => trivial) fun _ => ?_
    refine returnZero_step (p := c1.cttOffset = c2.cttOffset) (memDiffers_full (h1.cttOffset.length trivial) (b1.length trivial))
      (by rintro rfl; rfl) fun s1 => ?_
    have hkk : k1 = k2 := by
      have := h2.cttLast
      rw [← s1, ← nc, hlast] at this
      simpa using this
    have len : ∀ {size : ℕ} {a : List ℤ}, ArrayOf (0 < c1.numCorners) size k1 a → a.length = k1 := fun {size a} ha => by
      by_cases hp : 0 < c1.numCorners
      · exact ha.length hp
      · rw [ha.absent hp, hk1 (by omega)]; rfl
    refine returnZero_step (p := c1.cornerToTree = c2.cornerToTree) (memDiffers_full (len h1.cornerToTree) (len (hkk ▸ b2)))
      (by rintro rfl; rfl) fun s2 => ?_
    refine returnZero_step (p := c1.cornerToCorner = c2.cornerToCorner) (memDiffers_full (len h1.cornerToCorner) (len (hkk ▸ b3)))
      (by rintro rfl; rfl) fun s3 => ?_
    have : c1 = c2 := by
      cases c1; cases c2
      simp only at *
      subst nv nt ne nc q1 q2 q3 q4 q5 q6 q8 q9 r1 r2 r3 s1 s2 s3
      rfl
    simp [this, returnZeroIfAny]

/-- One square with a periodic corner, and the same with another vertex. -/
def periodicSquare (x : Byte) : ConnFile where
  numVertices := 1
  numTrees := 1
  numEdges := 0
  numCorners := 1
  attrBytes := 0
  vertices := x :: List.replicate 23 0
  treeToEdge := []
  treeToVertex := [0, 0, 0, 0]
  treeToCorner := [0, 0, 0, 0]
  treeToTree := [0, 0, 0, 0]
  treeToFace := [1, 0, 3, 2]
  attr := []
  ettOffset := []
  edgeToTree := []
  edgeToEdge := []
  cttOffset := [0, 4]
  cornerToTree := [0, 0, 0, 0]
  cornerToCorner := [0, 1, 2, 3]

example (x : Byte) : ConnShape 2 (periodicSquare x) 0 4 where
  vertices := by simp [periodicSquare]
  treeToEdge := ⟨fun _ => rfl, by simp, by simp [Fits, periodicSquare]⟩
  treeToVertex := ⟨by simp [periodicSquare], fun _ => rfl, by simp [Fits, periodicSquare]⟩
  treeToCorner := ⟨by simp [periodicSquare], fun _ => rfl, by simp [Fits, periodicSquare]⟩
  treeToTree := ⟨by simp, fun _ => rfl, by simp [Fits, periodicSquare]⟩
  treeToFace := ⟨by simp, fun _ => rfl, by simp [Fits, periodicSquare]⟩
  attr := rfl
  ettOffset := ⟨fun _ => rfl, by simp, by simp [Fits, periodicSquare]⟩
  edgeToTree := ⟨fun _ => rfl, by simp, by simp [Fits, periodicSquare]⟩
  edgeToEdge := ⟨fun _ => rfl, by simp, by simp [Fits, periodicSquare]⟩
  cttOffset := ⟨by simp, fun _ => rfl, by simp [Fits, periodicSquare]⟩
  cornerToTree := ⟨by simp [periodicSquare], fun _ => rfl, by simp [Fits, periodicSquare]⟩
  cornerToCorner := ⟨by simp [periodicSquare], fun _ => rfl, by simp [Fits, periodicSquare]⟩
  ettLast := by simp
  cttLast := rfl
  noEdges := fun _ => ⟨rfl, rfl⟩
  numTrees := by simp [periodicSquare]
  numVertices := by simp [periodicSquare]
  numEdges := by simp [periodicSquare]
  numEtt := by simp
  numCorners := by simp [periodicSquare]
  numCtt := by simp
  attrBytes := by simp [periodicSquare]

example : connIsEqual 2 (periodicSquare 1) (periodicSquare 1) = some true ∧ connIsEqual 2 (periodicSquare 1) (periodicSquare 2) = some false :=
  ⟨by decide +kernel, by decide +kernel⟩

end P4est
