import Verif.Model.TransformEdge
import Verif.Spec.EdgeAlong
import Verif.Props.ShiftEdge

/-! # C102: octants across an edge between two trees -/

namespace P4est
open Spec

/-- The coordinate picked by the first switch. -/
theorem pick_axis (q : Quad 3) {edge : ℕ} {a : Fin 3} (ha : (a : ℕ) = edge / 4) :
    (if edge / 4 = 0 then q.c 0 else if edge / 4 = 1 then q.c 1 else q.c 2) = q.c a := by
  rw [← ha]
  fin_cases a <;> simp

/-- The coordinates of the image by the ends of the edge. -/
theorem edgeImage_c (q : Quad 3) {iedge nedge : ℕ} (hn : nedge < 12) {a : Fin 3} (ha : (a : ℕ) = iedge / 4)
    (flip inside : Bool) (j : Fin 3) :
    (edgeImage q iedge (edgeTransformOf nedge flip) inside).c j =
      if (j : ℕ) = nedge / 4 then
        (if flip then rootLen + (if q.level = MAXLEVEL then 0 else -qlen q.level) - q.c a else q.c a)
      else if edgeEnd nedge j then
        (if q.level = MAXLEVEL then rootLen else if inside then rootLen + -qlen q.level else rootLen)
      else (if q.level = MAXLEVEL then 0 else if inside then 0 else -qlen q.level) := by
  unfold edgeImage
  dsimp only
  rw [pick_axis q ha]
  have hr : (if q.level = MAXLEVEL then rootLen else if inside then rootLen + (if q.level = MAXLEVEL then 0 else -qlen q.level)
      else rootLen) = (if q.level = MAXLEVEL then rootLen else if inside then rootLen + -qlen q.level else rootLen) := by
    split <;> rfl
  have hl : (if q.level = MAXLEVEL then 0 else if inside then 0 else (if q.level = MAXLEVEL then 0 else -qlen q.level)) =
      (if q.level = MAXLEVEL then (0 : ℤ) else if inside then 0 else -qlen q.level) := by
    split <;> rfl
  rw [hr, hl]
  generalize (if q.level = MAXLEVEL then rootLen else if inside then rootLen + -qlen q.level else rootLen) = R
  generalize (if q.level = MAXLEVEL then (0 : ℤ) else if inside then 0 else -qlen q.level) = L
  have ht : edgeTransformOf nedge flip = ⟨nedge, ![nedge / 4, if nedge < 4 then 1 else 0, if nedge < 8 then 2 else 1], flip, nedge % 4⟩ := rfl
  rw [ht]
  dsimp only
  generalize (if flip then rootLen + (if q.level = MAXLEVEL then 0 else -qlen q.level) - q.c a else q.c a) = Y
  interval_cases nedge <;> fin_cases j <;> simp [edgeEnd, Nat.testBit]

/-- Touching an edge, one axis at a time. -/
theorem touchesEdge_iff {q : Quad 3} {edge : ℕ} (he : edge < 12) (inside : Bool) :
    touchesEdge q edge inside = true ↔ ∀ i : Fin 3, (i : ℕ) ≠ edge / 4 → q.c i =
      if edgeEnd edge i then
        (if q.level = MAXLEVEL then rootLen - (if inside then 1 else 0) else if inside then lastOffsetAt q.level else rootLen)
      else (if q.level = MAXLEVEL then 0 else if inside then 0 else -qlen q.level) := by
  unfold touchesEdge
  simp only [decide_eq_true_eq]
  rw [sum_two he]

/-- The last assertion never fails. -/
theorem edgeImage_touches (q : Quad 3) {iedge nedge : ℕ} (hi : iedge < 12) (hn : nedge < 12) (flip inside : Bool)
    (h : q.level = MAXLEVEL → inside = false) :
    touchesEdge (edgeImage q iedge (edgeTransformOf nedge flip) inside) nedge inside = true := by
  rw [touchesEdge_iff hn]
  intro j hj
  rw [edgeImage_c q hn (a := ⟨iedge / 4, by omega⟩) rfl, if_neg hj, show (edgeImage q iedge (edgeTransformOf nedge flip) inside).level = q.level from rfl]
  by_cases hl : q.level = MAXLEVEL
  · rw [h hl]; simp [hl]
  · simp only [hl, if_false]
    unfold lastOffsetAt
    rw [sub_eq_add_neg]

theorem mem_alongEdge {edge : ℕ} {t : Quad 3} {a : Fin 3} (ha : (a : ℕ) = edge / 4) {y : ℤ} :
    y ∈ AlongEdge edge t ↔ t.c a ≤ y ∧ y < t.c a + side t := by
  constructor
  · rintro ⟨x, hx, h⟩
    rw [← h a ha]
    exact hx a
  · intro h
    refine ⟨fun i => if i = a then y else t.c i, fun i => ?_, fun i hi => ?_⟩
    · by_cases hia : i = a
      · subst hia; simpa using h
      · have := side_pos t
        simp only [hia, if_false]
        constructor <;> omega
    · have : i = a := Fin.val_inj.mp (by rw [hi, ha])
      simp [this]

/-- What both directions share: the image exists, and its positions are those of the octant, maybe mirrored. -/
theorem transformEdge_some {q : Quad 3} (h29 : q.level ≤ 29) {iedge nedge : ℕ} (hi : iedge < 12) (hn : nedge < 12)
    (flip inside : Bool) (ht : touchesEdge q iedge (!inside) = true) :
    transformEdge q iedge (edgeTransformOf nedge flip) inside = some (edgeImage q iedge (edgeTransformOf nedge flip) inside) := by
  have hl : q.level ≠ MAXLEVEL := by unfold MAXLEVEL; omega
  unfold transformEdge
  rw [if_neg hl, if_pos ht]
  exact if_pos (edgeImage_touches q hi hn flip inside (fun h => absurd h hl))

theorem edgeImage_along {q : Quad 3} (h29 : q.level ≤ 29) {iedge nedge : ℕ} (hi : iedge < 12) (hn : nedge < 12)
    (flip inside : Bool) (y : ℤ) :
    y ∈ AlongEdge nedge (edgeImage q iedge (edgeTransformOf nedge flip) inside) ↔
      (if flip then 2 ^ 30 - 1 - y else y) ∈ AlongEdge iedge q := by
  have hl : q.level ≠ MAXLEVEL := by unfold MAXLEVEL; omega
  have hs : side (edgeImage q iedge (edgeTransformOf nedge flip) inside) = side q := rfl
  rw [mem_alongEdge (a := ⟨nedge / 4, by omega⟩) rfl, mem_alongEdge (a := ⟨iedge / 4, by omega⟩) rfl,
    edgeImage_c q hn (a := ⟨iedge / 4, by omega⟩) rfl, if_pos rfl, hs, if_neg hl, qlen_eq_side]
  unfold rootLen MAXLEVEL
  cases flip
  · simp
  · simp only [if_true]
    constructor <;> rintro ⟨h1, h2⟩ <;> constructor <;> omega

theorem edgeImage_aligned {q : Quad 3} (h29 : q.level ≤ 29) (hq : Aligned q) {iedge nedge : ℕ} (hi : iedge < 12)
    (hn : nedge < 12) (flip inside : Bool) : Aligned (edgeImage q iedge (edgeTransformOf nedge flip) inside) := by
  have hl : q.level ≠ MAXLEVEL := by unfold MAXLEVEL; omega
  refine ⟨hq.1, fun j => ?_⟩
  rw [show side (edgeImage q iedge (edgeTransformOf nedge flip) inside) = side q from rfl,
    edgeImage_c q hn (a := ⟨iedge / 4, by omega⟩) rfl]
  simp only [if_neg hl, qlen_eq_side]
  have h1 := hq.2 ⟨iedge / 4, by omega⟩
  have h2 : side q ∣ rootLen := side_divides_root q
  have h3 : side q ∣ -side q := (dvd_neg).mpr dvd_rfl
  split
  · split
    · exact dvd_sub (dvd_add h2 h3) h1
    · exact h1
  · split <;> split
    · exact dvd_add h2 h3
    · exact h2
    · exact dvd_zero _
    · exact h3

theorem side_le_root (q : Quad d) : side q ≤ 2 ^ 30 := Int.le_of_dvd (by norm_num) (side_divides_root q)

/-- C102.  Placing inside.  Let the octant `q` lie diagonally across the edge `iedge` of its tree, beside the tree
along the edge.  Its transform to a tree that meets the edge with its edge `nedge` violates no assertion.  It is a
valid octant of this tree, of the same level, at the edge `nedge`, and covers along the edge the same positions
as `q`, counted from the other end if the edges run in opposite directions. -/
theorem C102_inside {q : Quad 3} (hq : Extended q) {iedge nedge : ℕ} (hi : iedge < 12) (hn : nedge < 12) (flip : Bool)
    (hac : AcrossEdge iedge q) (hin : ∀ y ∈ AlongEdge iedge q, 0 ≤ y ∧ y < 2 ^ 30) :
    ∃ r, transformEdge q iedge (edgeTransformOf nedge flip) true = some r ∧ Valid r ∧ r.level = q.level ∧
      AtEdge nedge r ∧ ∀ y, y ∈ AlongEdge nedge r ↔ (if flip then 2 ^ 30 - 1 - y else y) ∈ AlongEdge iedge q := by
  have hl : q.level ≠ MAXLEVEL := by have := hq.1; unfold MAXLEVEL; omega
  have hv : Valid (edgeImage q iedge (edgeTransformOf nedge flip) true) := by
    refine ⟨hq.1, edgeImage_aligned hq.1 hq.2.1 hi hn _ _, fun j => ?_⟩
    have hp := side_pos q
    have hr := side_le_root q
    by_cases hj : (j : ℕ) = nedge / 4
    · have h := edgeImage_along hq.1 hi hn flip true ((edgeImage q iedge (edgeTransformOf nedge flip) true).c j)
      rw [mem_alongEdge hj] at h
      have := hin _ (h.mp ⟨le_rfl, by have := side_pos (edgeImage q iedge (edgeTransformOf nedge flip) true); omega⟩)
      cases flip
      · simpa using this
      · simp only [if_true] at this; constructor <;> omega
    · rw [edgeImage_c q hn (a := ⟨iedge / 4, by omega⟩) rfl]
      simp only [if_neg hj, if_neg hl, if_true, qlen_eq_side]
      unfold rootLen MAXLEVEL
      split <;> constructor <;> omega
  refine ⟨_, transformEdge_some hq.1 hi hn flip true ((C99_touches_outside hq hi).mpr hac), hv, rfl, ?_, edgeImage_along hq.1 hi hn flip true⟩
  exact (C99_touches_inside hv hn).mp (edgeImage_touches q hi hn flip true (fun h => absurd h hl))

/-- C102.  Placing outside.  The transform of a valid octant at the edge `iedge` violates no assertion.  It is an
octant beside the other tree, of the same level, diagonally across its edge `nedge`, at the same positions along
the edge. -/
theorem C102_outside {q : Quad 3} (hq : Valid q) {iedge nedge : ℕ} (hi : iedge < 12) (hn : nedge < 12) (flip : Bool)
    (hat : AtEdge iedge q) :
    ∃ r, transformEdge q iedge (edgeTransformOf nedge flip) false = some r ∧ Extended r ∧ r.level = q.level ∧
      AcrossEdge nedge r ∧ ∀ y, y ∈ AlongEdge nedge r ↔ (if flip then 2 ^ 30 - 1 - y else y) ∈ AlongEdge iedge q := by
  have hl : q.level ≠ MAXLEVEL := by have := hq.1; unfold MAXLEVEL; omega
  have hv : Extended (edgeImage q iedge (edgeTransformOf nedge flip) false) := by
    refine ⟨hq.1, edgeImage_aligned hq.1 hq.2.1 hi hn _ _, fun j => ?_⟩
    have hp := side_pos q
    have hr := side_le_root q
    have hc := hq.2.2 ⟨iedge / 4, by omega⟩
    rw [edgeImage_c q hn (a := ⟨iedge / 4, by omega⟩) rfl]
    simp only [if_neg hl, Bool.false_eq_true, if_false, qlen_eq_side]
    unfold rootLen MAXLEVEL
    split
    · split <;> constructor <;> omega
    · split <;> constructor <;> omega
  refine ⟨_, transformEdge_some hq.1 hi hn flip false ((C99_touches_inside hq hi).mpr hat), hv, rfl, ?_, edgeImage_along hq.1 hi hn flip false⟩
  exact (C99_touches_outside hv hn).mp (edgeImage_touches q hi hn flip false (fun h => absurd h hl))

/-- C102.  A point of the edge, given as a node, goes to the same point of the other edge. -/
theorem C102_node {q : Quad 3} (hq : q.level = 30) {iedge nedge : ℕ} (hi : iedge < 12) (hn : nedge < 12) (flip : Bool)
    {y : ℤ} (hp : PointOnEdge iedge y q.c) :
    ∃ r, transformEdge q iedge (edgeTransformOf nedge flip) false = some r ∧ r.level = 30 ∧
      PointOnEdge nedge (if flip then 2 ^ 30 - y else y) r.c := by
  have hl : q.level = MAXLEVEL := hq
  have ht : touchesEdge q iedge false = true := by
    rw [touchesEdge_iff hi]
    intro i hia
    rw [hp i, if_neg hia, edgeEnd_eq hia]
    simp only [hl, if_true, Bool.false_eq_true, if_false, sub_zero]
    rfl
  refine ⟨edgeImage q iedge (edgeTransformOf nedge flip) false, ?_, hq, fun j => ?_⟩
  · unfold transformEdge
    rw [if_pos hl, ht]
    exact if_pos (edgeImage_touches q hi hn flip false (fun _ => rfl))
  · rw [edgeImage_c q hn (a := ⟨iedge / 4, by omega⟩) rfl]
    simp only [if_pos hl]
    have hy := hp ⟨iedge / 4, by omega⟩
    rw [if_pos rfl] at hy
    rw [hy, add_zero]
    by_cases hj : (j : ℕ) = nedge / 4
    · rw [if_pos hj, if_pos hj]; rfl
    · rw [if_neg hj, if_neg hj, edgeEnd_eq hj]; rfl

/-- C102.  Coordinates of a point of the edge go to the same point of the other edge, too, and back. -/
theorem C102_coordinates {p : Fin 3 → ℤ} {iedge nedge : ℕ} (hi : iedge < 12) (hn : nedge < 12) (flip : Bool) {y : ℤ}
    (hp : PointOnEdge iedge y p) :
    PointOnEdge nedge (if flip then 2 ^ 30 - y else y) (coordinatesTransformEdge p iedge (edgeTransformOf nedge flip)) ∧
      coordinatesTransformEdge (coordinatesTransformEdge p iedge (edgeTransformOf nedge flip)) nedge
        (edgeTransformOf iedge flip) = p := by
  have key : ∀ {p : Fin 3 → ℤ} {iedge nedge : ℕ} (_ : iedge < 12) (_ : nedge < 12) {y : ℤ}, PointOnEdge iedge y p →
      PointOnEdge nedge (if flip then 2 ^ 30 - y else y) (coordinatesTransformEdge p iedge (edgeTransformOf nedge flip)) := by
    intro p iedge nedge hi hn y hp
    obtain ⟨r, hr, -, h⟩ := C102_node (q := ⟨p, 30⟩) rfl hi hn flip hp
    have he : coordinatesTransformEdge p iedge (edgeTransformOf nedge flip) =
        (edgeImage ⟨p, 30⟩ iedge (edgeTransformOf nedge flip) false).c := by
      unfold coordinatesTransformEdge edgeImage
      simp [MAXLEVEL]
    have hr' : r = edgeImage ⟨p, 30⟩ iedge (edgeTransformOf nedge flip) false := by
      unfold transformEdge at hr
      split_ifs at hr <;> exact (Option.some.inj hr).symm
    rw [he, ← hr']
    exact h
  refine ⟨key hi hn hp, ?_⟩
  have := key hn hi (key hi hn hp)
  funext j
  rw [this j, hp j]
  cases flip <;> simp

/-- C102.  The transform back across the edge, with the other placement, undoes the transform. -/
theorem C102_back {q r : Quad 3} (h29 : q.level ≤ 29) {iedge nedge : ℕ} (hi : iedge < 12) (hn : nedge < 12)
    {flip inside : Bool} (h : transformEdge q iedge (edgeTransformOf nedge flip) inside = some r) :
    transformEdge r nedge (edgeTransformOf iedge flip) (!inside) = some q := by
  have hl : q.level ≠ MAXLEVEL := by unfold MAXLEVEL; omega
  have ht : touchesEdge q iedge (!inside) = true := by
    by_contra hc
    unfold transformEdge at h
    rw [if_neg hl, if_neg hc] at h
    cases h
  rw [transformEdge_some h29 hi hn flip inside ht] at h
  have hr := (Option.some.inj h).symm
  have hrl : r.level = q.level := by rw [hr]; rfl
  have hrt : touchesEdge r nedge (!!inside) = true := by
    rw [Bool.not_not, hr]
    exact edgeImage_touches q hi hn flip inside (fun h => absurd h hl)
  rw [transformEdge_some (by omega) hn hi flip (!inside) hrt]
  congr 1
  have hc : ∀ j, (edgeImage r nedge (edgeTransformOf iedge flip) (!inside)).c j = q.c j := fun j => by
    rw [edgeImage_c r hi (a := ⟨nedge / 4, by omega⟩) rfl, hrl]
    simp only [if_neg hl]
    by_cases hj : (j : ℕ) = iedge / 4
    · have hrc : r.c ⟨nedge / 4, by omega⟩ = if flip then rootLen + -qlen q.level - q.c j else q.c j := by
        rw [hr, edgeImage_c q hn (a := j) hj, if_pos rfl, if_neg hl]
      rw [if_pos hj, hrc]
      cases flip
      · simp
      · simp
    · have := (touchesEdge_iff hi _).mp ht j hj
      simp only [if_neg hl] at this
      rw [if_neg hj, this]
      unfold lastOffsetAt
      rw [sub_eq_add_neg]
  have hlev : (edgeImage r nedge (edgeTransformOf iedge flip) (!inside)).level = q.level := hrl
  generalize edgeImage r nedge (edgeTransformOf iedge flip) (!inside) = s at *
  cases s; cases q
  simp only at hlev hc
  subst hlev
  congr 1
  exact funext hc

/-- An octant across edge 1, placed at edge 10 of a tree that runs in the opposite direction, and back. -/
example : Extended (⟨![2 ^ 27, 2 ^ 30, -2 ^ 27], 3⟩ : Quad 3) ∧
    (transformEdge (⟨![2 ^ 27, 2 ^ 30, -2 ^ 27], 3⟩ : Quad 3) 1 (edgeTransformOf 10 true) true).map
      (fun r => (List.ofFn r.c, r.level)) = some ([0, 7 * 2 ^ 27, 6 * 2 ^ 27], 3) ∧
    (transformEdge (⟨![0, 7 * 2 ^ 27, 6 * 2 ^ 27], 3⟩ : Quad 3) 10 (edgeTransformOf 1 true) false).map
      (fun r => (List.ofFn r.c, r.level)) = some ([2 ^ 27, 2 ^ 30, -2 ^ 27], 3) ∧
    (transformEdge (⟨![5, 2 ^ 30, 0], 30⟩ : Quad 3) 1 (edgeTransformOf 10 true) false).map
      (fun r => (List.ofFn r.c, r.level)) = some ([0, 2 ^ 30, 2 ^ 30 - 5], 30) :=
  ⟨isExtended_iff.mp (by decide +kernel), by decide +kernel, by decide +kernel, by decide +kernel⟩

end P4est
