import Verif.Lemmas.ShiftEdge
import Verif.Props.ShiftCorner

/-! # C99: octants at the edges of a tree -/

namespace P4est
open Spec

/-- The two ways to name the ends agree. -/
theorem edgeEnd_eq {edge : ℕ} {i : Fin 3} (hi : (i : ℕ) ≠ edge / 4) :
    edgeEnd edge i = edge.testBit (if (i : ℕ) = 0 ∨ (i : ℕ) = 1 ∧ edge / 4 = 0 then 0 else 1) := by
  unfold edgeEnd
  rw [if_neg hi]
  by_cases h0 : (i : ℕ) = 0
  · simp [h0]
  · by_cases h1 : (i : ℕ) = 1
    · by_cases h2 : edge / 4 = 0 <;> simp [h1, h2]
    · simp [h0, h1]

theorem sum_two {edge : ℕ} (he : edge < 12) {p : Fin 3 → Prop} [DecidablePred p] :
    (∑ i : Fin 3, if (i : ℕ) ≠ edge / 4 ∧ p i then 1 else 0) = 2 ↔ ∀ i : Fin 3, (i : ℕ) ≠ edge / 4 → p i := by
  have h3 : edge / 4 < 3 := by omega
  generalize edge / 4 = a at *
  rw [Fin.sum_univ_three]
  by_cases h0 : p 0 <;> by_cases h1 : p 1 <;> by_cases h2 : p 2 <;>
    interval_cases a <;> simp [Fin.forall_fin_succ, h0, h1, h2]

/-- One axis of `touches`. -/
theorem upper_end {q : Quad 3} (hq : Valid q) (i : Fin 3) (b : Bool) :
    q.c i = (if b then lastOffsetAt q.level else 0) ↔
      q.c i ≤ (if b then 2 ^ 30 - 1 else 0) ∧ (if b then 2 ^ 30 - 1 else 0) < q.c i + side q := by
  have h1 := side_pos q
  have h2 := hq.2.1.2 i
  have h4 := hq.2.2 i
  unfold lastOffsetAt rootLen MAXLEVEL
  rw [qlen_eq_side]
  cases b
  · simp only [Bool.false_eq_true, if_false]
    exact (cell_multiple h1 h2 (dvd_zero _)).symm
  · simp only [if_true]
    have h3 : q.c i ≤ 2 ^ 30 - side q := by
      obtain ⟨a, ha⟩ := h2
      obtain ⟨b, hb⟩ := side_divides_root q
      have h4 := h4.2
      rw [ha, hb] at *
      have : a < b := by by_contra h; nlinarith
      nlinarith
    omega

/-- `p8est_quadrant_touches_edge` with `inside` tells whether an octant of the tree has a cell at the edge. -/
theorem C99_touches_inside {q : Quad 3} (hq : Valid q) {edge : ℕ} (he : edge < 12) :
    touchesEdge q edge true = true ↔ AtEdge edge q := by
  have h29 := hq.1
  unfold touchesEdge
  simp only [MAXLEVEL, show q.level ≠ 30 by omega, if_true, if_false, decide_eq_true_eq]
  rw [sum_two he]
  constructor
  · intro h
    refine ⟨fun i => if (i : ℕ) = edge / 4 then q.c i else if edgeEnd edge i then 2 ^ 30 - 1 else 0, fun i => ?_, fun i hi => ?_⟩
    · dsimp only
      by_cases hi : (i : ℕ) = edge / 4
      · rw [if_pos hi]; have := side_pos q; constructor <;> omega
      · rw [if_neg hi]; exact (upper_end hq i _).mp (h i hi)
    · dsimp only
      rw [if_neg hi, edgeEnd_eq hi]
  · rintro ⟨x, hx, h⟩ i hi
    have := hx i
    rw [h i hi, ← edgeEnd_eq hi] at this
    exact (upper_end hq i _).mpr this

theorem outer_end {q : Quad 3} (hq : Aligned q) (i : Fin 3) (b : Bool) :
    q.c i = (if b then rootLen else -side q) ↔
      q.c i ≤ (if b then 2 ^ 30 else -1) ∧ (if b then 2 ^ 30 else -1) < q.c i + side q := by
  have h1 := side_pos q
  have h2 := hq.2 i
  unfold rootLen MAXLEVEL
  cases b
  · simp only [Bool.false_eq_true, if_false]
    obtain ⟨a, ha⟩ := h2
    rw [ha]
    constructor
    · intro h; rw [h]; constructor <;> omega
    · rintro ⟨h3, h4⟩
      have e1 : a < 0 := by by_contra h; nlinarith
      have e2 : -1 ≤ a := by by_contra h; nlinarith
      have : a = -1 := by omega
      rw [this]; ring
  · simp only [if_true]
    exact (cell_multiple h1 h2 (side_divides_root q)).symm

/-- Without `inside` it tells whether an octant has a cell diagonally across the edge. -/
theorem C99_touches_outside {q : Quad 3} (hq : Extended q) {edge : ℕ} (he : edge < 12) :
    touchesEdge q edge false = true ↔ AcrossEdge edge q := by
  have h29 := hq.1
  unfold touchesEdge
  simp only [MAXLEVEL, show q.level ≠ 30 by omega, if_false, decide_eq_true_eq, Bool.false_eq_true]
  rw [sum_two he]
  constructor
  · intro h
    refine ⟨fun i => if (i : ℕ) = edge / 4 then q.c i else if edgeEnd edge i then 2 ^ 30 else -1, fun i => ?_, fun i hi => ?_⟩
    · dsimp only
      by_cases hi : (i : ℕ) = edge / 4
      · rw [if_pos hi]; have := side_pos q; constructor <;> omega
      · rw [if_neg hi]; exact (outer_end hq.2.1 i _).mp (h i hi)
    · dsimp only
      rw [if_neg hi, edgeEnd_eq hi]
  · rintro ⟨x, hx, h⟩ i hi
    have := hx i
    rw [h i hi, ← edgeEnd_eq hi] at this
    exact (outer_end hq.2.1 i _).mpr this

/-- Every valid octant has a place. -/
theorem exists_placed {d : ℕ} {q : Quad d} (hq : Valid q) (b : Fin d → Bool) :
    ∃ e : Fin d → ℤ, Placed q q.level b e ∧ ∀ i, 0 ≤ e i ∧ e i < 2 ^ q.level := by
  have hP : (0 : ℤ) < 2 ^ (30 - q.level) := by positivity
  have h30 := pow_all (l := q.level) (by have := hq.1; omega)
  have hn : ∀ i, 0 ≤ q.c i / 2 ^ (30 - q.level) ∧ q.c i / 2 ^ (30 - q.level) < 2 ^ q.level := fun i => by
    have h1 := hq.2.2 i
    refine ⟨Int.ediv_nonneg h1.1 hP.le, Int.ediv_lt_of_lt_mul hP ?_⟩
    rw [mul_comm, h30]; exact h1.2
  refine ⟨fun i => if b i then 2 ^ q.level - 1 - q.c i / 2 ^ (30 - q.level) else q.c i / 2 ^ (30 - q.level),
    ⟨rfl, fun i => ?_⟩, fun i => ?_⟩
  · have := hq.aligned.c_eq i
    unfold fromEnd
    dsimp only
    generalize b i = b
    cases b
    · simpa using this
    · simpa using this
  · have := hn i
    dsimp only
    split <;> omega

/-- The place of an octant at an edge. -/
theorem placed_atEdge {t : Quad 3} (ht : Valid t) {edge : ℕ} (he : edge < 12) {f : Fin 3 → ℤ}
    (h : Placed t t.level (edgeEnd edge) f) : AtEdge edge t ↔ ∀ i : Fin 3, (i : ℕ) ≠ edge / 4 → f i = 0 := by
  rw [← C99_touches_inside ht he]
  have h29 := ht.1
  unfold touchesEdge
  simp only [MAXLEVEL, show t.level ≠ 30 by omega, if_true, if_false, decide_eq_true_eq]
  rw [sum_two he]
  refine forall_congr' fun i => imp_congr_right fun hi => ?_
  have h30 := pow_all (l := t.level) (by omega)
  have hP : (0 : ℤ) < 2 ^ (30 - t.level) := by positivity
  rw [h.2 i]
  unfold lastOffsetAt rootLen MAXLEVEL fromEnd
  rw [qlen_def, ← h30]
  generalize (2 : ℤ) ^ t.level = K at *
  generalize (2 : ℤ) ^ (30 - t.level) = P at *
  cases edgeEnd edge i
  · simp only [Bool.false_eq_true, if_false]
    constructor
    · intro h; exact (mul_eq_zero.mp h).resolve_left (by omega)
    · intro h; rw [h]; simp
  · simp only [if_true]
    constructor
    · intro h
      have : P * f i = 0 := by linarith
      exact (mul_eq_zero.mp this).resolve_left (by omega)
    · intro h; rw [h]; ring

/-- C99.  `p8est_quadrant_shift_edge` ends without a failed assertion for every valid octant `q` other than the
root.  Its three results are valid octants of one level that touch the edge from the inside, and `r` is at the
height of `q`.  Consider the corner-balanced meshes of the tree that have no octant properly around `q`.  No
octant of the level of the results at the edge is divided in all of them; of the octants at the edge of the
next coarser level, exactly those from the parent of `rdown` to the parent of `rup` are divided in all of them. -/
theorem C99_shift_edge {q : Quad 3} (hq : Valid q) (h0 : 0 < q.level) {edge : ℕ} (he : edge < 12) {a : Fin 3}
    (ha : (a : ℕ) = edge / 4) :
    ∃ r rup rdown, shiftEdge q edge = some (r, rup, rdown) ∧
      (∀ s ∈ [r, rup, rdown], Valid s ∧ s.level = r.level ∧ 0 < s.level ∧ touchesEdge s edge true = true) ∧
      (r.c a ≤ q.c a ∧ q.c a + side q ≤ r.c a + side r) ∧
      (∀ t, Valid t → AtEdge edge t → t.level = r.level → ¬ Divides (TreeBox 3) 3 {q} t) ∧
      (∀ t, Valid t → AtEdge edge t → t.level + 1 = r.level →
        (Divides (TreeBox 3) 3 {q} t ↔ (parent rdown).c a ≤ t.c a ∧ t.c a ≤ (parent rup).c a)) := by
  have h29 := hq.1
  have hne : ∀ i : Fin 3, (i : ℕ) = edge / 4 ↔ i = a := fun i => by rw [← ha]; exact Fin.val_inj
  obtain ⟨e, hc, hr⟩ := exists_placed hq (edgeEnd edge)
  have hK : (1 : ℤ) ≤ 2 ^ q.level := one_le_pow₀ (by norm_num)
  obtain ⟨j, hj, r, rup, rdown, f0, f1, f2, hrun, p1, p0, p2, hz, g1, g0, g2, hlat, hfar⟩ :=
    shiftEdgeLoop_spec he ha q.level q q q e e e h0 h29 hc hc hc
      (fun i _ => ⟨rfl, rfl, by have := hr i; omega, (hr i).2⟩) (by have := hr a; omega) (hr a) (by have := hr a; omega)
  obtain ⟨L, hL⟩ : ∃ L, q.level - j = L + 1 := ⟨q.level - j - 1, by omega⟩
  rw [hL] at p1 p0 p2 g0
  have hLpos : (1 : ℤ) ≤ 2 ^ L := one_le_pow₀ (by norm_num)
  have hL2 : (2 : ℤ) ^ (L + 1) = 2 * 2 ^ L := by rw [pow_succ]; ring
  have hqj : (2 : ℤ) ^ q.level = 2 ^ (L + 1) * 2 ^ j := by rw [← pow_add]; congr 1; omega
  have hjp : (0 : ℤ) < 2 ^ j := by positivity
  have hM : (2 : ℤ) ^ (j + 1) = 2 * 2 ^ j := by rw [pow_succ]; ring
  have d1 : 0 ≤ e a / 2 ^ j ∧ e a / 2 ^ j < 2 ^ (L + 1) := by
    refine ⟨Int.ediv_nonneg (hr a).1 hjp.le, Int.ediv_lt_of_lt_mul hjp ?_⟩
    rw [← hqj]; exact (hr a).2
  have d0 : -2 ≤ (e a - 2) / 2 ^ j := by
    rw [Int.le_ediv_iff_mul_le hjp]; have := (hr a).1; nlinarith
  have d2 : (e a + 2) / 2 ^ j ≤ 2 ^ (L + 1) + 1 := by
    have : (e a + 2) / 2 ^ j < 2 ^ (L + 1) + 2 := by
      rw [Int.ediv_lt_iff_lt_mul hjp, add_mul, ← hqj]
      have := (hr a).2
      nlinarith
    omega
  have v1 : ∀ i, 0 ≤ f1 i ∧ f1 i < 2 ^ (L + 1) := fun i => by
    by_cases hi : i = a
    · rw [hi, g1]; exact d1
    · rw [(hz i hi).2.1]; omega
  have v0 : ∀ i, 0 ≤ f0 i ∧ f0 i < 2 ^ (L + 1) := fun i => by
    by_cases hi : i = a
    · rw [hi, g0]; clear hfar; omega
    · rw [(hz i hi).1]; omega
  have v2 : ∀ i, 0 ≤ f2 i ∧ f2 i < 2 ^ (L + 1) := fun i => by
    by_cases hi : i = a
    · rw [hi, g2]; clear hfar; omega
    · rw [(hz i hi).2.2]; omega
  have w1 := p1.valid (by omega) v1
  have w0 := p0.valid (by omega) v0
  have w2 := p2.valid (by omega) v2
  have q1 : Placed r r.level (edgeEnd edge) f1 := by rw [p1.1]; exact p1
  have q0 : Placed rup rup.level (edgeEnd edge) f0 := by rw [p0.1]; exact p0
  have q2 : Placed rdown rdown.level (edgeEnd edge) f2 := by rw [p2.1]; exact p2
  have hS : ∀ s ∈ ({q} : Set (Quad 3)), Valid s := fun s hs => by rw [Set.mem_singleton_iff.mp hs]; exact hq
  have hdiv : ∀ t, Valid t → (Divides (TreeBox 3) 3 {q} t ↔ Forces 3 q t) := fun t ht => by
    rw [divides_treeBox (by norm_num) hS ht]
    exact ⟨fun ⟨s, hs, h⟩ => by rwa [Set.mem_singleton_iff.mp hs] at h, fun h => ⟨q, rfl, h⟩⟩
  refine ⟨r, rup, rdown, hrun, ?_, ?_, ?_, ?_⟩
  · intro s hs
    have ne : ∀ i : Fin 3, (i : ℕ) ≠ edge / 4 → i ≠ a := fun i h h' => h ((hne i).mpr h')
    simp only [List.mem_cons, List.not_mem_nil, or_false] at hs
    rcases hs with rfl | rfl | rfl
    · exact ⟨w1, rfl, by rw [p1.1]; omega, (C99_touches_inside w1 he).mpr ((placed_atEdge w1 he q1).mpr fun i hi => (hz i (ne i hi)).2.1)⟩
    · exact ⟨w0, by rw [p0.1, p1.1], by rw [p0.1]; omega, (C99_touches_inside w0 he).mpr ((placed_atEdge w0 he q0).mpr fun i hi => (hz i (ne i hi)).1)⟩
    · exact ⟨w2, by rw [p2.1, p1.1], by rw [p2.1]; omega, (C99_touches_inside w2 he).mpr ((placed_atEdge w2 he q2).mpr fun i hi => (hz i (ne i hi)).2.2)⟩
  · rw [p1.2 a, hc.2 a, edgeEnd_axis ha, g1]
    unfold fromEnd side
    simp only [Bool.false_eq_true, if_false]
    rw [p1.1, show 30 - (L + 1) = 30 - q.level + j by omega, pow_add]
    have hP : (0 : ℤ) < 2 ^ (30 - q.level) := by positivity
    have x1 := Int.mul_ediv_self_le (x := e a) (k := 2 ^ j) hjp.ne'
    have x2 := Int.lt_mul_ediv_self_add (x := e a) hjp
    generalize (2 : ℤ) ^ (30 - q.level) = P at *
    generalize (2 : ℤ) ^ j = J at *
    generalize e a / J = z at *
    have x2' : e a + 1 ≤ J * z + J := by omega
    constructor <;> nlinarith
  · intro t ht hte htl hd
    rw [hdiv t ht, forces_full] at hd
    obtain ⟨i, hi, hbig⟩ := hfar (by have := hd.1; rw [htl, p1.1] at this; omega)
    obtain ⟨f, hf, _⟩ := exists_placed ht (edgeEnd edge)
    have hfz := (placed_atEdge ht he hf).mp hte i (fun h => hi ((hne i).mp h))
    have hl1 : t.level = L + 1 := by rw [htl, p1.1]
    rw [hl1] at hf
    have hqp : Placed q (L + 1 + j) (edgeEnd edge) e := by rw [show L + 1 + j = q.level by omega]; exact hc
    have := hd.2 i
    rw [hqp.out hf i, hfz, hl1, show q.level - (L + 1) = j by omega] at this
    simp only [zero_mul, zero_add, one_mul] at this
    omega
  · intro t ht hte htl
    rw [hdiv t ht, forces_full]
    obtain ⟨f, hf, hfr⟩ := exists_placed ht (edgeEnd edge)
    have hfz := (placed_atEdge ht he hf).mp hte
    have hl1 : t.level = L := by rw [p1.1] at htl; omega
    rw [hl1] at hf hfr
    have hqp : Placed q (L + (j + 1)) (edgeEnd edge) e := by rw [show L + (j + 1) = q.level by omega]; exact hc
    rw [parent_fromEnd (p2.aligned (by omega)) p2.1 (p2.2 a), parent_fromEnd (p0.aligned (by omega)) p0.1 (p0.2 a), hf.2 a,
      edgeEnd_axis ha, hl1]
    have hP : (0 : ℤ) < 2 ^ (30 - L) := by positivity
    have hcoord : ∀ z w : ℤ, fromEnd false L z ≤ fromEnd false L w ↔ z ≤ w := fun z w => by
      unfold fromEnd
      simp only [Bool.false_eq_true, if_false]
      exact mul_le_mul_iff_of_pos_left hP
    rw [hcoord, hcoord, g2, g0]
    have k1 : ∀ z : ℤ, z / 2 ^ j / 2 = z / 2 ^ (j + 1) := fun z => by
      rw [Int.ediv_ediv_of_nonneg hjp.le, ← pow_succ]
    have k2 : max 0 (2 * (((e a + 2) / 2 ^ j - 2) / 2) + 1) / 2 = max 0 ((e a + 2) / 2 ^ (j + 1) - 1) := by
      rw [← k1]; clear hfar; omega
    have k0 : min (2 * (((e a - 2) / 2 ^ j + 2) / 2)) (2 ^ (L + 1) - 1) / 2 = min ((e a - 2) / 2 ^ (j + 1) + 1) (2 ^ L - 1) := by
      rw [← k1]; clear hfar; omega
    rw [k2, k0]
    have hMp : (0 : ℤ) < 2 ^ (j + 1) := by positivity
    have y1 : f a ≤ (e a - 2) / 2 ^ (j + 1) + 1 ↔ (f a - 1) * 2 ^ (j + 1) ≤ e a - 2 := by
      rw [← Int.le_ediv_iff_mul_le hMp]; omega
    have y2 : (e a + 2) / 2 ^ (j + 1) - 1 ≤ f a ↔ e a + 2 < (f a + 2) * 2 ^ (j + 1) := by
      rw [← Int.ediv_lt_iff_lt_mul hMp]; omega
    have hfa := hfr a
    rw [max_le_iff, le_min_iff, y1, y2]
    have hsub : q.level - L = j + 1 := by omega
    constructor
    · rintro ⟨_, h⟩
      have := h a
      rw [hqp.out hf a, hsub] at this
      have z1 : (f a - 1) * 2 ^ (j + 1) = f a * 2 ^ (j + 1) - 2 ^ (j + 1) := by ring
      have z2 : (f a + 2) * 2 ^ (j + 1) = (f a + 1) * 2 ^ (j + 1) + 2 ^ (j + 1) := by ring
      rw [z1, z2]
      omega
    · rintro ⟨⟨_, h2⟩, h1, _⟩
      refine ⟨by omega, fun i => ?_⟩
      rw [hqp.out hf i, hsub]
      by_cases hi : i = a
      · rw [hi]
        have z1 : (f a - 1) * 2 ^ (j + 1) = f a * 2 ^ (j + 1) - 2 ^ (j + 1) := by ring
        have z2 : (f a + 2) * 2 ^ (j + 1) = (f a + 1) * 2 ^ (j + 1) + 2 ^ (j + 1) := by ring
        rw [z1] at h1
        rw [z2] at h2
        omega
      · rw [hfz i (fun h => hi ((hne i).mp h))]
        have := hlat i hi
        rw [show (2 : ℤ) ^ (j + 2) = 2 * 2 ^ (j + 1) by rw [← pow_succ']] at this
        have := (hr i).1
        simp only [zero_mul, zero_add, one_mul]
        omega

/-- The root has no sibling here, either. -/
theorem C99_root (edge : ℕ) {q : Quad 3} (h : q.level = 0) : shiftEdge q edge = none := by
  unfold shiftEdge
  rw [h]
  rfl

/-- Number (13, 20, 9) of level 5, shifted to the edge at the lower ends of the second and third axes: the
results have level 2, and `rup` and `rdown` are one parent above and at the parent of `r`. -/
example : Valid (⟨![13 * 2 ^ 25, 20 * 2 ^ 25, 9 * 2 ^ 25], 5⟩ : Quad 3) ∧
    (shiftEdge (⟨![13 * 2 ^ 25, 20 * 2 ^ 25, 9 * 2 ^ 25], 5⟩ : Quad 3) 0).map
      (fun r => [(List.ofFn r.1.c, r.1.level), (List.ofFn r.2.1.c, r.2.1.level), (List.ofFn r.2.2.c, r.2.2.level)]) =
      some [([2 ^ 28, 0, 0], 2), ([2 ^ 29, 0, 0], 2), ([0, 0, 0], 2)] := by
  refine ⟨isValid_iff.mp (by decide +kernel), by decide +kernel⟩

example : Extended (⟨![2 ^ 27, 2 ^ 30, -2 ^ 27], 3⟩ : Quad 3) ∧
    touchesEdge (⟨![2 ^ 27, 2 ^ 30, -2 ^ 27], 3⟩ : Quad 3) 1 false = true ∧
    touchesEdge (⟨![2 ^ 27, 2 ^ 30, -2 ^ 27], 3⟩ : Quad 3) 2 false = false :=
  ⟨isExtended_iff.mp (by decide +kernel), by decide +kernel, by decide +kernel⟩

end P4est
