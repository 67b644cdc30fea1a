import Verif.Lemmas.SeedsNear

/-! # The seeds force everything that is forced -/

namespace P4est
open Spec

variable {d : ℕ} {k : ℕ}

theorem near_inside {q p : Quad d} {i : Fin d} (h : outNum q p i = 0) {l : ℕ} (hl : l ≤ q.level)
    (hL : q.level ≤ 30) : numAt (nearest q p l) l i = numAt q l i := by
  have e : numAt (nearest q p l) l i = movedNum q p i / 2 ^ (q.level - l) := by
    show numAt (qat l _) l i = _
    rw [numAt_qat]
  have e2 : movedNum q p i = numAt q q.level i := by
    unfold outNum at h
    unfold movedNum
    generalize numAt q q.level i = Q at *
    have hM : (1 : ℤ) ≤ 2 ^ (q.level - p.level) := one_le_pow₀ (by norm_num)
    rw [show (numAt p p.level i + 1) * 2 ^ (q.level - p.level) =
      numAt p p.level i * 2 ^ (q.level - p.level) + 2 ^ (q.level - p.level) by ring] at *
    generalize numAt p p.level i * 2 ^ (q.level - p.level) = X at *
    omega
  rw [e, e2, num_div (s := q) (l := l) (c := q.level - l) (by omega), show l + (q.level - l) = q.level by omega]

theorem out_congr {q t t' : Quad d} (hl : t.level = t'.level) {i : Fin d}
    (h : numAt t t.level i = numAt t' t'.level i) : outNum q t i = outNum q t' i := by
  unfold outNum
  rw [h, hl]

theorem halfUp_mono {a b : ℤ} (h : a ≤ b) : halfUp a ≤ halfUp b := by
  unfold halfUp; omega

/-- The quadrant shifted from the nearest one. -/
def besides (q p : Quad d) (l : ℕ) (δ : Fin d → ℤ) : Quad d :=
  qat l (fun i => numAt (nearest q p l) l i + δ i)

/-- How the distances of a shifted quadrant are found from those of a coarser one. -/
def Lowered (m j : ℕ) (ins : Fin d → Prop) (E E' : Fin d → ℕ) : Prop :=
  ∀ i, (¬ ins i ∧ E' i = E i ∧ E i < 2 ^ m) ∨ (ins i ∧ E' i = 0) ∨
    (ins i ∧ ∃ y, 0 < y ∧ y ≤ 2 ^ m ∧ E i + y = 2 ^ (m + j) ∧ E' i + y = 2 ^ m)

/-- What is known about a quadrant that is forced. -/
structure Ahead (k : ℕ) (q p s0 r : Quad d) (m j : ℕ) (a : Fin d → ℤ) : Prop where
  lev : q.level = s0.level + m
  lev' : s0.level = r.level + j + 1
  lp : p.level ≤ r.level
  sub : Cells r ⊆ Cells p
  al : Aligned r
  reach : CanReach k (m + j) (halfDist q r)
  base : CanReach k m (halfDist q p)
  num : a = numAt (nearest q p (s0.level - 1)) (s0.level - 1)
  out : ∀ i, outNum q p i ≠ 0 → numAt r r.level i = a i / 2 ^ j ∧ halfDist q r i = halfDist q p i ∧
    halfDist q p i < 2 ^ m
  ins : ∀ i, outNum q p i = 0 → a i = numAt q (q.level - 1) i / 2 ^ m
  near : ∀ i, outNum q p i = 0 → halfDist q r i = gap (m + j) (numAt q (q.level - 1) i) (numAt r r.level i)

theorem ahead (hd : 0 < d) {q p s0 r : Quad d} (hq : Aligned q) (hp : Aligned p) (hp29 : p.level ≤ 29)
    (hpq : p.level < q.level) (hne : ∃ i, outNum q p i ≠ 0) (h0 : SeedOf k q p s0) (hr : Aligned r)
    (hrp : Cells r ⊆ Cells p) (hf : Forces k q r) : ∃ m j a, Ahead k q p s0 r m j a := by
  have hL := hq.1
  obtain ⟨m, hm, hR⟩ := hf
  have hpr := (dom_quad hd hp hp29).fit r hrp
  have hmono : ∀ i, halfDist q p i ≤ halfDist q r i := fun i => halfUp_mono (out_mono hr hp hpr (by omega) hrp i).1
  have hrb : r.level < s0.level := (h0.reach _ _ hm).mpr (hR.mono hmono)
  have hb := h0.fine hpq hne
  obtain ⟨j, hj⟩ : ∃ j, s0.level = r.level + j + 1 := ⟨s0.level - r.level - 1, by omega⟩
  obtain ⟨m', hm'⟩ : ∃ m', q.level = s0.level + m' := ⟨q.level - s0.level, by omega⟩
  obtain rfl : m = m' + j := by omega
  have hbase : CanReach k m' (halfDist q p) := (h0.reach (s0.level - 1) m' (by omega)).mp (by omega)
  have hup : ∀ i, numAt (nearest q p r.level) r.level i =
      numAt (nearest q p (s0.level - 1)) (s0.level - 1) i / 2 ^ j := by
    intro i
    have h1 := nearest_up (q := q) (p := p) (l := r.level) (c := j) (by omega) hL
    rw [← h1, num_div (c := j) (by omega), show r.level + j = s0.level - 1 by omega]
  refine ⟨m', j, _, hm', hj, hpr, hrp, hr, hR, hbase, rfl, ?_, ?_, ?_⟩
  · intro i hi
    have h1 := hR.lt i
    unfold halfDist at h1
    rw [halfUp_lt (outNum_nonneg q r i)] at h1
    have h2 := (out_mono hr hp hpr (by omega) hrp i).2 hi (by
      rw [show q.level - r.level = m' + j + 1 by omega]; omega)
    refine ⟨by rw [h2, hup], ?_, hbase.lt i⟩
    unfold halfDist
    rw [out_congr (t := r) (t' := nearest q p r.level) rfl h2, nearest_out hpr (by omega)]
  · intro i hi
    rw [near_inside hi (by omega) hL, num_div (s := q) (l := s0.level - 1) (c := m') (by omega),
      show s0.level - 1 + m' = q.level - 1 by omega]
  · intro i hi
    have := gap_outNum (q := q) (p := r) (m := m' + j) hL hm i
    rw [show r.level + (m' + j) = q.level - 1 by omega] at this
    exact this.symm

theorem Ahead.center {q p s0 r : Quad d} {m j : ℕ} {a : Fin d → ℤ} (hA : Ahead k q p s0 r m j a)
    (hq29 : q.level ≤ 29) (h0 : SeedOf k q p s0)
    (h : CanReach k j (fun i => gap j (a i) (numAt r r.level i))) : Forces k s0 r := by
  have l1 := hA.lev
  have l2 := hA.lev'
  refine forces_of (s := s0) (c := 0) (by omega) (by omega) ?_
  have h1 := nearest_up (q := q) (p := p) (l := s0.level - 1) (c := 1) (by omega) (by omega)
  rw [show s0.level - 1 + 1 = s0.level by omega, ← h0.eq, ← hA.num] at h1
  rw [show r.level + j = s0.level - 1 by omega, h1]
  exact h

/-- Along an axis inside, the number is one of three. -/
theorem Ahead.three {q p s0 r : Quad d} {m j : ℕ} {a : Fin d → ℤ} (hA : Ahead k q p s0 r m j a) {i : Fin d}
    (hi : outNum q p i = 0) : (numAt r r.level i = a i / 2 ^ j ∧ halfDist q r i = 0) ∨
    ∃ up, numAt r r.level i = a i / 2 ^ j + sgn up ∧
      halfDist q r i + (2 ^ m * pos up j (a i) + pos up m (numAt q (q.level - 1) i)) = 2 ^ (m + j) ∧
      0 < 2 ^ m * pos up j (a i) + pos up m (numAt q (q.level - 1) i) := by
  have h1 := hA.near i hi
  have h2 := hA.reach.lt i
  have h3 := hA.ins i hi
  have e : numAt q (q.level - 1) i / 2 ^ (m + j) = a i / 2 ^ j := by
    rw [h3, pow_add, Int.ediv_ediv_of_nonneg (by positivity)]
  rcases gap_cases (h1 ▸ h2) with h4 | ⟨up, h4⟩
  · left
    refine ⟨by rw [h4, e], ?_⟩
    rw [h1, h4, gap_self]
  · right
    refine ⟨up, by rw [h4, e], ?_⟩
    have h5 := gap_next (m + j) (numAt q (q.level - 1) i) up
    rw [← h4, ← h1, pos_split, ← h3] at h5
    omega

/-- A shifted quadrant between is in `p`. -/
theorem Ahead.sub_shifted {q p s0 r : Quad d} {m j : ℕ} {a : Fin d → ℤ} (hA : Ahead k q p s0 r m j a)
    (hq : Aligned q) (hp : Aligned p) (h0 : SeedOf k q p s0) {δ : Fin d → ℤ}
    (hδ : ∀ i, δ i = 0 ∨ ∃ up, δ i = sgn up ∧ numAt r r.level i = a i / 2 ^ j + sgn up) :
    Cells (besides q p (s0.level - 1) δ) ⊆ Cells p := by
  have hL := hq.1
  have l1 := hA.lev
  have l2 := hA.lev'
  have l3 := hA.lp
  refine (sub_iff (r := besides q p (s0.level - 1) δ) (qat_aligned (by omega) _) hp (show p.level ≤ s0.level - 1 by omega)).mpr ?_
  intro i
  show numAt (qat (s0.level - 1) _) (s0.level - 1) i / 2 ^ (s0.level - 1 - p.level) = _
  rw [numAt_qat]
  have ha := (sub_iff (r := nearest q p (s0.level - 1)) (qat_aligned (by omega) _) hp
    (show p.level ≤ s0.level - 1 by omega)).mp (nearest_sub hq hp (by omega) (by omega)) i
  have hr := (sub_iff hA.al hp l3).mp hA.sub i
  have e0 : numAt (nearest q p (s0.level - 1)) (nearest q p (s0.level - 1)).level i =
      numAt (nearest q p (s0.level - 1)) (s0.level - 1) i := rfl
  rw [e0] at ha
  have ha' : numAt (nearest q p (s0.level - 1)) (s0.level - 1) i / 2 ^ (s0.level - 1 - p.level) = numAt p p.level i := ha
  rw [← hA.num] at ha' ⊢
  rw [pow_levels (L := s0.level - 1) (l := r.level) (p := p.level) l3 (by omega),
    show s0.level - 1 - r.level = j by omega, ← Int.ediv_ediv_of_nonneg (by positivity)] at ha' ⊢
  rcases hδ i with h | ⟨up, h, h'⟩
  · rw [h, add_zero]; exact ha'
  · rw [h]
    rcases next_in j (a i) up with h2 | h2
    · rw [h2]; exact ha'
    · rw [h2, ← h']; exact hr

/-- The distances of a shifted quadrant. -/
theorem Ahead.half_shifted {q p s0 r : Quad d} {m j : ℕ} {a : Fin d → ℤ} (hA : Ahead k q p s0 r m j a)
    (hq : Aligned q) {δ : Fin d → ℤ} (hδ : ∀ i, outNum q p i ≠ 0 → δ i = 0) (i : Fin d) :
    (outNum q p i ≠ 0 → halfDist q (besides q p (s0.level - 1) δ) i = halfDist q p i) ∧
    (outNum q p i = 0 → halfDist q (besides q p (s0.level - 1) δ) i =
      gap m (numAt q (q.level - 1) i) (a i + δ i)) := by
  have hL := hq.1
  have l1 := hA.lev
  have l2 := hA.lev'
  have l3 := hA.lp
  have e : numAt (besides q p (s0.level - 1) δ) (s0.level - 1) i = a i + δ i := by
    rw [hA.num]
    show numAt (qat (s0.level - 1) _) (s0.level - 1) i = _
    rw [numAt_qat]
  constructor
  · intro hi
    unfold halfDist
    rw [out_congr (t := besides q p (s0.level - 1) δ) (t' := nearest q p (s0.level - 1)) rfl (by
      show numAt (besides q p (s0.level - 1) δ) (s0.level - 1) i = numAt (nearest q p (s0.level - 1)) (s0.level - 1) i
      rw [e, hδ i hi, add_zero, hA.num]), nearest_out (by omega) (by omega)]
  · intro hi
    have h1 := gap_outNum (q := q) (p := besides q p (s0.level - 1) δ) (m := m) hL
      (show q.level = s0.level - 1 + m + 1 by omega) i
    have h2 : numAt (besides q p (s0.level - 1) δ) (besides q p (s0.level - 1) δ).level i = a i + δ i := e
    rw [h2, show (besides q p (s0.level - 1) δ).level + m = q.level - 1 by
      show s0.level - 1 + m = _; omega] at h1
    exact h1.symm

/-- The seeds suffice if corrections along all axes inside are allowed at once. -/
theorem complete_few (hd : 0 < d) {q p s0 : Quad d} (hq : Aligned q) (hq29 : q.level ≤ 29) (hp : Aligned p)
    (hp29 : p.level ≤ 29) (hpq : p.level < q.level) (hne : ∃ i, outNum q p i ≠ 0) {S : Set (Quad d)}
    (h0S : s0 ∈ S) (h0 : SeedOf k q p s0)
    (hside : ∀ δ : Fin d → ℤ, (∀ i, δ i = 0 ∨ ∃ up, δ i = sgn up) → (∀ i, outNum q p i ≠ 0 → δ i = 0) →
      (∃ i, δ i ≠ 0) → Cells (besides q p (s0.level - 1) δ) ⊆ Cells p →
      Forces k q (besides q p (s0.level - 1) δ) → ∃ s ∈ S, SeedOf k q (besides q p (s0.level - 1) δ) s)
    (hfew : (Finset.univ.filter fun i => outNum q p i = 0).card ≤ k)
    (htr : ∀ m j E E', Lowered m j (fun i => outNum q p i = 0) E E' →
      (∀ e : Fin d → ℕ, (∀ i, outNum q p i = 0 → e i = 0) → (∀ i, outNum q p i ≠ 0 → e i = E i) → CanReach k m e) →
      CanReach k (m + j) E → CanReach k m E')
    {r : Quad d} (hr : Aligned r) (hrp : Cells r ⊆ Cells p) (hf : Forces k q r) : ∃ s ∈ S, Forces k s r := by
  classical
  obtain ⟨m, j, a, hA⟩ := ahead hd hq hp hp29 hpq hne h0 hr hrp hf
  have hL := hq.1
  have l1 := hA.lev
  have l2 := hA.lev'
  have l3 := hA.lp
  have hJ : 0 < 2 ^ j := by positivity
  have hch : ∀ i, ∃ δ : ℤ, (δ = 0 ∧ gap j (a i) (numAt r r.level i) < 2 ^ j ∧
      (outNum q p i ≠ 0 → gap j (a i) (numAt r r.level i) = 0)) ∨
      (outNum q p i = 0 ∧ ∃ up, δ = sgn up ∧ numAt r r.level i = a i / 2 ^ j + sgn up ∧ pos up j (a i) = 0) := by
    intro i
    by_cases hi : outNum q p i = 0
    · rcases hA.three hi with ⟨h, _⟩ | ⟨up, h, _⟩
      · exact ⟨0, .inl ⟨rfl, by rw [h, gap_self]; exact hJ, fun hc => absurd hi hc⟩⟩
      · by_cases hz : pos up j (a i) = 0
        · exact ⟨sgn up, .inr ⟨hi, up, rfl, h, hz⟩⟩
        · refine ⟨0, .inl ⟨rfl, ?_, fun hc => absurd hi hc⟩⟩
          have := gap_next j (a i) up
          rw [h]
          omega
    · have h := (hA.out i hi).1
      exact ⟨0, .inl ⟨rfl, by rw [h, gap_self]; exact hJ, fun _ => by rw [h, gap_self]⟩⟩
  choose δ hδ using hch
  have hδ0 : ∀ i, outNum q p i ≠ 0 → δ i = 0 := by
    intro i hi
    rcases hδ i with h | h
    · exact h.1
    · exact absurd h.1 hi
  have hreach : CanReach k j (fun i => gap j (a i + δ i) (numAt r r.level i)) := by
    rw [reach_few]
    · intro i
      rcases hδ i with ⟨h1, h2, _⟩ | ⟨_, up, h1, h2, h3⟩
      · rw [h1, add_zero]; exact h2
      · have := gap_shift j (a i) up
        rw [h1, h2]
        omega
    · refine (Finset.card_le_card ?_).trans hfew
      intro i
      simp only [Finset.mem_filter, Finset.mem_univ, true_and]
      intro hg
      by_contra hc
      rcases hδ i with ⟨h1, _, h3⟩ | ⟨h1, _⟩
      · rw [h1, add_zero] at hg; exact hg (h3 hc)
      · exact hc h1
  by_cases hz : ∃ i, δ i ≠ 0
  · have hsub := hA.sub_shifted hq hp h0 (δ := δ) (fun i => by
      rcases hδ i with h | ⟨_, up, h1, h2, _⟩
      · exact .inl h.1
      · exact .inr ⟨up, h1, h2⟩)
    have hforce : Forces k q (besides q p (s0.level - 1) δ) := by
      refine ⟨m, show q.level = s0.level - 1 + m + 1 by omega, htr m j _ _ ?_ ?_ hA.reach⟩
      rotate_left
      · intro e he1 he2
        refine hA.base.mono (fun i => ?_)
        by_cases hi : outNum q p i = 0
        · rw [he1 i hi]; exact Nat.zero_le _
        · rw [he2 i hi, (hA.out i hi).2.1]
      intro i
      by_cases hi : outNum q p i = 0
      · have h1 := (hA.half_shifted hq hδ0 i).2 hi
        rcases hδ i with ⟨h2, _⟩ | ⟨_, up, h2, h3, h4⟩
        · refine .inr (.inl ⟨hi, ?_⟩)
          rw [h1, h2, add_zero, hA.ins i hi, gap_self]
        · refine .inr (.inr ⟨hi, pos up m (numAt q (q.level - 1) i), ?_⟩)
          have h5 := gap_next m (numAt q (q.level - 1) i) up
          rw [← hA.ins i hi, ← h2, ← h1] at h5
          rcases hA.three hi with ⟨h6, _⟩ | ⟨up', h6, h7, h8⟩
          · rw [h3] at h6
            exfalso
            cases up <;> simp [sgn] at h6
          · have : up' = up := by
              rw [h3] at h6
              cases up <;> cases up' <;> simp [sgn] at h6 ⊢
            subst this
            rw [h4, mul_zero, zero_add] at h7 h8
            exact ⟨h8, (pos_lt _ _ _).le, h7, h5⟩
      · have h1 := hA.out i hi
        exact .inl ⟨hi, by rw [(hA.half_shifted hq hδ0 i).1 hi, h1.2.1], by rw [h1.2.1]; exact h1.2.2⟩
    obtain ⟨s, hs, hs1⟩ := hside δ (fun i => by
      rcases hδ i with h | ⟨_, up, h1, h2, _⟩
      · exact .inl h.1
      · exact .inr ⟨up, h1⟩) hδ0 hz hsub hforce
    refine ⟨s, hs, ?_⟩
    have hne' : ∃ i, outNum q (besides q p (s0.level - 1) δ) i ≠ 0 := by
      obtain ⟨i, hi⟩ := hne
      refine ⟨i, fun hc => ?_⟩
      have h1 := (hA.half_shifted hq hδ0 i).1 hi
      rw [halfDist_eq_zero.mpr hc] at h1
      exact hi (halfDist_eq_zero.mp h1.symm)
    have hsl := hs1.fine (show s0.level - 1 < q.level by omega) hne'
    refine hs1.reaches hq (qat_aligned (by omega) _) (by omega) hsl.le (j := j)
      (show s0.level - 1 = r.level + j by omega) ?_
    have e : (fun i => gap j (numAt (besides q p (s0.level - 1) δ) (besides q p (s0.level - 1) δ).level i)
        (numAt r r.level i)) = fun i => gap j (a i + δ i) (numAt r r.level i) := by
      funext i
      show gap j (numAt (qat (s0.level - 1) _) (s0.level - 1) i) _ = _
      rw [numAt_qat, hA.num]
    rw [e]
    exact hreach
  · push Not at hz
    refine ⟨s0, h0S, hA.center hq29 h0 ?_⟩
    have e : (fun i => gap j (a i + δ i) (numAt r r.level i)) = fun i => gap j (a i) (numAt r r.level i) := by
      funext i; rw [hz i, add_zero]
    rw [← e]
    exact hreach

end P4est
