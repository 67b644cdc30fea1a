import Mathlib.Data.Nat.Log
import Verif.Lemmas.Partition
import Verif.Props.Complete

/-! # C27, C28, C29: counts, first positions and owners -/

namespace P4est
open Spec

variable {d : ℕ}

/-! ## C28 -/

theorem prefixLoop_spec (loc : ℕ → ℤ) (n i : ℕ) :
    prefixLoop (fun i => match i with | 0 => 0 | i + 1 => loc i) n i =
      if i ≤ n then ∑ p ∈ Finset.range i, loc p else loc (i - 1) := by
  induction n generalizing i with
  | zero =>
    cases i with
    | zero => simp [prefixLoop]
    | succ i => simp [prefixLoop]
  | succ n ih =>
    rw [prefixLoop, Function.update_apply]
    by_cases hi : i = n + 1
    · subst hi
      rw [if_pos rfl, ih, ih, if_neg (by omega), if_pos le_rfl, if_pos le_rfl, Finset.sum_range_succ]
      simp only [Nat.add_sub_cancel]
      ring
    · rw [if_neg hi, ih]
      by_cases h1 : i ≤ n
      · rw [if_pos h1, if_pos (by omega)]
      · rw [if_neg h1, if_neg (by omega)]

/-- C28. After `p4est_comm_count_quadrants`, `global_first_quadrant[p]` is the number of leaves on
the ranks before `p`: it begins with 0, grows by the local counts and ends with the global count. -/
theorem C28_count_quadrants (loc : ℕ → ℕ) (P : ℕ) :
    (∀ p, p ≤ P → countQuadrants (fun p => loc p) P p = ((∑ r ∈ Finset.range p, loc r : ℕ) : ℤ)) ∧
    countQuadrants (fun p => loc p) P 0 = 0 ∧
    (∀ p, p < P → countQuadrants (fun p => loc p) P (p + 1) - countQuadrants (fun p => loc p) P p = loc p) := by
  have h : ∀ p, p ≤ P → countQuadrants (fun p => (loc p : ℤ)) P p = ((∑ r ∈ Finset.range p, loc r : ℕ) : ℤ) := by
    intro p hp
    have := prefixLoop_spec (fun p => (loc p : ℤ)) P p
    rw [if_pos hp] at this
    push_cast
    exact this
  refine ⟨h, by rw [h 0 (Nat.zero_le _)]; simp, fun p hp => ?_⟩
  rw [h _ (by omega), h _ (by omega), Finset.sum_range_succ]
  push_cast; ring

example : (List.range 4).map (countQuadrants (fun p => ([3, 0, 2].getD p 0 : ℕ)) 3) = [0, 3, 3, 5] := by decide

/-- A floating point rounding with `m` bits of mantissa: monotone, and exact on the numbers it can
represent.  All IEEE rounding modes have these properties (barring overflow and underflow). -/
structure Spec.Rounding (m : ℕ) (rnd : ℚ → ℚ) : Prop where
  mono : ∀ x y, x ≤ y → rnd x ≤ rnd y
  exact : ∀ (k : ℕ) (e : ℕ), k ≤ 2 ^ m → rnd ((k : ℚ) / 2 ^ e) = (k : ℚ) / 2 ^ e

theorem Spec.Rounding.nat {m : ℕ} {rnd : ℚ → ℚ} (h : Rounding m rnd) {k : ℕ} (hk : k ≤ 2 ^ m) :
    rnd k = k := by simpa using h.exact k 0 hk

/-- C28. Although it is computed in floating point, the cut is the exact integer quotient
`⌊global_num * p / num_procs⌋`, for every rounding mode, as long as the numbers are not too close
to the precision of the type (`m` = 64 for the extended precision of x86). -/
theorem C28_cut_exact (m : ℕ) (rnd : ℚ → ℚ) (hr : Rounding (m + 1) rnd) (n p P : ℕ) (hP : 0 < P) (hp : p ≤ P)
    (hsize : (n + 1) * P ≤ 2 ^ m) : partitionCut rnd n p P = ((n * p / P : ℕ) : ℤ) := by
  unfold partitionCut
  split
  · rename_i h; subst h; rw [Nat.mul_div_cancel _ hP]
  · rename_i hne
    have hpow : 2 ^ (m + 1) = 2 * 2 ^ m := by rw [pow_succ]; ring
    have hnp : n * p ≤ n * P := Nat.mul_le_mul_left n hp
    have hexp : (n + 1) * P = n * P + P := by ring
    have e1 : rnd ((n : ℚ) * p) = ((n * p : ℕ) : ℚ) := by
      have := hr.nat (k := n * p) (by omega)
      push_cast at this ⊢; exact this
    rw [e1]
    have hPq : (0:ℚ) < P := by exact_mod_cast hP
    set k := n * p / P with hk
    have hdm := Nat.div_add_mod (n * p) P
    have hmod := Nat.mod_lt (n * p) hP
    rw [← hk] at hdm
    have hkn : k ≤ n := by
      rw [hk]; exact Nat.div_le_of_le_mul (by nlinarith)
    rw [Int.floor_eq_iff]
    constructor
    · have h1 : (k : ℚ) ≤ ((n * p : ℕ) : ℚ) / P := by
        rw [le_div_iff₀ hPq]
        have : k * P ≤ n * p := by rw [Nat.mul_comm]; omega
        exact_mod_cast this
      have h2 := hr.mono _ _ h1
      rw [hr.nat (by nlinarith)] at h2
      push_cast at h2 ⊢
      exact h2
    · -- a representable number between the quotient and the next integer
      obtain ⟨e, he1, he2⟩ : ∃ e, P ≤ 2 ^ e ∧ 2 ^ e ≤ 2 * P := by
        refine ⟨Nat.clog 2 P, Nat.le_pow_clog (by norm_num) _, ?_⟩
        rcases Nat.lt_or_ge 1 P with h1 | h1
        · have h3 := Nat.pow_pred_clog_lt_self (b := 2) (by norm_num) h1
          have h2 := Nat.clog_pos (b := 2) (by norm_num) h1
          obtain ⟨c, hc⟩ : ∃ c, Nat.clog 2 P = c + 1 := ⟨Nat.clog 2 P - 1, by omega⟩
          rw [hc] at h3 ⊢
          simp only [Nat.pred_succ] at h3
          rw [pow_succ]; omega
        · have : P = 1 := by omega
          subst this; simp
      have hpos : 1 ≤ (k + 1) * 2 ^ e := Nat.one_le_iff_ne_zero.mpr (by positivity)
      have hub : ((n * p : ℕ) : ℚ) / P ≤ (((k + 1) * 2 ^ e - 1 : ℕ) : ℚ) / 2 ^ e := by
        rw [div_le_div_iff₀ hPq (by positivity)]
        have : n * p * 2 ^ e ≤ ((k + 1) * 2 ^ e - 1) * P := by
          rw [Nat.sub_mul, Nat.one_mul]
          have h3 : n * p + 1 ≤ (k + 1) * P := by rw [Nat.add_one_mul, Nat.mul_comm k]; omega
          have h4 : (n * p + 1) * 2 ^ e ≤ (k + 1) * P * 2 ^ e := Nat.mul_le_mul_right _ h3
          have h5 : (n * p + 1) * 2 ^ e = n * p * 2 ^ e + 2 ^ e := by ring
          have h6 : (k + 1) * P * 2 ^ e = (k + 1) * 2 ^ e * P := by ring
          omega
        exact_mod_cast this
      have h2 := hr.mono _ _ hub
      rw [hr.exact _ e (by
        have h5 : (k + 1) * 2 ^ e ≤ (n + 1) * (2 * P) := Nat.mul_le_mul (by omega) he2
        have h6 : (n + 1) * (2 * P) = 2 * ((n + 1) * P) := by ring
        omega)] at h2
      refine lt_of_le_of_lt h2 ?_
      rw [div_lt_iff₀ (by positivity)]
      have : (((k + 1) * 2 ^ e - 1 : ℕ) : ℚ) < (((k + 1) * 2 ^ e : ℕ) : ℚ) := by
        exact_mod_cast Nat.sub_lt (by omega) (by norm_num)
      push_cast at this ⊢
      exact this

/-- C28. `p4est_comm_global_first_quadrant` cuts `n` quadrants into `P` shares that begin with 0,
end with `n` and are `⌊n / P⌋` or `⌊n / P⌋ + 1`, so that they differ by at most one. -/
theorem C28_global_first_quadrant (m : ℕ) (rnd : ℚ → ℚ) (hr : Rounding (m + 1) rnd) (n P : ℕ) (hP : 0 < P)
    (hsize : (n + 1) * P ≤ 2 ^ m) :
    globalFirstQuadrant rnd n P 0 = 0 ∧ globalFirstQuadrant rnd n P P = n ∧
    ∀ p, p < P →
      globalFirstQuadrant rnd n P (p + 1) - globalFirstQuadrant rnd n P p = ((n / P : ℕ) : ℤ) ∨
      globalFirstQuadrant rnd n P (p + 1) - globalFirstQuadrant rnd n P p = ((n / P + 1 : ℕ) : ℤ) := by
  have key : ∀ p, p ≤ P → globalFirstQuadrant rnd n P p = ((n * p / P : ℕ) : ℤ) := by
    intro p hp
    unfold globalFirstQuadrant
    split
    · rename_i h; subst h; simp
    · split
      · exact C28_cut_exact m rnd hr n p P hP hp hsize
      · have : p = P := by omega
        subst this
        rw [Nat.mul_div_cancel _ hP]
  refine ⟨by rw [key 0 (by omega)]; simp, by rw [key P le_rfl, Nat.mul_div_cancel _ hP], fun p hp => ?_⟩
  rw [key _ (by omega), key _ (by omega)]
  have h1 : n * (p + 1) = n * p + n := by ring
  rw [h1]
  have d1 := Nat.div_add_mod (n * p) P
  have d2 := Nat.div_add_mod n P
  have d3 := Nat.div_add_mod (n * p + n) P
  have m1 := Nat.mod_lt (n * p) hP
  have m2 := Nat.mod_lt n hP
  have m3 := Nat.mod_lt (n * p + n) hP
  set a := n * p / P
  set b := n / P
  set c := (n * p + n) / P
  have hlo : P * (a + b) < P * (c + 1) := by rw [Nat.mul_add, Nat.mul_add]; omega
  have hhi : P * c < P * (a + b + 2) := by rw [Nat.mul_add, Nat.mul_add]; omega
  have hlo' := Nat.lt_of_mul_lt_mul_left hlo
  have hhi' := Nat.lt_of_mul_lt_mul_left hhi
  omega

/-- Exact arithmetic is a rounding, and so is truncation to multiples of `2^-200`, and 10 quadrants
on 4 ranks satisfy the bound for 64 bits of mantissa. -/
example : Rounding 64 id ∧ (10 + 1) * 4 ≤ 2 ^ 63 ∧
    (List.range 5).map (globalFirstQuadrant id 10 4) = [0, 2, 5, 7, 10] :=
  ⟨⟨fun _ _ h => h, fun _ _ _ => rfl⟩, by norm_num, by decide +kernel⟩

/-! ## C29 -/

/-- C29. After `p4est_comm_global_partition` there is one entry per rank and one for the end.  The
entry of a rank with leaves is tree and corner of its first leaf, that of an empty rank is the entry
of the next rank, and the last entry is the beginning of the tree after the last one. -/
theorem C29_first_positions (leaves : ℕ → List (ℕ × Quad d)) (P T : ℕ) :
    (globalPartition leaves P T).length = P + 1 ∧
    (globalPartition leaves P T)[P]? = some ⟨T, fun _ => 0⟩ ∧
    (∀ p, p < P → ∀ t q rest, leaves p = (t, q) :: rest → (globalPartition leaves P T)[p]? = some ⟨t, q.c⟩) ∧
    (∀ p, p < P → leaves p = [] → (globalPartition leaves P T)[p]? = (globalPartition leaves P T)[p + 1]?) := by
  refine ⟨globalPartition_length _ _ _, ?_, ?_, ?_⟩
  · rw [globalPartition_get _ _ _ _ le_rfl, backfill_ge _ _ _ le_rfl, if_pos rfl]
  · intro p hp t q rest h
    rw [globalPartition_step _ _ _ _ hp, h]
  · intro p hp h
    rw [globalPartition_step _ _ _ _ hp, h]

/-- C29. For the leaves of a complete forest, distributed in any way: the first position is the
beginning of the first tree (on rank 0, with or without leaves), the positions do not decrease, and
a rank is empty exactly if its position equals the next one, which is what `p4est_comm_is_empty_gfp`
tests. -/
theorem C29_positions_ordered (hd : 0 < d) (trees : List (List (Quad d))) (P : ℕ)
    (leaves : ℕ → List (ℕ × Quad d)) (h : Distributed trees P leaves) :
    (globalPartition leaves P trees.length)[0]? = some ⟨0, fun _ => 0⟩ ∧
    ∀ p, p < P → ∃ g g' : GPos d, (globalPartition leaves P trees.length)[p]? = some g ∧
      (globalPartition leaves P trees.length)[p + 1]? = some g' ∧
      forestPos g.tree g.c ≤ forestPos g'.tree g'.c ∧ (leaves p = [] ↔ g = g') ∧
      isEmptyGfp (globalPartition leaves P trees.length) p = some (decide (leaves p = [])) := by
  obtain ⟨s, hs⟩ := h.segments hd
  constructor
  · obtain ⟨g, h1, h2⟩ := globalPartition_at hd hs 0 (Nat.zero_le _)
    rw [h1, Option.some.injEq]
    refine (h2.eq_iff ⟨0, rfl, inTree_zero, ?_⟩).mpr hs.zero
    rw [curve_zero]; simp
  · intro p hp
    obtain ⟨g, h1, h2⟩ := globalPartition_at hd hs p hp.le
    obtain ⟨g', h1', h2'⟩ := globalPartition_at hd hs (p + 1) (by omega)
    have hpath := hs.path p hp
    have hiff : leaves p = [] ↔ g = g' := by
      rw [h2.eq_iff h2']
      constructor
      · intro hl; rw [hl] at hpath; exact hpath
      · intro he
        by_contra hne
        have := hpath.lt hne
        omega
    refine ⟨g, g', h1, h1', ?_, hiff, ?_⟩
    · rw [h2.pos, h2'.pos]; exact_mod_cast hpath.le
    · unfold isEmptyGfp
      rw [h1, h1']
      simp only [Option.bind_eq_bind, Option.bind_some, Option.some.injEq, decide_eq_decide]
      exact hiff.symm

/-! ## C27 -/

/-- The position of a quadrant lies in the segment of exactly one rank. -/
theorem Segments.owner {trees : List (List (Quad d))} {P : ℕ} {leaves : ℕ → List (ℕ × Quad d)} {s : ℕ → ℕ}
    (hs : Segments trees P leaves s) {n : ℕ} (hn : n < trees.length * 2 ^ (d * 30)) :
    ∃ r, r < P ∧ s r ≤ n ∧ n < s (r + 1) := by
  have hex : ∃ i, n < s i := ⟨P, by rw [hs.last]; exact hn⟩
  classical
  have h1 := Nat.find_spec hex
  have hle : Nat.find hex ≤ P := Nat.find_min' hex (by rw [hs.last]; exact hn)
  obtain ⟨m, hm⟩ : ∃ m, Nat.find hex = m + 1 := by
    rcases Nat.eq_zero_or_pos (Nat.find hex) with h0 | h0
    · rw [h0, hs.zero] at h1; omega
    · exact ⟨Nat.find hex - 1, by omega⟩
  have h2 := Nat.find_min hex (m := m) (by omega)
  rw [hm] at h1 hle
  exact ⟨m, by omega, by omega, h1⟩

theorem ownerLoop_spec (hd : 0 < d) {trees : List (List (Quad d))} {P : ℕ}
    {leaves : ℕ → List (ℕ × Quad d)} {s : ℕ → ℕ} (hs : Segments trees P leaves s) (t : ℕ) (q : Quad d)
    (hq : InTree q.c) (r : ℕ) (hr : r < P) (h1 : s r ≤ t * 2 ^ (d * 30) + curve q.c)
    (h2 : t * 2 ^ (d * 30) + curve q.c < s (r + 1)) :
    ∀ (n : ℕ) (low high guess : ℤ), high - low < n → 0 ≤ low → low ≤ r → (r : ℤ) ≤ high →
      high < P → low ≤ guess → guess ≤ high →
      ownerLoop (globalPartition leaves P trees.length) t q low high guess = some (r : ℤ) := by
  intro n
  have hpos : forestPos t q.c = ((t * 2 ^ (d * 30) + curve q.c : ℕ) : ℤ) := by
    unfold forestPos; push_cast; rfl
  induction n with
  | zero => intro low high guess h; omega
  | succ n ih =>
    intro low high guess hn hl0 hlr hrh hhP hlg hgh
    obtain ⟨g, rfl⟩ : ∃ g : ℕ, guess = g := ⟨guess.toNat, by omega⟩
    rw [ownerLoop, if_neg (by omega)]
    obtain ⟨c, e1, a1⟩ := globalPartition_at hd hs g (by omega)
    obtain ⟨c', e2, a2⟩ := globalPartition_at hd hs (g + 1) (by omega)
    simp only [Int.toNat_natCast, e1, e2, Option.bind_eq_bind, Option.bind_some]
    have i1 := beginsBefore_iff hd (g := c) (t := (t : ℤ)) (q := q) a1.choose_spec.2.1 hq
    have i2 := beginsAfter_iff hd (g := c') (t := (t : ℤ)) (q := q) a2.choose_spec.2.1 hq
    rw [a1.pos, hpos] at i1
    rw [a2.pos, hpos] at i2
    by_cases hc1 : beginsBefore c t q = true
    · rw [if_pos hc1]
      have hlt := i1.mp hc1
      have hrg : r < g := by
        by_contra hc
        have := hs.mono (show g ≤ r by omega) (by omega)
        omega
      apply ih <;> first | omega | skip
      all_goals rw [Int.tdiv_eq_ediv_of_nonneg (by omega)]; omega
    · rw [if_neg hc1]
      have hge := mt i1.mpr hc1
      by_cases hc2 : beginsAfter c' t q = true
      · rw [if_pos hc2]
        have hle := i2.mp hc2
        have hrg : g < r := by
          by_contra hc
          have := hs.mono (show r + 1 ≤ g + 1 by omega) (by omega)
          omega
        apply ih <;> first | omega | skip
        all_goals rw [Int.tdiv_eq_ediv_of_nonneg (by omega)]; omega
      · rw [if_neg hc2]
        have hlt := mt i2.mpr hc2
        have : g = r := by
          rcases Nat.lt_trichotomy g r with h | h | h
          · have := hs.mono (show g + 1 ≤ r by omega) (by omega); omega
          · exact h
          · have := hs.mono (show r + 1 ≤ g by omega) (by omega); omega
        rw [this]

/-- A quadrant or node argument of the ownership functions: its corner is a cell of the tree.  This
includes all legal quadrants and all nodes clamped into the tree. -/
theorem valid_inTree {q : Quad d} (h : Valid q) : InTree q.c := h.2.2

theorem valid_cells_inTree {q : Quad d} (h : Valid q) {p : Fin d → ℤ} (hp : p ∈ Cells q) : InTree p := by
  have hr : Valid (root d) := root_valid
  have : Cells q ⊆ Cells (root d) := by
    apply cells_subset hr.aligned h.aligned (Nat.zero_le _)
    intro i
    have := h.2.2 i
    change (0:ℤ) ≤ _ ∧ _ < 0 + 2 ^ 30
    omega
  intro i
  have := this hp i
  change (0:ℤ) ≤ _ ∧ _ < 0 + 2 ^ 30 at this
  omega

theorem Segments.mem_iff (hd : 0 < d) {trees : List (List (Quad d))} {P : ℕ}
    {leaves : ℕ → List (ℕ × Quad d)} {s : ℕ → ℕ} (hs : Segments trees P leaves s) (t r : ℕ) (hr : r < P)
    {p : Fin d → ℤ} (hp : InTree p) :
    (∃ x ∈ leaves r, x.1 = t ∧ p ∈ Cells x.2) ↔
      s r ≤ t * 2 ^ (d * 30) + curve p ∧ t * 2 ^ (d * 30) + curve p < s (r + 1) := by
  have hcv := curve_lt_of_inTree hp
  constructor
  · rintro ⟨x, hx, hxt, hm⟩
    obtain ⟨hx1, hx2⟩ := hs.leaf r hr x hx
    rw [mem_iff_pos hx2.aligned hx2.int32 hp.int32] at hm
    have h3 := (hs.path r hr).mem hx
    unfold gstart gstop at h3
    rw [hxt] at h3
    omega
  · rintro ⟨h1, h2⟩
    obtain ⟨x, hx, h3, h4⟩ := (hs.path r hr).find h1 h2
    obtain ⟨hx1, hx2⟩ := hs.leaf r hr x hx
    have hst := valid_stop_le hd hx2
    have hxt : x.1 = t := by
      unfold gstart at h3; unfold gstop at h4
      rcases Nat.lt_trichotomy x.1 t with h | h | h
      · have : (x.1 + 1) * 2 ^ (d * 30) ≤ t * 2 ^ (d * 30) := Nat.mul_le_mul_right _ h
        rw [Nat.add_one_mul] at this
        omega
      · exact h
      · have : (t + 1) * 2 ^ (d * 30) ≤ x.1 * 2 ^ (d * 30) := Nat.mul_le_mul_right _ h
        rw [Nat.add_one_mul] at this
        omega
    refine ⟨x, hx, hxt, ?_⟩
    rw [mem_iff_pos hx2.aligned hx2.int32 hp.int32]
    unfold gstart at h3; unfold gstop at h4
    rw [hxt] at h3 h4
    omega

theorem Segments.dvd (hd : 0 < d) {trees : List (List (Quad d))} {P : ℕ}
    {leaves : ℕ → List (ℕ × Quad d)} {s : ℕ → ℕ} (hs : Segments trees P leaves s) (p : ℕ) (hp : p ≤ P) :
    2 ^ d ∣ s p := by
  have hV : 2 ^ d ∣ 2 ^ (d * 30) := Nat.pow_dvd_pow 2 (by omega)
  obtain ⟨k, rfl⟩ : ∃ k, p = P - k := ⟨P - p, by omega⟩
  induction k with
  | zero => rw [Nat.sub_zero, hs.last]; exact Dvd.dvd.mul_left hV _
  | succ k ih =>
    by_cases hk : P - (k + 1) = P - k
    · rw [hk]; exact ih (by omega)
    · obtain ⟨p, hpe⟩ : ∃ p, p = P - (k + 1) := ⟨_, rfl⟩
      rw [← hpe]
      have hpath := hs.path p (by omega)
      rw [show P - k = p + 1 by omega] at ih
      cases hl : leaves p with
      | nil =>
        rw [hl] at hpath
        have : s p = s (p + 1) := hpath
        rw [this]; exact ih (by omega)
      | cons x xs =>
        have hleaf := hs.leaf p (by omega) x (by simp [hl])
        rw [hl] at hpath
        rw [hpath.1]
        refine Nat.dvd_add (Dvd.dvd.mul_left hV _) (dvd_trans ?_ (volume_dvd_start hleaf.2.aligned))
        refine Nat.pow_dvd_pow 2 ?_
        have := hleaf.2.1
        exact Nat.le_mul_of_pos_right d (by omega)

/-- C27. In a distributed complete forest, for every tree, quadrant and initial guess, there is
exactly one rank that has a leaf of the tree containing the first cell of the quadrant;
`p4est_comm_find_owner` terminates and returns this rank; and `p4est_comm_is_owner` is true of this
rank and of no other. -/
theorem C27_find_owner (hd : 0 < d) (trees : List (List (Quad d))) (P : ℕ)
    (leaves : ℕ → List (ℕ × Quad d)) (h : Distributed trees P leaves) (t : ℕ) (ht : t < trees.length)
    (q : Quad d) (hq : InTree q.c) (guess : ℕ) (hg : guess < P) :
    ∃ r, r < P ∧ (∃ x ∈ leaves r, x.1 = t ∧ q.c ∈ Cells x.2) ∧
      (∀ r', r' < P → (∃ x ∈ leaves r', x.1 = t ∧ q.c ∈ Cells x.2) → r' = r) ∧
      findOwner (globalPartition leaves P trees.length) P t q guess = some (r : ℤ) ∧
      ∀ r', r' < P → isOwner (globalPartition leaves P trees.length) t q r' = some (decide (r' = r)) := by
  obtain ⟨s, hs⟩ := h.segments hd
  have hcv := curve_lt_of_inTree hq
  have hn : t * 2 ^ (d * 30) + curve q.c < trees.length * 2 ^ (d * 30) := by
    have : (t + 1) * 2 ^ (d * 30) ≤ trees.length * 2 ^ (d * 30) := Nat.mul_le_mul_right _ ht
    rw [Nat.add_one_mul] at this
    omega
  obtain ⟨r, hr, h1, h2⟩ := hs.owner hn
  have hpos : forestPos t q.c = ((t * 2 ^ (d * 30) + curve q.c : ℕ) : ℤ) := by
    unfold forestPos; push_cast; rfl
  have huniq : ∀ r', r' < P → s r' ≤ t * 2 ^ (d * 30) + curve q.c →
      t * 2 ^ (d * 30) + curve q.c < s (r' + 1) → r' = r := by
    intro r' hr' h1' h2'
    rcases Nat.lt_trichotomy r' r with h | h | h
    · have := hs.mono (show r' + 1 ≤ r by omega) (by omega); omega
    · exact h
    · have := hs.mono (show r + 1 ≤ r' by omega) (by omega); omega
  refine ⟨r, hr, ?_, ?_, ?_, ?_⟩
  · exact (hs.mem_iff hd t r hr hq).mpr ⟨h1, h2⟩
  · intro r' hr' hx
    obtain ⟨h3, h4⟩ := (hs.mem_iff hd t r' hr' hq).mp hx
    exact huniq r' hr' h3 h4
  · exact ownerLoop_spec hd hs t q hq r hr h1 h2 P _ _ _ (by omega) le_rfl (by omega) (by omega) (by omega)
      (by omega) (by omega)
  · intro r' hr'
    obtain ⟨c, e1, a1⟩ := globalPartition_at hd hs r' hr'.le
    obtain ⟨c', e2, a2⟩ := globalPartition_at hd hs (r' + 1) hr'
    unfold isOwner
    simp only [e1, e2, Option.bind_eq_bind, Option.bind_some]
    have i1 := beginsBefore_iff hd (g := c) (t := (t : ℤ)) (q := q) a1.choose_spec.2.1 hq
    have i2 := beginsAfter_iff hd (g := c') (t := (t : ℤ)) (q := q) a2.choose_spec.2.1 hq
    rw [a1.pos, hpos] at i1
    rw [a2.pos, hpos] at i2
    by_cases hc1 : beginsBefore c t q = true
    · rw [if_pos hc1]
      have hlt := i1.mp hc1
      have : r' ≠ r := by rintro rfl; omega
      rw [decide_eq_false this]
    · rw [if_neg hc1]
      have hge := mt i1.mpr hc1
      by_cases hc2 : beginsAfter c' t q = true
      · rw [if_pos hc2]
        have hle := i2.mp hc2
        have : r' ≠ r := by rintro rfl; omega
        rw [decide_eq_false this]
      · rw [if_neg hc2]
        have hlt := mt i2.mpr hc2
        rw [decide_eq_true (huniq r' hr' (by omega) (by omega))]

/-- C27. `p4est_comm_is_contained` is true exactly of the ranks whose leaves cover the whole
quadrant. -/
theorem C27_is_contained (hd : 0 < d) (trees : List (List (Quad d))) (P : ℕ)
    (leaves : ℕ → List (ℕ × Quad d)) (h : Distributed trees P leaves) (t : ℕ)
    (q : Quad d) (hq : Valid q) (r : ℕ) (hr : r < P) :
    ∃ b, isContained (globalPartition leaves P trees.length) t q r = some b ∧
      (b = true ↔ ∀ p ∈ Cells q, ∃ x ∈ leaves r, x.1 = t ∧ p ∈ Cells x.2) := by
  obtain ⟨s, hs⟩ := h.segments hd
  have hqt := valid_inTree hq
  have hstop := valid_stop_le hd hq
  have hss := start_lt_stop q
  have hlv : Valid (lastDesc q 29) :=
    ((C10_descendants_bound hd q hq.extended 29 hq.1 le_rfl).2.2.1 hq).2
  have hstopl : stop (lastDesc q 29) = stop q := stop_lastDesc hq.aligned hq.int32 hq.1 (by norm_num)
  have hvol : stop (lastDesc q 29) = curve (lastDesc q 29).c + 2 ^ d := by
    rw [stop_eq]; unfold start volume; simp
  have hcov : (∀ p ∈ Cells q, ∃ x ∈ leaves r, x.1 = t ∧ p ∈ Cells x.2) ↔
      s r ≤ t * 2 ^ (d * 30) + curve q.c ∧ t * 2 ^ (d * 30) + curve (lastDesc q 29).c < s (r + 1) := by
    constructor
    · intro hall
      refine ⟨((hs.mem_iff hd t r hr hqt).mp (hall _ (corner_mem q))).1, ?_⟩
      exact ((hs.mem_iff hd t r hr (valid_inTree hlv)).mp (hall _ (lastDesc_mem hq.1))).2
    · rintro ⟨h1, h2⟩ p hp
      have hpt : InTree p := valid_cells_inTree hq hp
      rw [mem_iff_pos hq.aligned hq.int32 hpt.int32] at hp
      apply (hs.mem_iff hd t r hr hpt).mpr
      have hdv := hs.dvd hd (r + 1) hr
      have hdl : 2 ^ d ∣ curve (lastDesc q 29).c := by
        have := volume_dvd_start hlv.aligned
        simpa [volume, start] using this
      have hV : 2 ^ d ∣ 2 ^ (d * 30) := Nat.pow_dvd_pow 2 (by omega)
      have hgap : t * 2 ^ (d * 30) + curve (lastDesc q 29).c + 2 ^ d ≤ s (r + 1) := by
        obtain ⟨m, hm⟩ := hdv
        obtain ⟨k, hk⟩ := Nat.dvd_add (Dvd.dvd.mul_left hV t) hdl
        rw [hk, hm] at h2 ⊢
        have := Nat.lt_of_mul_lt_mul_left h2
        calc 2 ^ d * k + 2 ^ d = 2 ^ d * (k + 1) := by ring
          _ ≤ _ := Nat.mul_le_mul_left _ this
      unfold start at hp
      omega
  obtain ⟨c, e1, a1⟩ := globalPartition_at hd hs r hr.le
  obtain ⟨c', e2, a2⟩ := globalPartition_at hd hs (r + 1) hr
  have i1 := beginsBefore_iff hd (g := c) (t := (t : ℤ)) (q := q) a1.choose_spec.2.1 hqt
  have hpos : forestPos t q.c = ((t * 2 ^ (d * 30) + curve q.c : ℕ) : ℤ) := by
    unfold forestPos; push_cast; rfl
  have hpos' : forestPos t (lastDesc q 29).c = ((t * 2 ^ (d * 30) + curve (lastDesc q 29).c : ℕ) : ℤ) := by
    unfold forestPos; push_cast; rfl
  have i2 : ((t : ℤ) > c'.tree ∨ ((t : ℤ) = c'.tree ∧ compare c'.quad (lastDesc q QMAXLEVEL) ≤ 0)) ↔
      forestPos c'.tree c'.c ≤ forestPos t (lastDesc q 29).c := by
    rw [← not_lt (a := forestPos (t : ℤ) _), forestPos_lt_iff (valid_inTree hlv) a2.choose_spec.2.1,
      ← not_lt (a := (0 : ℤ)),
      compare_pos_iff hd (q := c'.quad) (r := lastDesc q QMAXLEVEL) a2.choose_spec.2.1.int32 hlv.int32]
    unfold Before
    change _ ∨ _ ∧ ¬ (curve (lastDesc q 29).c < curve c'.c ∨ _ ∧ 29 < 29) ↔ _
    omega
  rw [a1.pos, hpos] at i1
  rw [a2.pos, hpos'] at i2
  unfold isContained
  simp only [e1, e2, Option.bind_eq_bind, Option.bind_some]
  rw [hcov]
  by_cases hc1 : beginsBefore c t q = true
  · rw [if_pos hc1]
    have hlt := i1.mp hc1
    exact ⟨false, rfl, by simp; omega⟩
  · rw [if_neg hc1]
    have hge := mt i1.mpr hc1
    split
    · rename_i hc2
      have := i2.mp hc2
      exact ⟨false, rfl, by simp; omega⟩
    · rename_i hc2
      have := mt i2.mpr hc2
      exact ⟨true, rfl, by simp; omega⟩

/-! ### A distributed forest -/

/-- Two 2D trees, the first with four leaves and the second with one; four ranks, of which the
second and the last are empty. -/
def twoTrees : List (List (Quad 2)) := [childrenv (root 2), [root 2]]

def twoTreesLeaves : ℕ → List (ℕ × Quad 2)
  | 0 => (childrenv (root 2)).take 3 |>.map fun q => (0, q)
  | 2 => ((childrenv (root 2)).drop 3 |>.map fun q => (0, q)) ++ [(1, root 2)]
  | _ => []

theorem twoTrees_distributed : Distributed twoTrees 4 twoTreesLeaves where
  complete := by
    have h1 := children_path (root_valid (d := 2)).aligned (root_valid (d := 2)).int32 (by decide)
    rw [start_root, stop_root] at h1
    have h2 : Path 0 [root 2] (2 ^ (2 * 30)) := ⟨start_root.symm, stop_root⟩
    simp only [twoTrees, List.mem_cons, List.not_mem_nil, or_false, forall_eq_or_imp, forall_eq]
    refine ⟨treeComplete_of_path ?_ h1, treeComplete_of_path ?_ h2⟩
    · intro q hq
      exact (valid_child (by norm_num) root_valid (by decide) hq).1
    · simp only [List.mem_singleton, forall_eq]; exact root_valid
  someTree := by simp [twoTrees]
  split := by decide +kernel

example : ∃ (trees : List (List (Quad 2))) (leaves : ℕ → List (ℕ × Quad 2)), Distributed trees 4 leaves ∧
    leaves 1 = [] ∧ 1 < trees.length ∧ (leaves 0).length = 3 :=
  ⟨twoTrees, twoTreesLeaves, twoTrees_distributed, rfl, by decide, by decide⟩

example : findOwner (globalPartition twoTreesLeaves 4 2) 4 0 ⟨![536870912, 536870912], 3⟩ 0 = some 2 := by
  obtain ⟨r, hr, -, hu, h, -⟩ := C27_find_owner (by norm_num) _ _ _ twoTrees_distributed 0 (by decide)
    ⟨![536870912, 536870912], 3⟩ (by intro i; fin_cases i <;> decide) 0 (by norm_num)
  have : 2 = r := hu 2 (by norm_num) ⟨(0, ⟨![536870912, 536870912], 1⟩), by decide +kernel, rfl, by
    intro i; fin_cases i <;> decide +kernel⟩
  subst this
  exact h

end P4est
