import Verif.Lemmas.PartitionFamilyAll
import Verif.Props.Coarsen

/-! # C32: repartitioning keeps families together

`p4est_partition_for_coarsening` takes the numbers of leaves `num` that the ranks shall have and
changes them such that no complete family of leaves is split between ranks. -/

namespace P4est
open Spec

variable {d : ℕ}

theorem familyAt_iff {L : List (ℕ × Quad d)} {m : ℕ} : FamilyAt L m ↔ FamAt L m := by
  unfold FamilyAt FamAt Fam
  constructor
  · rintro ⟨t, p, hv, h⟩
    exact ⟨t, p, hv, fun k hk => by rw [h k hk, kid_eq_child hv]⟩
  · rintro ⟨t, p, hv, h⟩
    exact ⟨t, p, hv, fun k hk => by rw [h k hk, kid_eq_child hv]⟩

/-- Move the begin `x` of rank `p` in the partition `n` out of the family at `m`, for the benefit of
the rank `b`. -/
structure MovedCut (L : List (ℕ × Quad d)) (P : ℕ) (n s : ℕ → ℕ) : Prop where
  inside : ∀ p, p ≤ P → ∀ m, FamAt L m → m < n p → n p < m + 2 ^ d →
    ∃ b, IsBest (share n m (2 ^ d)) P b ∧ s p = if b < p then m + 2 ^ d else m
  outside : ∀ p, p ≤ P → (∀ m, FamAt L m → ¬ (m < n p ∧ n p < m + 2 ^ d)) → s p = n p

theorem FamAt.le {L : List (ℕ × Quad d)} {m : ℕ} (h : FamAt L m) : m + 2 ^ d ≤ L.length := by
  obtain ⟨t, p, -, h⟩ := h
  have hp : 0 < 2 ^ d := by positivity
  have := (List.getElem?_eq_some_iff.mp (h (2 ^ d - 1) (by omega))).1
  omega

theorem FamAt.sep {L : List (ℕ × Quad d)} (hL : GSeq L) {m m' : ℕ} (h1 : FamAt L m) (h2 : FamAt L m') (hlt : m < m') :
    m + 2 ^ d ≤ m' := by
  by_contra hc
  have hp : 0 < 2 ^ d := by positivity
  have := h1.eq hL h2 (j := m') (by omega) (by omega) le_rfl (by omega)
  omega

theorem MovedCut.mono {L : List (ℕ × Quad d)} (hL : GSeq L) {P : ℕ} {n s : ℕ → ℕ} (hn : Monotone n)
    (h : MovedCut L P n s) {p : ℕ} (hp : p < P) : s p ≤ s (p + 1) := by
  have hnn := hn (show p ≤ p + 1 by omega)
  by_cases h1 : ∃ m, FamAt L m ∧ m < n p ∧ n p < m + 2 ^ d
  · obtain ⟨m, f, a1, a2⟩ := h1
    obtain ⟨b, hb, e⟩ := h.inside p hp.le m f a1 a2
    by_cases h2 : ∃ m, FamAt L m ∧ m < n (p + 1) ∧ n (p + 1) < m + 2 ^ d
    · obtain ⟨m', f', a1', a2'⟩ := h2
      obtain ⟨b', hb', e'⟩ := h.inside (p + 1) hp m' f' a1' a2'
      rcases Nat.lt_trichotomy m m' with hm | hm | hm
      · have := f.sep hL f' hm
        rw [e, e']; split <;> split <;> omega
      · subst hm
        have := hb.unique hb'
        subst this
        rw [e, e']; split <;> split <;> omega
      · have := f'.sep hL f hm
        omega
    · have e' := h.outside (p + 1) hp (fun m hm hc => h2 ⟨m, hm, hc⟩)
      have : ¬ n (p + 1) < m + 2 ^ d := fun hc => h2 ⟨m, f, by omega, hc⟩
      rw [e, e']; split <;> omega
  · have e := h.outside p hp.le (fun m hm hc => h1 ⟨m, hm, hc⟩)
    by_cases h2 : ∃ m, FamAt L m ∧ m < n (p + 1) ∧ n (p + 1) < m + 2 ^ d
    · obtain ⟨m', f', a1', a2'⟩ := h2
      obtain ⟨b', hb', e'⟩ := h.inside (p + 1) hp m' f' a1' a2'
      have : ¬ m' < n p := fun hc => h1 ⟨m', f', hc, by omega⟩
      rw [e, e']; split <;> omega
    · have e' := h.outside (p + 1) hp (fun m hm hc => h2 ⟨m, hm, hc⟩)
      omega

/-- In the new partition every family is on one rank. -/
theorem MovedCut.whole {L : List (ℕ × Quad d)} (hL : GSeq L) {P : ℕ} (hP : 0 < P) {n s : ℕ → ℕ} (hn : Monotone n) (h0 : n 0 = 0)
    (hnP : n P = L.length) (h : MovedCut L P n s) {m : ℕ} (f : FamAt L m) :
    ∃ b, b < P ∧ (∀ i, i < P → share n m (2 ^ d) i ≤ share n m (2 ^ d) b) ∧ s b ≤ m ∧ m + 2 ^ d ≤ s (b + 1) := by
  obtain ⟨b, hb⟩ := exists_best (share n m (2 ^ d)) hP
  have hle := f.le
  have hpos : 0 < share n m (2 ^ d) b := by
    -- the rank with leaf `m`
    have : ∃ i, i < P ∧ n i ≤ m ∧ m < n (i + 1) := by
      have h2 : ∀ k, k ≤ P → m < n k → ∃ i, i < k ∧ n i ≤ m ∧ m < n (i + 1) := by
        intro k
        induction k with
        | zero => intro _ h3; omega
        | succ k ih =>
          intro h3 h4
          rcases Nat.lt_or_ge m (n k) with h5 | h5
          · obtain ⟨i, i1, i2⟩ := ih (by omega) h5
            exact ⟨i, by omega, i2⟩
          · exact ⟨k, by omega, h5, h4⟩
      have : 0 < 2 ^ d := by positivity
      exact h2 P le_rfl (by omega)
    obtain ⟨i, i1, i2, i3⟩ := this
    have := hb.max i i1
    have h4 : 0 < 2 ^ d := by positivity
    have : 0 < share n m (2 ^ d) i := by unfold share; omega
    omega
  have hb1 : n b < m + 2 ^ d ∧ m < n (b + 1) := by unfold share at hpos; omega
  refine ⟨b, hb.lt, hb.max, ?_, ?_⟩
  · by_cases h1 : ∃ m, FamAt L m ∧ m < n b ∧ n b < m + 2 ^ d
    · obtain ⟨m', f', a1, a2⟩ := h1
      obtain ⟨b', hb', e⟩ := h.inside b hb.lt.le m' f' a1 a2
      rcases Nat.lt_trichotomy m' m with hm | hm | hm
      · have := f'.sep hL f hm
        rw [e]; split <;> omega
      · subst hm
        have := hb.unique hb'
        subst this
        rw [e, if_neg (by omega)]
      · have := f.sep hL f' hm
        omega
    · rw [h.outside b hb.lt.le (fun m hm hc => h1 ⟨m, hm, hc⟩)]
      by_contra hc
      exact h1 ⟨m, f, by omega, hb1.1⟩
  · by_cases h1 : ∃ m, FamAt L m ∧ m < n (b + 1) ∧ n (b + 1) < m + 2 ^ d
    · obtain ⟨m', f', a1, a2⟩ := h1
      obtain ⟨b', hb', e⟩ := h.inside (b + 1) hb.lt m' f' a1 a2
      rcases Nat.lt_trichotomy m' m with hm | hm | hm
      · have := f'.sep hL f hm
        omega
      · subst hm
        have := hb.unique hb'
        subst this
        rw [e, if_pos (by omega)]
      · have := f.sep hL f' hm
        rw [e]; split <;> omega
    · rw [h.outside (b + 1) hb.lt (fun m hm hc => h1 ⟨m, hm, hc⟩)]
      by_contra hc
      exact h1 ⟨m, f, hb1.2, by omega⟩

/-- C32. `p4est_partition_for_coarsening` on a forest distributed among the ranks in any way, for the
wanted numbers of leaves `num`.  It returns numbers `num'` such that

* they are nonnegative and sum up to the number of all leaves,
* every complete family is on one rank, and this rank would have had the most leaves of the family,
* where a rank begins is unchanged if that does not split a family, and otherwise moved to the
  begin or the end of this family,
* a rank that shall have no leaves gets none.

The second result is the number of leaves by which the begins of the nonempty ranks have moved.

`under` is the content of the memory before the array `global_first_quadrant`.  What is missing for
the full property is shown by `C32_reads_before_array`: if a nonempty rank other than the first is to
begin at a leaf `x` with `x + 1 < 2^d` and `x + 2^d < N + 2`, the code reads this memory, and works
only if it finds a nonnegative number there. -/
theorem C32_partition_for_coarsening_partial (hd : 2 ≤ d) (trees : List (List (Quad d))) (P : ℕ)
    (leaves : ℕ → List (ℕ × Quad d)) (hF : Distributed trees P leaves)
    (num : ℕ → ℕ) (hnum : ∑ p ∈ Finset.range P, num p = (forestLeaves trees).length)
    (st : ℕ → RankTrees (Quad d)) (hst : ∀ p, p < P → Holds trees.length (leaves p) (st p))
    (gfq : ℕ → ℤ) (hgfq : ∀ p, p ≤ P → gfq p = ((∑ i ∈ Finset.range p, (leaves i).length : ℕ) : ℤ))
    (under : Option ℤ)
    (hunder : ∀ p, 1 ≤ p → p < P → 0 < num p → (∃ u, under = some u ∧ 0 ≤ u) ∨
      2 ^ d ≤ ∑ i ∈ Finset.range p, num i + 1 ∨ (forestLeaves trees).length + 2 ≤ ∑ i ∈ Finset.range p, num i + 2 ^ d) :
    ∃ (num' : ℕ → ℕ) (shift : ℤ),
      partitionForCoarsening gfq under P (forestLeaves trees).length st
        (fun p => (num p : ℤ)) = some (fun p => if p < P then (num' p : ℤ) else num p, shift) ∧
      ∑ p ∈ Finset.range P, num' p = (forestLeaves trees).length ∧
      (∀ m, FamilyAt (forestLeaves trees) m → ∃ b, b < P ∧
        (∀ i, i < P → share (fun p => ∑ i ∈ Finset.range p, num i) m (2 ^ d) i ≤
          share (fun p => ∑ i ∈ Finset.range p, num i) m (2 ^ d) b) ∧
        ∑ i ∈ Finset.range b, num' i ≤ m ∧ m + 2 ^ d ≤ ∑ i ∈ Finset.range (b + 1), num' i) ∧
      (∀ p, p ≤ P →
        (∑ i ∈ Finset.range p, num' i = ∑ i ∈ Finset.range p, num i ∧
          ∀ m, FamilyAt (forestLeaves trees) m → ¬ (m < ∑ i ∈ Finset.range p, num i ∧ ∑ i ∈ Finset.range p, num i < m + 2 ^ d)) ∨
        ∃ m, FamilyAt (forestLeaves trees) m ∧ m < ∑ i ∈ Finset.range p, num i ∧ ∑ i ∈ Finset.range p, num i < m + 2 ^ d ∧
          (∑ i ∈ Finset.range p, num' i = m ∨ ∑ i ∈ Finset.range p, num' i = m + 2 ^ d)) ∧
      (∀ p, p < P → num p = 0 → num' p = 0) ∧
      shift = ∑ p ∈ Finset.range P,
        if num p = 0 then 0 else |((∑ i ∈ Finset.range p, num' i : ℕ) : ℤ) - ((∑ i ∈ Finset.range p, num i : ℕ) : ℤ)| := by
  have hd0 : 0 < d := by omega
  obtain ⟨L, hLdef⟩ : ∃ L, L = forestLeaves trees := ⟨_, rfl⟩
  have hsplit := hF.split
  rw [← hLdef] at hnum hunder hsplit ⊢
  -- the global sequence
  have hGP := gpath_tag hd0 hF.complete 0
  rw [Nat.zero_mul] at hGP
  have hL : GSeq L := by
    refine ⟨⟨_, by rw [hLdef]; exact hGP⟩, fun x hx => ?_⟩
    rw [hLdef] at hx
    obtain ⟨-, -, l, hl, h7⟩ := mem_tagFrom hx
    exact (hF.complete l hl).valid _ h7
  have hN0 : 0 < L.length := by
    rcases Nat.eq_zero_or_pos L.length with h | h
    · have h1 : L = [] := List.length_eq_zero_iff.mp h
      rw [h1] at hLdef
      change GPath 0 (forestLeaves trees) _ at hGP
      rw [← hLdef] at hGP
      have h2 : 0 = (0 + trees.length) * 2 ^ (d * 30) := hGP
      have h3 : 0 < trees.length := List.length_pos_iff.mpr hF.someTree
      have : 0 < (0 + trees.length) * 2 ^ (d * 30) := by positivity
      omega
    · exact h
  have hP : 0 < P := by
    rcases Nat.eq_zero_or_pos P with h | h
    · subst h; simp at hnum; omega
    · exact h
  have hlen : ∑ i ∈ Finset.range P, (leaves i).length = L.length := by
    rw [← hsplit, List.length_flatMap]; rfl
  set o := fun p => ∑ i ∈ Finset.range p, (leaves i).length with ho
  set n := fun p => ∑ i ∈ Finset.range p, num i with hn
  have homono : Monotone o := fun _ _ h => prefix_mono (fun i => (leaves i).length) h
  have hnmono : Monotone n := fun _ _ h => prefix_mono num h
  have h4 : 4 ≤ 2 ^ d := by
    calc 4 = 2 ^ 2 := by norm_num
      _ ≤ 2 ^ d := Nat.pow_le_pow_right (by norm_num) hd
  have hcuts : Cuts P L.length (2 ^ d) o n gfq
      (partitionNew (fun p => (num p : ℤ)) P L.length) :=
    { omono := homono, nmono := hnmono, o0 := by simp [ho], n0 := by simp [hn], oP := hlen, nP := hnum
      now := hgfq
      new := fun i hi => by
        unfold partitionNew
        split
        · rename_i h; subst h; rw [← hnum]
        · exact newCut_eq num i
      three := by omega
      pos := hP }
  -- the messages
  have hmsg : ∀ i j, ∃ m, NearRel P (2 ^ d) o n i j →
      nearMessage ((2 ^ d : ℕ) : ℤ) (st i) (o i) (o (i + 1)) (n j) = some m ∧
      ∃ k t q, NearMsg L (2 ^ d) (o i) (o (i + 1)) (n j) k t q m := by
    intro i j
    by_cases hR : NearRel P (2 ^ d) o n i j
    · have hi : i < P := hR.2.2.1
      have hls := flatMap_slice leaves P i hi
      rw [hsplit] at hls
      obtain ⟨m, k, t, q, e1, e2⟩ := nearMessage_spec (hst i hi) (L := L) (C := 2 ^ d) (a := o i) (b := o (i + 1)) (cut := n j)
        hls (by simp only [ho, Finset.sum_range_succ]; omega) hR.2.2.2.1 (by omega) hR.2.2.2.2.2.1 hR.2.2.2.2.2.2
      exact ⟨m, fun _ => ⟨e1, k, t, q, e2⟩⟩
    · exact ⟨⟨root d, 0, 0⟩, fun h => absurd h hR⟩
  choose msg hmsg using hmsg
  have hsends : ∀ p, p < P → nearSends ((2 ^ d : ℕ) : ℤ) gfq
      (partitionNew (fun p => (num p : ℤ)) P L.length) P L.length (st p) p =
      some (((List.range P).filter fun j => decide (NearRel P (2 ^ d) o n p j)).map fun j => (j, msg p j)) :=
    fun p hp => nearSends_spec hcuts hp fun j hj => (hmsg p j hj).1
  -- the corrections
  have hcorr : ∀ r, ∃ x, r < P → ∀ sends : ℕ → List (ℕ × Near d),
      (∀ p, p < P → sends p = ((List.range P).filter fun j => decide (NearRel P (2 ^ d) o n p j)).map fun j => (j, msg p j)) →
      correctionLocal ((2 ^ d : ℕ) : ℤ) gfq
        (partitionNew (fun p => (num p : ℤ)) P L.length) under P L.length sends r = some x ∧
      (∀ m, FamAt L m → 1 ≤ r → n r < n (r + 1) → m < n r → n r < m + 2 ^ d →
        ∃ b, IsBest (share n m (2 ^ d)) P b ∧ x = if b < r then (n r : ℤ) - ((m : ℤ) + (2 ^ d : ℕ)) else (n r : ℤ) - m) ∧
      ((r = 0 ∨ n (r + 1) ≤ n r ∨ ∀ m, FamAt L m → ¬ (m < n r ∧ n r < m + 2 ^ d)) → x = 0) := by
    intro r
    by_cases hr : r < P
    · have hu : 1 ≤ r → n r < n (r + 1) → UnderOk under L.length (2 ^ d) (n r) := by
        intro h1 h2
        simp only [hn, Finset.sum_range_succ] at h2
        exact hunder r h1 hr (by omega)
      obtain ⟨x, hx⟩ := correctionLocal_spec hd0 hL hcuts rfl rfl hr hu (msg := msg) (fun i j h => (hmsg i j h).2)
        (sends := fun p => ((List.range P).filter fun j => decide (NearRel P (2 ^ d) o n p j)).map fun j => (j, msg p j))
        (fun _ _ => rfl)
      refine ⟨x, fun _ sends hs => ?_⟩
      obtain ⟨x', hx'⟩ := correctionLocal_spec hd0 hL hcuts rfl rfl hr hu (msg := msg) (fun i j h => (hmsg i j h).2) hs
      have hxx : x' = x := by
        rcases Classical.em (r = 0 ∨ n (r + 1) ≤ n r ∨ ∀ m, FamAt L m → ¬ (m < n r ∧ n r < m + 2 ^ d)) with hc | hc
        · rw [hx.2.2 hc, hx'.2.2 hc]
        · push Not at hc
          obtain ⟨c1, c2, m, fm, c3⟩ := hc
          obtain ⟨b, hb, e⟩ := hx.2.1 m fm (by omega) c2 c3.1 c3.2
          obtain ⟨b', hb', e'⟩ := hx'.2.1 m fm (by omega) c2 c3.1 c3.2
          rw [e, e', hb.unique hb']
      rw [← hxx]
      exact hx'
    · exact ⟨0, fun h => absurd h hr⟩
  choose corr hcorr using hcorr
  -- the final loop
  have hrun : partitionForCoarsening gfq under P L.length st
      (fun p => (num p : ℤ)) = correctLoop P (fun p => (((List.range P).map corr)[p]?).getD 0) (P + 1)
        (nextNonempty 0 P fun p => (num p : ℤ)) (nextNonempty (nextNonempty 0 P (fun p => (num p : ℤ)) + 1) P fun p => (num p : ℤ))
        (fun p => (num p : ℤ), 0) := by
    unfold partitionForCoarsening
    have e2 : ((2 : ℤ) ^ d) = ((2 ^ d : ℕ) : ℤ) := by push_cast; rfl
    simp only [bind, Option.bind]
    rw [e2, mapM_some (g := fun p => ((List.range P).filter fun j => decide (NearRel P (2 ^ d) o n p j)).map fun j => (j, msg p j))
      (fun p hp => hsends p (List.mem_range.mp hp))]
    simp only
    rw [mapM_some (g := corr)]
    intro r hr
    refine ((hcorr r (List.mem_range.mp hr)) _ ?_).1
    intro p hp
    rw [List.getElem?_map, List.getElem?_range hp]; rfl
  have hcg : ∀ p, p < P → (((List.range P).map corr)[p]?).getD 0 = corr p := by
    intro p hp
    rw [List.getElem?_map, List.getElem?_range hp]; rfl
  have hcorr' := fun r hr => (hcorr r hr (fun p => ((List.range P).filter fun j => decide (NearRel P (2 ^ d) o n p j)).map fun j => (j, msg p j))
    (fun _ _ => rfl)).2
  -- the begin of the next nonempty rank
  have hnx : ∀ p, p ≤ P → n (nextNonempty p P fun p => (num p : ℤ)) = n p := by
    intro p hp
    obtain ⟨s1, s2, s3, -⟩ := nextNonempty_spec (fun p => (num p : ℤ)) hp
    have : ∀ y, p ≤ y → y ≤ nextNonempty p P (fun p => (num p : ℤ)) → n y = n p := by
      intro y
      induction y with
      | zero => intro h1 _; rw [show p = 0 by omega]
      | succ y ih =>
        intro h1 h2
        rcases Nat.lt_or_ge y p with h3 | h3
        · rw [show p = y + 1 by omega]
        · rw [← ih h3 (by omega)]
          have := s3 y h3 (by omega)
          simp only [hn, Finset.sum_range_succ]
          omega
    exact this _ s1 le_rfl
  have hsucc : ∀ p, n (p + 1) = n p + num p := fun p => Finset.sum_range_succ ..
  have happ : ∀ p, p ≤ P → ∀ y, y = nextNonempty p P (fun p => (num p : ℤ)) →
      (∀ m, FamAt L m → m < n p → n p < m + 2 ^ d → ∃ b, IsBest (share n m (2 ^ d)) P b ∧
        applied P (fun p => (((List.range P).map corr)[p]?).getD 0) y = if b < p then (n p : ℤ) - ((m : ℤ) + (2 ^ d : ℕ)) else (n p : ℤ) - m) ∧
      ((∀ m, FamAt L m → ¬ (m < n p ∧ n p < m + 2 ^ d)) → applied P (fun p => (((List.range P).map corr)[p]?).getD 0) y = 0) := by
    intro p hp y hy
    have hny := hnx p hp
    obtain ⟨s1, s2, s3, s4⟩ := nextNonempty_spec (fun p => (num p : ℤ)) hp
    rw [← hy] at hny s1 s2 s3 s4
    constructor
    · intro m fm h1 h2
      have hle := fm.le
      have hyP : y < P := by
        by_contra hc
        have : y = P := by omega
        rw [this, show n P = L.length from hnum] at hny
        omega
      have hy1 : 1 ≤ y := by
        rcases Nat.eq_zero_or_pos y with h0 | h0
        · rw [h0] at hny
          have : n 0 = 0 := by simp [hn]
          omega
        · exact h0
      have hy2 : n y < n (y + 1) := by
        have := s4 hyP
        have := hsucc y
        omega
      obtain ⟨b, hb, e⟩ := (hcorr' y hyP).1 m fm hy1 hy2 (by omega) (by omega)
      refine ⟨b, hb, ?_⟩
      unfold applied
      rw [if_pos ⟨by omega, hyP⟩]
      simp only
      rw [hcg y hyP, e, hny]
      have hbne : ¬ (p ≤ b ∧ b < y) := by
        rintro ⟨b1, b2⟩
        have h3 := s3 b b1 b2
        have h5 : share n m (2 ^ d) b = 0 := by
          have := hsucc b
          unfold share
          omega
        -- but rank `y` has a share
        have h6 := hb.max y hyP
        have : 0 < share n m (2 ^ d) y := by unfold share; omega
        omega
      by_cases hby : b < y
      · rw [if_pos hby, if_pos (by omega)]
      · rw [if_neg hby, if_neg (by omega)]
    · intro hno
      unfold applied
      split
      · rename_i hc
        simp only
        rw [hcg y hc.2]
        refine (hcorr' y hc.2).2 (Or.inr (Or.inr ?_))
        intro m fm; rw [hny]; exact hno m fm
      · rfl
  have hfirst : applied P (fun p => (((List.range P).map corr)[p]?).getD 0) (nextNonempty 0 P fun p => (num p : ℤ)) = 0 := by
    refine (happ 0 (by omega) _ rfl).2 ?_
    intro m _
    have : n 0 = 0 := by simp [hn]
    omega
  obtain ⟨numZ, shift, q1, q2, q3, q4⟩ := correctAll_spec P (fun p => (((List.range P).map corr)[p]?).getD 0) (fun p => (num p : ℤ)) hfirst
  have hsumZ : ∀ p, ∑ i ∈ Finset.range p, (num i : ℤ) = (n p : ℤ) := by
    intro p; simp only [hn]; push_cast; rfl
  -- the new begins
  have hsex : ∀ p, ∃ s : ℕ, p ≤ P → ∑ i ∈ Finset.range p, numZ i = s := by
    intro p
    by_cases hp : p ≤ P
    · have e := q3 p hp
      rw [hsumZ] at e
      by_cases h1 : ∃ m, FamAt L m ∧ m < n p ∧ n p < m + 2 ^ d
      · obtain ⟨m, fm, h1, h2⟩ := h1
        obtain ⟨b, -, e'⟩ := (happ p hp _ rfl).1 m fm h1 h2
        rw [e'] at e
        exact ⟨if b < p then m + 2 ^ d else m, fun _ => by rw [e]; split <;> push_cast <;> ring⟩
      · have e' := (happ p hp _ rfl).2 (fun m fm hc => h1 ⟨m, fm, hc⟩)
        rw [e', sub_zero] at e
        exact ⟨n p, fun _ => e⟩
    · exact ⟨0, fun h => absurd h hp⟩
  choose s hs using hsex
  have hmc : MovedCut L P n s := by
    constructor
    · intro p hp m fm h1 h2
      obtain ⟨b, hb, e'⟩ := (happ p hp _ rfl).1 m fm h1 h2
      refine ⟨b, hb, ?_⟩
      have e := q3 p hp
      rw [hsumZ, e', hs p hp] at e
      split <;> rename_i hbp
      · rw [if_pos hbp] at e; push_cast at e; have : ((s p : ℕ) : ℤ) = ((m + 2 ^ d : ℕ) : ℤ) := by push_cast; linarith
        exact_mod_cast this
      · rw [if_neg hbp] at e; omega
    · intro p hp hno
      have e' := (happ p hp _ rfl).2 hno
      have e := q3 p hp
      rw [hsumZ, e', hs p hp] at e
      omega
  have hstepZ : ∀ p, p < P → numZ p = (s (p + 1) : ℤ) - s p := by
    intro p hp
    rw [← hs p hp.le, ← hs (p + 1) hp, Finset.sum_range_succ]; ring
  have hnumN : ∀ p, p < P → numZ p = ((s (p + 1) - s p : ℕ) : ℤ) := by
    intro p hp
    have := hmc.mono hL hnmono hp
    rw [hstepZ p hp]; omega
  have hsum' : ∀ p, p ≤ P → ∑ i ∈ Finset.range p, (s (i + 1) - s i) = s p := by
    intro p
    induction p with
    | zero =>
      intro _
      have := hs 0 (by omega)
      simp at this ⊢; omega
    | succ p ih =>
      intro hp
      have := hmc.mono hL hnmono (show p < P by omega)
      rw [Finset.sum_range_succ, ih (by omega)]; omega
  have hrest : ∀ p, P ≤ p → numZ p = num p := by
    intro p hp
    obtain ⟨num2, moved2, c1, c2, c3, c4, c5⟩ := correctLoop_spec P (fun p => (((List.range P).map corr)[p]?).getD 0) (fun p => (num p : ℤ)) (P + 1)
      (nextNonempty 0 P fun p => (num p : ℤ)) (by omega) (nextNonempty_spec _ (Nat.zero_le P)).2.1
      (nextNonempty_spec _ (Nat.zero_le P)).2.2.2 (fun p => (num p : ℤ)) 0 (fun _ _ => rfl)
    rw [q1] at c1
    injection c1 with c1
    injection c1 with c1 _
    rw [c1]
    exact c3 p hp
  refine ⟨fun p => s (p + 1) - s p, shift, ?_, ?_, ?_, ?_, ?_, ?_⟩
  · rw [hrun, q1]
    congr 2
    funext p
    split
    · rename_i hp; exact hnumN p hp
    · rename_i hp; exact hrest p (by omega)
  · rw [hsum' P le_rfl]
    refine (hmc.outside P le_rfl ?_).trans hnum
    intro m fm
    have := fm.le
    have : n P = L.length := hnum
    omega
  · intro m fm
    obtain ⟨b, b1, b2, b3, b4⟩ := hmc.whole hL hP hnmono (by simp [hn]) hnum (familyAt_iff.mp fm)
    exact ⟨b, b1, b2, by rw [hsum' b b1.le]; exact b3, by rw [hsum' (b + 1) b1]; exact b4⟩
  · intro p hp
    rw [hsum' p hp]
    by_cases h1 : ∃ m, FamAt L m ∧ m < n p ∧ n p < m + 2 ^ d
    · obtain ⟨m, fm, h1, h2⟩ := h1
      obtain ⟨b, -, e⟩ := hmc.inside p hp m fm h1 h2
      refine Or.inr ⟨m, familyAt_iff.mpr fm, h1, h2, ?_⟩
      rw [e]; split <;> simp
    · refine Or.inl ⟨hmc.outside p hp (fun m fm hc => h1 ⟨m, fm, hc⟩), fun m fm hc => h1 ⟨m, familyAt_iff.mp fm, hc⟩⟩
  · intro p hp h0
    have := q2 p hp (by simp [h0])
    rw [hnumN p hp] at this
    simp only
    omega
  · rw [q4]
    apply Finset.sum_congr rfl
    intro p hp
    rw [Finset.mem_range] at hp
    have e := q3 p hp.le
    by_cases h0 : num p = 0
    · rw [if_pos (by simp [h0]), if_pos h0]
    · rw [if_neg (by simpa using h0), if_neg h0]
      rw [nextNonempty_self _ hp (by simpa using h0), hsumZ, hs p hp.le] at e
      rw [hsum' p hp.le]
      rw [show ((s p : ℕ) : ℤ) - ((∑ i ∈ Finset.range p, num i : ℕ) : ℤ) =
        -(applied P (fun p => (((List.range P).map corr)[p]?).getD 0) p) from ?_, abs_neg]
      change (s p : ℤ) - (n p : ℤ) = _
      rw [e]; ring

/-- The state of the ranks of the forest `twoTrees`. -/
def twoTreesState (p : ℕ) : RankTrees (Quad 2) :=
  ⟨(List.range 2).map (leavesIn (twoTreesLeaves p)), match p with | 0 => 0 | 2 => 0 | _ => -1,
    match p with | 0 => 0 | 2 => 1 | _ => -2⟩

theorem twoTreesState_holds : ∀ p, p < 4 → Holds twoTrees.length (twoTreesLeaves p) (twoTreesState p) := by
  intro p hp
  have : p = 0 ∨ p = 1 ∨ p = 2 ∨ p = 3 := by omega
  rcases this with rfl | rfl | rfl | rfl
  all_goals exact ⟨by decide, by decide +kernel, by decide, by decide⟩

/-- Five leaves, the first four of them a family, shall be distributed as three and two.  The
hypotheses hold, and the function gives the fourth leaf to the first rank. -/
example : (partitionForCoarsening (countQuadrants (fun p => ((twoTreesLeaves p).length : ℤ)) 4) none 4
    (forestLeaves twoTrees).length twoTreesState
    (fun p => ((if p = 0 then 3 else if p = 2 then 2 else 0 : ℕ) : ℤ))).map (fun r => ((List.range 4).map r.1, r.2)) =
      some ([4, 0, 1, 0], 1) := by decide +kernel

example : ∃ num' : ℕ → ℕ, ∃ shift, partitionForCoarsening (countQuadrants (fun p => ((twoTreesLeaves p).length : ℤ)) 4) none 4
    (forestLeaves twoTrees).length twoTreesState
    (fun p => ((if p = 0 then 3 else if p = 2 then 2 else 0 : ℕ) : ℤ)) =
      some (fun p => if p < 4 then (num' p : ℤ) else ((if p = 0 then 3 else if p = 2 then 2 else 0 : ℕ) : ℤ), shift) := by
  obtain ⟨num', shift, h, -⟩ := C32_partition_for_coarsening_partial le_rfl twoTrees 4 twoTreesLeaves twoTrees_distributed
    (fun p => if p = 0 then 3 else if p = 2 then 2 else 0) (by decide) twoTreesState twoTreesState_holds
    (countQuadrants (fun p => ((twoTreesLeaves p).length : ℤ)) 4) (C28_count_quadrants _ 4).1 none (by
      intro p h1 h2 h3
      have : p = 2 := by
        by_contra hc
        rw [if_neg (by omega), if_neg hc] at h3
        omega
      subst this
      right; left; decide)
  exact ⟨num', shift, h⟩

/-- C32 (what is false). If the second of two nonempty ranks shall begin with the second of five leaves, the
code reads the memory before the array `global_first_quadrant` (src/p4est.c:3158-3163).  If the
access is a fault, the function fails; if the number found is negative, it waits for a message from
rank -1.  With a nonnegative number the result is right. -/
theorem C32_reads_before_array :
    ∃ (trees : List (List (Quad 2))) (P : ℕ) (leaves : ℕ → List (ℕ × Quad 2)) (num : ℕ → ℕ) (st : ℕ → RankTrees (Quad 2)),
      Distributed trees P leaves ∧ ∑ p ∈ Finset.range P, num p = (forestLeaves trees).length ∧
      (∀ p, p < P → Holds trees.length (leaves p) (st p)) ∧
      (partitionForCoarsening (countQuadrants (fun p => ((leaves p).length : ℤ)) P) none P (forestLeaves trees).length st
        (fun p => (num p : ℤ))).isNone = true ∧
      (partitionForCoarsening (countQuadrants (fun p => ((leaves p).length : ℤ)) P) (some (-7)) P (forestLeaves trees).length st
        (fun p => (num p : ℤ))).isNone = true ∧
      (partitionForCoarsening (countQuadrants (fun p => ((leaves p).length : ℤ)) P) (some 7) P (forestLeaves trees).length st
        (fun p => (num p : ℤ))).isSome = true :=
  ⟨twoTrees, 4, twoTreesLeaves, fun p => if p = 0 then 1 else if p = 2 then 4 else 0, twoTreesState, twoTrees_distributed,
    by decide, twoTreesState_holds, by decide +kernel, by decide +kernel, by decide +kernel⟩

end P4est
