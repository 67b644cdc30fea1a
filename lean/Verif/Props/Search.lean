import Verif.Model.Search
import Verif.Props.Safety

/-! # C24, C25, C26, C47: searches -/

namespace P4est
open Spec

variable {d : ℕ} {α σ : Type}

/-! ## C24 -/

theorem compare_nonpos_iff (hd : 0 < d) {q r : Quad d} (hq : Int32 q.c) (hr : Int32 r.c) :
    compare q r ≤ 0 ↔ ¬ Before r q := by
  have h1 := compare_pos_iff hd hq hr
  rw [← h1]; omega

theorem Spec.SortedWeak.get {a : List (Quad d)} (hs : SortedWeak a) {i j : ℕ} (hij : i < j)
    (hj : j < a.length) : ¬ Before a[j] a[i] :=
  List.pairwise_iff_getElem.mp hs i j (by omega) hj hij

theorem Spec.Before.trans' {p q r : Quad d} (h1 : Before p q) (h2 : ¬ Before r q) : Before p r := by
  rw [before_interval] at *
  omega

theorem Spec.Before.trans'' {p q r : Quad d} (h1 : ¬ Before q p) (h2 : Before q r) : Before p r := by
  rw [before_interval] at *
  omega

theorem lowerLoop_spec (hd : 0 < d) (a : List (Quad d)) (q : Quad d) (ha : ∀ x ∈ a, Int32 x.c)
    (hq : Int32 q.c) (hs : SortedWeak a) : ∀ (n low high guess : ℕ), high - low ≤ n →
    low ≤ guess → guess ≤ high → high < a.length →
    (∀ j (h : j < a.length), j < low → Before a[j] q) →
    (high + 1 = a.length ∨ ∃ h : high < a.length, ¬ Before a[high] q) →
    ∃ r, lowerLoop a q low high guess = some r ∧
      ((r = none ∧ ∀ x ∈ a, Before x q) ∨
       (∃ i, ∃ h : i < a.length, r = some i ∧ ¬ Before a[i] q ∧ ∀ j (hj : j < i), Before a[j] q)) := by
  intro n
  induction n using Nat.strong_induction_on with
  | _ n ih =>
  intro low high guess hn h1 h2 h3 hlow hhigh
  have hcur : a[guess]? = some a[guess] := List.getElem?_eq_getElem (by omega)
  have hci := ha a[guess] (List.getElem_mem _)
  have c1 := compare_nonpos_iff hd hq hci
  have c2 := compare_pos_iff hd hq hci
  rw [lowerLoop, hcur]
  simp only [Option.bind_eq_bind, Option.bind_some]
  by_cases hle : compare q a[guess] ≤ 0
  · have hnb := c1.mp hle
    by_cases hg : 0 < guess
    · have hpi := ha a[guess - 1] (List.getElem_mem _)
      have c3 := compare_nonpos_iff hd hq hpi
      have hrb : roomBelow a q guess (compare q a[guess]) = some (decide (compare q a[guess - 1] ≤ 0)) := by
        unfold roomBelow
        rw [if_pos ⟨hle, hg⟩, List.getElem?_eq_getElem (by omega)]; rfl
      rw [hrb]
      simp only [Option.bind_some]
      by_cases hp : compare q a[guess - 1] ≤ 0
      · rw [if_pos (by simpa using hp)]
        have hlg : low ≤ guess - 1 := by
          by_contra hc
          exact c3.mp hp (hlow _ (by omega) (by omega))
        exact ih (guess - 1 - low) (by omega) low (guess - 1) _ (by omega) (by omega) (by omega) (by omega)
          hlow (Or.inr ⟨by omega, c3.mp hp⟩)
      · rw [if_neg (by simpa using hp), if_neg (by omega)]
        refine ⟨_, rfl, Or.inr ⟨guess, by omega, rfl, hnb, fun j hj => ?_⟩⟩
        have hb : Before a[guess - 1] q := by
          by_contra hc; exact hp (c3.mpr hc)
        rcases Nat.lt_or_ge j (guess - 1) with hlt | hge
        · exact Spec.Before.trans'' (hs.get hlt (by omega)) hb
        · have : j = guess - 1 := by omega
          subst this; exact hb
    · have hrb : roomBelow a q guess (compare q a[guess]) = some false := by
        unfold roomBelow; rw [if_neg (by omega)]
      rw [hrb]
      simp only [Option.bind_some]
      rw [if_neg (by simp), if_neg (by omega)]
      exact ⟨_, rfl, Or.inr ⟨guess, by omega, rfl, hnb, fun j hj => by omega⟩⟩
  · have hb := c2.mp (by omega)
    have hrb : roomBelow a q guess (compare q a[guess]) = some false := by
      unfold roomBelow; rw [if_neg (by omega)]
    rw [hrb]
    simp only [Option.bind_some]
    rw [if_neg (by simp), if_pos (by omega)]
    have hall : ∀ j (h : j < a.length), j < guess + 1 → Before a[j] q := by
      intro j hj hlt
      rcases Nat.lt_or_ge j guess with h | h
      · exact Spec.Before.trans'' (hs.get h (by omega)) hb
      · have : j = guess := by omega
        subst this; exact hb
    by_cases hend : guess + 1 > high
    · rw [if_pos hend]
      refine ⟨none, rfl, Or.inl ⟨rfl, fun x hx => ?_⟩⟩
      obtain ⟨j, hj, rfl⟩ := List.getElem_of_mem hx
      rcases hhigh with h | ⟨hh, hnb⟩
      · exact hall j hj (by omega)
      · exact absurd (hall high hh (by omega)) hnb
    · rw [if_neg hend]
      exact ih (high - (guess + 1)) (by omega) (guess + 1) high _ (by omega) (by omega) (by omega) h3 hall hhigh

/-- C24. On a sorted array (repetitions allowed) `p4est_find_lower_bound` terminates without leaving
the array, for every admissible starting guess, and returns the first position whose entry is not
before `q`, or -1 exactly if all entries are before `q`. -/
theorem C24_lower_bound (hd : 0 < d) (a : List (Quad d)) (q : Quad d) (guess : ℕ)
    (ha : ∀ x ∈ a, Int32 x.c) (hq : Int32 q.c) (hs : SortedWeak a) (hg : guess < a.length ∨ a = []) :
    ∃ r, findLowerBound a q guess = some r ∧
      ((r = none ∧ ∀ x ∈ a, Before x q) ∨
       (∃ i, ∃ h : i < a.length, r = some i ∧ ¬ Before a[i] q ∧ ∀ j (hj : j < i), Before a[j] q)) := by
  unfold findLowerBound
  by_cases h0 : a.length = 0
  · rw [if_pos h0]
    have : a = [] := List.eq_nil_of_length_eq_zero h0
    subst this
    exact ⟨none, rfl, Or.inl ⟨rfl, by simp⟩⟩
  · rw [if_neg h0]
    have hg' : guess < a.length := by
      rcases hg with h | h
      · exact h
      · subst h; simp at h0
    exact lowerLoop_spec hd a q ha hq hs (a.length) 0 (a.length - 1) guess (by omega) (by omega) (by omega)
      (by omega) (by omega) (Or.inl (by omega))

theorem higherLoop_spec (hd : 0 < d) (a : List (Quad d)) (q : Quad d) (ha : ∀ x ∈ a, Int32 x.c)
    (hq : Int32 q.c) (hs : SortedWeak a) : ∀ (n low high guess : ℕ), high - low ≤ n →
    low ≤ guess → guess ≤ high → high < a.length →
    (∀ j (h : j < a.length), high < j → Before q a[j]) →
    (low = 0 ∨ ∃ h : low < a.length, ¬ Before q a[low]) →
    ∃ r, higherLoop a q low high guess = some r ∧
      ((r = none ∧ ∀ x ∈ a, Before q x) ∨
       (∃ i, ∃ h : i < a.length, r = some i ∧ ¬ Before q a[i] ∧
          ∀ j (hj : j < a.length), i < j → Before q a[j])) := by
  intro n
  induction n using Nat.strong_induction_on with
  | _ n ih =>
  intro low high guess hn h1 h2 h3 hhigh hlow
  have hcur : a[guess]? = some a[guess] := List.getElem?_eq_getElem (by omega)
  have hci := ha a[guess] (List.getElem_mem _)
  have c1 := compare_nonpos_iff hd hci hq
  have c2 := compare_pos_iff hd hci hq
  rw [higherLoop, hcur]
  simp only [Option.bind_eq_bind, Option.bind_some]
  by_cases hle : compare a[guess] q ≤ 0
  · have hnb := c1.mp hle
    by_cases hg : guess < a.length - 1
    · have hpi := ha a[guess + 1] (List.getElem_mem _)
      have c3 := compare_nonpos_iff hd hpi hq
      have hrb : roomAbove a q guess (compare a[guess] q) = some (decide (compare a[guess + 1] q ≤ 0)) := by
        unfold roomAbove
        rw [if_pos ⟨hle, hg⟩, List.getElem?_eq_getElem (by omega)]; rfl
      rw [hrb]
      simp only [Option.bind_some]
      by_cases hp : compare a[guess + 1] q ≤ 0
      · rw [if_pos (by simpa using hp)]
        have hlg : guess + 1 ≤ high := by
          by_contra hc
          exact c3.mp hp (hhigh _ (by omega) (by omega))
        exact ih (high - (guess + 1)) (by omega) (guess + 1) high _ (by omega) (by omega) (by omega) (by omega)
          hhigh (Or.inr ⟨by omega, c3.mp hp⟩)
      · rw [if_neg (by simpa using hp), if_neg (by omega)]
        refine ⟨_, rfl, Or.inr ⟨guess, by omega, rfl, hnb, fun j hj hij => ?_⟩⟩
        have hb : Before q a[guess + 1] := by
          by_contra hc; exact hp (c3.mpr hc)
        rcases Nat.lt_or_ge (guess + 1) j with hlt | hge
        · exact Spec.Before.trans' hb (hs.get hlt hj)
        · have : j = guess + 1 := by omega
          subst this; exact hb
    · have hrb : roomAbove a q guess (compare a[guess] q) = some false := by
        unfold roomAbove; rw [if_neg (by omega)]
      rw [hrb]
      simp only [Option.bind_some]
      rw [if_neg (by simp), if_neg (by omega)]
      exact ⟨_, rfl, Or.inr ⟨guess, by omega, rfl, hnb, fun j hj hij => by omega⟩⟩
  · have hb := c2.mp (by omega)
    have hrb : roomAbove a q guess (compare a[guess] q) = some false := by
      unfold roomAbove; rw [if_neg (by omega)]
    rw [hrb]
    simp only [Option.bind_some]
    rw [if_neg (by simp), if_pos (by omega)]
    have hall : ∀ j (h : j < a.length), guess ≤ j → Before q a[j] := by
      intro j hj hlt
      rcases Nat.lt_or_ge guess j with h | h
      · exact Spec.Before.trans' hb (hs.get h hj)
      · have : j = guess := by omega
        subst this; exact hb
    by_cases hz : guess = 0
    · rw [if_pos hz]
      refine ⟨none, rfl, Or.inl ⟨rfl, fun x hx => ?_⟩⟩
      obtain ⟨j, hj, rfl⟩ := List.getElem_of_mem hx
      exact hall j hj (by omega)
    · rw [if_neg hz]
      by_cases hend : guess - 1 < low
      · rw [if_pos hend]
        refine ⟨none, rfl, Or.inl ⟨rfl, fun x hx => ?_⟩⟩
        obtain ⟨j, hj, rfl⟩ := List.getElem_of_mem hx
        rcases hlow with h | ⟨hh, hnb⟩
        · exact hall j hj (by omega)
        · exact absurd (hall low hh (by omega)) hnb
      · rw [if_neg hend]
        exact ih (guess - 1 - low) (by omega) low (guess - 1) _ (by omega) (by omega) (by omega) (by omega)
          (fun j hj h => hall j hj (by omega)) hlow

/-- C24. On a sorted array `p4est_find_higher_bound` terminates without leaving the array, for every
admissible starting guess, and returns the last position whose entry is not after `q`, or -1
exactly if all entries are after `q`. -/
theorem C24_higher_bound (hd : 0 < d) (a : List (Quad d)) (q : Quad d) (guess : ℕ)
    (ha : ∀ x ∈ a, Int32 x.c) (hq : Int32 q.c) (hs : SortedWeak a) (hg : guess < a.length ∨ a = []) :
    ∃ r, findHigherBound a q guess = some r ∧
      ((r = none ∧ ∀ x ∈ a, Before q x) ∨
       (∃ i, ∃ h : i < a.length, r = some i ∧ ¬ Before q a[i] ∧
          ∀ j (hj : j < a.length), i < j → Before q a[j])) := by
  unfold findHigherBound
  by_cases h0 : a.length = 0
  · rw [if_pos h0]
    have : a = [] := List.eq_nil_of_length_eq_zero h0
    subst this
    exact ⟨none, rfl, Or.inl ⟨rfl, by simp⟩⟩
  · rw [if_neg h0]
    have hg' : guess < a.length := by
      rcases hg with h | h
      · exact h
      · subst h; simp at h0
    exact higherLoop_spec hd a q ha hq hs (a.length) 0 (a.length - 1) guess (by omega) (by omega) (by omega)
      (by omega) (fun j hj h => by omega) (Or.inl rfl)

/-- C24. The answers do not depend on the starting guess. -/
theorem C24_guess_irrelevant (hd : 0 < d) (a : List (Quad d)) (q : Quad d) (g g' : ℕ)
    (ha : ∀ x ∈ a, Int32 x.c) (hq : Int32 q.c) (hs : SortedWeak a) (hg : g < a.length)
    (hg' : g' < a.length) :
    findLowerBound a q g = findLowerBound a q g' ∧ findHigherBound a q g = findHigherBound a q g' := by
  constructor
  · obtain ⟨r, h1, h2⟩ := C24_lower_bound hd a q g ha hq hs (Or.inl hg)
    obtain ⟨r', h1', h2'⟩ := C24_lower_bound hd a q g' ha hq hs (Or.inl hg')
    rw [h1, h1']
    congr 1
    rcases h2 with ⟨rfl, h2⟩ | ⟨i, hi, rfl, h2, h3⟩ <;> rcases h2' with ⟨rfl, h2'⟩ | ⟨i', hi', rfl, h2', h3'⟩
    · rfl
    · exact absurd (h2 _ (List.getElem_mem _)) h2'
    · exact absurd (h2' _ (List.getElem_mem _)) h2
    · congr 1
      rcases Nat.lt_trichotomy i i' with h | h | h
      · exact absurd (h3' i h) h2
      · exact h
      · exact absurd (h3 i' h) h2'
  · obtain ⟨r, h1, h2⟩ := C24_higher_bound hd a q g ha hq hs (Or.inl hg)
    obtain ⟨r', h1', h2'⟩ := C24_higher_bound hd a q g' ha hq hs (Or.inl hg')
    rw [h1, h1']
    congr 1
    rcases h2 with ⟨rfl, h2⟩ | ⟨i, hi, rfl, h2, h3⟩ <;> rcases h2' with ⟨rfl, h2'⟩ | ⟨i', hi', rfl, h2', h3'⟩
    · rfl
    · exact absurd (h2 _ (List.getElem_mem _)) h2'
    · exact absurd (h2' _ (List.getElem_mem _)) h2
    · congr 1
      rcases Nat.lt_trichotomy i i' with h | h | h
      · exact absurd (h3 i' hi' h) h2'
      · exact h
      · exact absurd (h3' i hi h) h2

/-- The hypotheses hold for an array with a repeated entry and a quadrant between the entries. -/
example : ∃ (a : List (Quad 2)) (q : Quad 2), (∀ x ∈ a, Int32 x.c) ∧ Int32 q.c ∧ SortedWeak a ∧
    2 < a.length ∧ (∃ x ∈ a, Before x q) ∧ ∃ x ∈ a, Before q x := by
  refine ⟨quadsOf overlapTree, ⟨![268435456, 0], 2⟩,
    fun x hx => (overlapTree_ok.1 x hx).int32, ?_, overlapTree_ok.2, by decide, ?_, ?_⟩
  · intro i; fin_cases i <;> decide
  · exact ⟨⟨![0, 0], 1⟩, by simp [overlapTree_quads], Or.inl (by decide +kernel)⟩
  · exact ⟨⟨![536870912, 0], 1⟩, by simp [overlapTree_quads], Or.inl (by decide +kernel)⟩

/-! ## Splitting by type -/

/-- In a nondecreasing list the entries below `x` are a prefix. -/
theorem filter_lt_prefix {β : Type} [LinearOrder β] (l : List β) (hs : l.Pairwise (· ≤ ·)) (x : β) (i : ℕ) (h : i < l.length) :
    i < (l.filter (· < x)).length ↔ l[i] < x := by
  induction l generalizing i with
  | nil => simp at h
  | cons y ys ih =>
    rw [List.pairwise_cons] at hs
    by_cases hy : y < x
    · rw [List.filter_cons_of_pos (by simpa using hy)]
      cases i with
      | zero => simpa using hy
      | succ i =>
        simp only [List.length_cons, List.getElem_cons_succ]
        rw [← ih hs.2 i (by simpa using h)]
        exact Nat.succ_lt_succ_iff
    · have hnil : ∀ z ∈ y :: ys, ¬ z < x := by
        intro z hz
        rcases List.mem_cons.mp hz with rfl | hz
        · exact hy
        · have := hs.1 z hz
          exact fun h => hy (lt_of_le_of_lt this h)
      have : (y :: ys).filter (· < x) = [] := by
        rw [List.filter_eq_nil_iff]; intro z hz; simpa using hnil z hz
      rw [this]
      constructor
      · intro h; simp at h
      · intro h'; exact absurd h' (hnil _ (List.getElem_mem _))

/-! ## C25 -/

theorem partitionType_mono {b e x y : ℤ} (hxy : x ≤ y) :
    partitionType b e x ≤ partitionType b e y := by
  unfold partitionType
  split_ifs <;> omega

/-- C25. On a nondecreasing array and for `my_begin <= my_end`, `p4est_find_partition` returns the
number of entries below `my_begin` and the number of entries below `my_end`, i.e. the smallest
position with `my_begin <= search_in[begin]` (`my_end <= search_in[end]`), or `num_procs` if there
is none. -/
theorem C25_find_partition_partial (a : List ℤ) (b e : ℤ) (hs : a.Pairwise (· ≤ ·)) (hbe : b ≤ e) :
    ∃ i j, findPartition a b e = some (i, j) ∧ i ≤ j ∧ j ≤ a.length ∧
      (∀ k (h : k < a.length), k < i ↔ a[k] < b) ∧ (∀ k (h : k < a.length), k < j ↔ a[k] < e) := by
  have hts : (a.map (partitionType b e)).Pairwise (· ≤ ·) := by
    rw [List.pairwise_map]
    exact hs.imp fun h => partitionType_mono h
  refine ⟨((a.map (partitionType b e)).filter (· < 1)).length,
    ((a.map (partitionType b e)).filter (· < 2)).length, ?_, ?_, ?_, ?_, ?_⟩
  · simp [findPartition, scArraySplit, List.range_succ]
  · apply List.Sublist.length_le
    apply List.monotone_filter_right
    intro x hx
    have := of_decide_eq_true hx
    exact decide_eq_true (by omega)
  · exact (List.length_filter_le _ _).trans (by simp)
  · intro k h
    have := filter_lt_prefix _ hts 1 k (by simpa using h)
    rw [this, List.getElem_map]
    unfold partitionType
    split_ifs <;> omega
  · intro k h
    have := filter_lt_prefix _ hts 2 k (by simpa using h)
    rw [this, List.getElem_map]
    unfold partitionType
    split_ifs <;> omega

example : ([0, 3, 3, 7] : List ℤ).Pairwise (· ≤ ·) ∧ (1 : ℤ) ≤ 4 ∧
    findPartition [0, 3, 3, 7] 1 4 = some (1, 3) := by decide

/-- C25. The documented clamping is not what the function does: "if `my_end` is bigger or equal than
the largest value of `search_in`, `end` is set to `num_procs - 1`", but for a larger `my_end` the
result is `num_procs`. -/
theorem C25_documented_clamp_false : ∃ (a : List ℤ) (b e : ℤ), a.Pairwise (· ≤ ·) ∧ b ≤ e ∧
    (∀ x ∈ a, x ≤ e) ∧ ∃ i, findPartition a b e = some (i, a.length) :=
  ⟨[0, 3, 7], 1, 8, by decide, by decide, by decide, 1, by decide⟩

/-! ## C26 -/

/-- C26. For an array of strict descendants of `p` in curve order, `p4est_split_array` at the level
of `p` returns `2^d + 1` nondecreasing offsets from 0 to the length of the array, and the entries
with positions in `[indices[k], indices[k+1])` are exactly those contained in child `k` of `p`. -/
theorem C26_split_array (hd : 0 < d) (a : List (Quad d)) (p : Quad d) (hp : Valid p) (hl : p.level < 29)
    (hv : ∀ q ∈ a, Valid q) (hsub : ∀ q ∈ a, Cells q ⊂ Cells p) (hs : SortedWeak a) :
    ∃ ind : ℕ → ℕ, splitArray a p.level = (List.range (2 ^ d + 1)).map ind ∧
      ind 0 = 0 ∧ ind (2 ^ d) = a.length ∧ Monotone ind ∧
      ∀ k, k < 2 ^ d → ∀ i (h : i < a.length),
        (ind k ≤ i ∧ i < ind (k + 1)) ↔ Cells a[i] ⊆ Cells (kid p k) := by
  have key : ∀ q ∈ a, ∀ k, k < 2 ^ d → (Cells q ⊆ Cells (child p k) ↔ k = ancestorId q (p.level + 1)) := by
    intro q hq k hk
    have h1 := mem_child_iff hp.aligned (by omega) (p := q.c) ((hsub q hq).1 (corner_mem q)) hk
    have h2 := (isAncestor_iff_div.mp ((isAncestor_iff hd hp.aligned (hv q hq).aligned).mpr (hsub q hq))).1
    rw [cells_subset_iff hd (child_aligned hp.aligned (by omega) k) (hv q hq).aligned, h1]
    constructor
    · rintro ⟨-, h⟩; exact h
    · intro h; exact ⟨by rw [child_level]; omega, h⟩
  have hchild : ∀ q ∈ a, ancestorId q (p.level + 1) < 2 ^ d ∧
      Cells q ⊆ Cells (child p (ancestorId q (p.level + 1))) := by
    intro q hq
    have hlt := ancestorId_lt q (p.level + 1)
    exact ⟨hlt, (key q hq _ hlt).mpr rfl⟩
  have hint : ∀ q ∈ a, start p + ancestorId q (p.level + 1) * volume (child p 0) ≤ start q ∧
      stop q ≤ start p + (ancestorId q (p.level + 1) + 1) * volume (child p 0) := by
    intro q hq
    obtain ⟨h1, h2⟩ := hchild q hq
    have hc := curve_child hp.aligned hp.int32 (show p.level < 30 by omega) h1
    have hcv : Valid (child p (ancestorId q (p.level + 1))) :=
      (valid_child hd hp hl (List.mem_map_of_mem (List.mem_range.mpr h1))).1
    have h3 := (subset_iff_interval hd hcv.aligned (hv q hq).aligned hcv.int32 (hv q hq).int32).mp h2
    have hvol : volume (child p (ancestorId q (p.level + 1))) = volume (child p 0) := volume_congr rfl
    have h4 : stop (child p (ancestorId q (p.level + 1))) =
        start (child p (ancestorId q (p.level + 1))) + volume (child p (ancestorId q (p.level + 1))) := rfl
    change start _ = start p + _ at hc
    rw [hvol] at hc
    rw [h4, hvol, hc] at h3
    constructor
    · exact h3.1
    · have : (ancestorId q (p.level + 1) + 1) * volume (child p 0) =
          ancestorId q (p.level + 1) * volume (child p 0) + volume (child p 0) := by ring
      rw [this]; omega
  have hts : (a.map fun q => ancestorId q (p.level + 1)).Pairwise (· ≤ ·) := by
    rw [List.pairwise_map]
    refine List.Pairwise.imp_of_mem ?_ hs
    intro q r hq hr hqr
    by_contra hc
    have h1 := hint q hq
    have h2 := hint r hr
    have h3 := start_lt_stop r
    have h4 : (ancestorId r (p.level + 1) + 1) * volume (child p 0) ≤
        ancestorId q (p.level + 1) * volume (child p 0) := Nat.mul_le_mul_right _ (by omega)
    apply hqr
    left
    change start r < start q
    omega
  refine ⟨fun j => ((a.map fun q => ancestorId q (p.level + 1)).filter (· < j)).length, ?_, ?_, ?_, ?_, ?_⟩
  · unfold splitArray
    split
    · rename_i h0
      have : a = [] := List.eq_nil_of_length_eq_zero h0
      subst this
      simp
    · rfl
  · simp
  · simp only
    rw [List.filter_eq_self.mpr, List.length_map]
    intro x hx
    obtain ⟨q, hq, rfl⟩ := List.mem_map.mp hx
    exact decide_eq_true (hchild q hq).1
  · intro j j' hjj
    apply List.Sublist.length_le
    apply List.monotone_filter_right
    intro x hx
    have := of_decide_eq_true hx
    exact decide_eq_true (by omega)
  · intro k hk i h
    have h1 := filter_lt_prefix _ hts k i (by simpa using h)
    have h2 := filter_lt_prefix _ hts (k + 1) i (by simpa using h)
    rw [List.getElem_map] at h1 h2
    rw [kid_eq_child hp k, key _ (List.getElem_mem h) k hk]
    simp only
    omega

/-- The hypotheses hold for the descendants of the first level 1 quadrant in an array. -/
example : ∃ (a : List (Quad 2)) (p : Quad 2), Valid p ∧ p.level < 29 ∧ (∀ q ∈ a, Valid q) ∧
    (∀ q ∈ a, Cells q ⊂ Cells p) ∧ SortedWeak a ∧ 1 < a.length := by
  have h1 : Valid (⟨![0, 0], 2⟩ : Quad 2) := by rw [← isValid_iff]; decide +kernel
  have h2 : Valid (⟨![0, 268435456], 3⟩ : Quad 2) := by rw [← isValid_iff]; decide +kernel
  have hp : Valid (⟨![0, 0], 1⟩ : Quad 2) := by rw [← isValid_iff]; decide +kernel
  refine ⟨[⟨![0, 0], 2⟩, ⟨![0, 268435456], 3⟩], ⟨![0, 0], 1⟩, hp, by decide, ?_, ?_, ?_, by decide⟩
  · simp only [List.mem_cons, List.not_mem_nil, or_false, forall_eq_or_imp, forall_eq]
    exact ⟨h1, h2⟩
  · simp only [List.mem_cons, List.not_mem_nil, or_false, forall_eq_or_imp, forall_eq]
    rw [← isAncestor_iff (by norm_num) hp.aligned h1.aligned,
      ← isAncestor_iff (by norm_num) hp.aligned h2.aligned]
    decide +kernel
  · unfold SortedWeak Before
    simp only [List.pairwise_cons, List.mem_cons, List.not_mem_nil, or_false, forall_eq_or_imp,
      forall_eq, IsEmpty.forall_iff, implies_true, List.Pairwise.nil, and_true]
    decide +kernel

/-! ## C47 -/

/-- Number of quadrants in the first `i` trees. -/
def Spec.countBefore (trees : List (ℤ × ℕ)) (i : ℕ) : ℕ := ((trees.take i).map (·.2)).sum

theorem countBefore_succ (trees : List (ℤ × ℕ)) {i : ℕ} (h : i < trees.length) :
    countBefore trees (i + 1) = countBefore trees i + trees[i].2 := by
  unfold countBefore
  rw [List.take_succ_eq_append_getElem h, List.map_append, List.sum_append]
  simp only [List.map_cons, List.map_nil, List.sum_cons, List.sum_nil, Nat.add_zero]

theorem countBefore_mono (trees : List (ℤ × ℕ)) : Monotone (countBefore trees) := by
  refine monotone_nat_of_le_succ fun i => ?_
  by_cases h : i < trees.length
  · rw [countBefore_succ trees h]; omega
  · unfold countBefore
    rw [List.take_of_length_le (by omega), List.take_of_length_le (by omega)]

theorem countBefore_find (trees : List (ℤ × ℕ)) (id : ℕ) (h : id < countBefore trees trees.length) :
    ∃ t, ∃ ht : t < trees.length, countBefore trees t ≤ id ∧ id < countBefore trees t + trees[t].2 := by
  have hex : ∃ i, id < countBefore trees i := ⟨_, h⟩
  classical
  have h1 := Nat.find_spec hex
  have h2 := fun m => Nat.find_min hex (m := m)
  have hle : Nat.find hex ≤ trees.length := Nat.find_min' hex h
  obtain ⟨m, hm⟩ : ∃ m, Nat.find hex = m + 1 := by
    rcases Nat.eq_zero_or_pos (Nat.find hex) with h0 | h0
    · rw [h0] at h1; simp [countBefore] at h1
    · exact ⟨Nat.find hex - 1, by omega⟩
  rw [hm] at h1 hle
  refine ⟨m, by omega, ?_, ?_⟩
  · have := h2 m (by omega); omega
  · rw [countBefore_succ trees (by omega)] at h1; exact h1

theorem cumulativeLoop_spec (trees : List (ℤ × ℕ)) (id : ℕ)
    (hoff : ∀ i (h : i < trees.length), trees[i].1 = countBefore trees i) (t : ℕ)
    (ht : t < trees.length) (h1 : countBefore trees t ≤ id) (h2 : id < countBefore trees t + trees[t].2) :
    ∀ (n : ℕ) (low high guess : ℤ), high - low < n → 0 ≤ low → low ≤ t → (t : ℤ) ≤ high →
      high < trees.length → low ≤ guess → guess ≤ high →
      cumulativeLoop trees id low high guess = some ((t : ℤ), (id : ℤ) - countBefore trees t) := by
  intro n
  induction n with
  | zero => intro low high guess h; omega
  | succ n ih =>
    intro low high guess hn hl0 hlt hth hhl hlg hgh
    obtain ⟨g, rfl⟩ : ∃ g : ℕ, guess = g := ⟨guess.toNat, by omega⟩
    have hg : g < trees.length := by omega
    rw [cumulativeLoop, if_neg (by omega)]
    simp only [Int.toNat_natCast, List.getElem?_eq_getElem hg, Option.bind_eq_bind, Option.bind_some]
    rw [hoff g hg]
    have hmono := countBefore_mono trees
    by_cases hc1 : (id : ℤ) < countBefore trees g
    · rw [if_pos hc1]
      have : t < g := by
        by_contra hc
        have := hmono (show g ≤ t by omega)
        omega
      apply ih <;> first | omega | skip
      all_goals rw [Int.tdiv_eq_ediv_of_nonneg (by omega)]; omega
    · rw [if_neg hc1]
      by_cases hc2 : (id : ℤ) ≥ countBefore trees g + trees[g].2
      · rw [if_pos hc2]
        have : g < t := by
          by_contra hc
          have h3 := countBefore_succ trees hg
          rcases Nat.lt_or_ge t g with hlt' | hge
          · have := hmono (show t + 1 ≤ g by omega)
            rw [countBefore_succ trees ht] at this
            omega
          · have : g = t := by omega
            subst this; omega
        apply ih <;> first | omega | skip
        all_goals rw [Int.tdiv_eq_ediv_of_nonneg (by omega)]; omega
      · rw [if_neg hc2]
        have : g = t := by
          rcases Nat.lt_trichotomy g t with h | h | h
          · have := hmono (show g + 1 ≤ t by omega)
            rw [countBefore_succ trees hg] at this
            omega
          · exact h
          · have := hmono (show t + 1 ≤ g by omega)
            rw [countBefore_succ trees ht] at this
            omega
        subst this; rfl

/-- C47. For trees whose offsets are the numbers of quadrants in the trees before them, and a legal
cumulative number, `p4est_find_quadrant_cumulative` terminates and returns the tree and the
position in it that carry this number, whatever hint for the tree is given (also a tree without
local quadrants). -/
theorem C47_find_cumulative (trees : List (ℤ × ℕ)) (first last : ℕ) (id : ℕ) (hint : Option ℤ)
    (hoff : ∀ i (h : i < trees.length), trees[i].1 = countBefore trees i)
    (hfl : first ≤ last) (hlast : last < trees.length)
    (hempty : ∀ i (h : i < trees.length), i < first ∨ last < i → trees[i].2 = 0)
    (hid : id < countBefore trees trees.length)
    (hhint : ∀ g, hint = some g → 0 ≤ g ∧ g < trees.length) :
    ∃ (t k : ℕ) (ht : t < trees.length), findCumulative trees first last id hint = some ((t : ℤ), (k : ℤ)) ∧
      k < trees[t].2 ∧ id = countBefore trees t + k := by
  obtain ⟨t, ht, h1, h2⟩ := countBefore_find trees id hid
  have hft : first ≤ t ∧ t ≤ last := by
    by_contra hc
    have := hempty t ht (by omega)
    omega
  have hmono := countBefore_mono trees
  refine ⟨t, id - countBefore trees t, ht, ?_, by omega, by omega⟩
  rw [show (((id - countBefore trees t : ℕ) : ℤ)) = (id : ℤ) - countBefore trees t by omega]
  unfold findCumulative
  cases hint with
  | none =>
    simp only [Option.getD_none]
    have e : ((first : ℤ) + last).tdiv 2 = (first + last) / 2 := Int.tdiv_eq_ediv_of_nonneg (by omega)
    rw [e]
    exact cumulativeLoop_spec trees id hoff t ht h1 h2 trees.length _ _ _ (by omega) (by omega) (by omega)
      (by omega) (by omega) (by omega) (by omega)
  | some gz =>
    obtain ⟨hg0, hg1⟩ := hhint gz rfl
    obtain ⟨g, rfl⟩ : ∃ g : ℕ, gz = g := ⟨gz.toNat, by omega⟩
    have hg : g < trees.length := by omega
    simp only [Option.getD_some]
    rw [cumulativeLoop, if_neg (by omega)]
    simp only [Int.toNat_natCast, List.getElem?_eq_getElem hg, Option.bind_eq_bind, Option.bind_some]
    rw [hoff g hg]
    have run := cumulativeLoop_spec trees id hoff t ht h1 h2
    by_cases hc1 : (id : ℤ) < countBefore trees g
    · rw [if_pos hc1]
      have : t < g := by
        by_contra hc
        have := hmono (show g ≤ t by omega)
        omega
      have e : ((first : ℤ) + ((g : ℤ) - 1)).tdiv 2 = (first + ((g : ℤ) - 1)) / 2 :=
        Int.tdiv_eq_ediv_of_nonneg (by omega)
      rw [e]
      exact run trees.length _ _ _ (by omega) (by omega) (by omega) (by omega) (by omega) (by omega) (by omega)
    · rw [if_neg hc1]
      by_cases hc2 : (id : ℤ) ≥ countBefore trees g + trees[g].2
      · rw [if_pos hc2]
        have : g < t := by
          by_contra hc
          have h3 := countBefore_succ trees hg
          rcases Nat.lt_or_ge t g with hlt' | hge
          · have := hmono (show t + 1 ≤ g by omega)
            rw [countBefore_succ trees ht] at this
            omega
          · have : g = t := by omega
            subst this; omega
        have e : ((g : ℤ) + 1 + (last : ℤ)).tdiv 2 = ((g : ℤ) + 1 + last) / 2 :=
          Int.tdiv_eq_ediv_of_nonneg (by omega)
        rw [e]
        exact run trees.length _ _ _ (by omega) (by omega) (by omega) (by omega) (by omega) (by omega) (by omega)
      · rw [if_neg hc2]
        have : g = t := by
          rcases Nat.lt_trichotomy g t with h | h | h
          · have := hmono (show g + 1 ≤ t by omega)
            rw [countBefore_succ trees hg] at this
            omega
          · exact h
          · have := hmono (show t + 1 ≤ g by omega)
            rw [countBefore_succ trees ht] at this
            omega
        subst this; rfl

/-- Three trees, the first without local quadrants. -/
example : ∃ (trees : List (ℤ × ℕ)), (∀ i (h : i < trees.length), trees[i].1 = countBefore trees i) ∧
    (∀ i (h : i < trees.length), i < 1 ∨ 2 < i → trees[i].2 = 0) ∧
    5 < countBefore trees trees.length ∧ trees.length = 4 := by
  refine ⟨[(0, 0), (0, 4), (4, 3), (7, 0)], ?_, ?_, by decide, rfl⟩
  · intro i h
    simp only [List.length_cons, List.length_nil] at h
    have : i = 0 ∨ i = 1 ∨ i = 2 ∨ i = 3 := by omega
    rcases this with rfl | rfl | rfl | rfl <;> simp [countBefore]
  · intro i h
    simp only [List.length_cons, List.length_nil] at h
    have : i = 0 ∨ i = 1 ∨ i = 2 ∨ i = 3 := by omega
    rcases this with rfl | rfl | rfl | rfl <;> simp [countBefore]

end P4est
