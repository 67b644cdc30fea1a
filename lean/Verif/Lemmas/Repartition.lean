import Mathlib.Algebra.BigOperators.Group.Finset.Basic
import Mathlib.Algebra.Order.BigOperators.Group.Finset
import Verif.Model.Repartition
import Verif.Spec.Forest
import Verif.Props.Search

/-! # Slices of leaf sequences and the phases of `p4est_partition_given` -/

namespace P4est
open Spec

variable {β : Type}

/-! ### Slices -/

/-- The entries with positions in `[b, e)`. -/
def slice {γ : Type} (b e : ℕ) (l : List γ) : List γ := (l.take e).drop b

theorem slice_append {γ : Type} (b e : ℕ) (l1 l2 : List γ) :
    slice b e (l1 ++ l2) = slice b e l1 ++ slice (b - l1.length) (e - l1.length) l2 := by
  unfold slice
  rw [List.take_append, List.drop_append]
  congr 1
  rcases Nat.lt_or_ge e l1.length with h | h
  · rw [show e - l1.length = 0 by omega]; simp
  · rw [List.length_take, Nat.min_eq_right h]

theorem slice_nil {γ : Type} (b e : ℕ) : slice b e ([] : List γ) = [] := by simp [slice]

theorem slice_map {γ δ : Type} (f : γ → δ) (b e : ℕ) (l : List γ) :
    slice b e (l.map f) = (slice b e l).map f := by
  unfold slice; rw [List.map_drop, List.map_take]

theorem slice_length {γ : Type} (b e : ℕ) (l : List γ) : (slice b e l).length = min e l.length - b := by
  simp [slice]

theorem slice_eq_nil {γ : Type} (b e : ℕ) (l : List γ) : slice b e l = [] ↔ min e l.length ≤ b := by
  rw [← List.length_eq_zero_iff, slice_length]; omega

theorem slice_get {γ : Type} {b e j : ℕ} {l : List γ} (h : b + j < e) : (slice b e l)[j]? = l[b + j]? := by
  unfold slice
  rw [List.getElem?_drop, List.getElem?_take, if_pos h]

theorem slice_sublist {γ : Type} (b e : ℕ) (l : List γ) : (slice b e l).Sublist l :=
  (List.drop_sublist _ _).trans (List.take_sublist _ _)

theorem slice_trim {γ : Type} (b e : ℕ) (l : List γ) : slice b (b + (slice b e l).length) l = slice b e l := by
  rw [slice_length]
  unfold slice
  rcases Nat.lt_or_ge (min e l.length) b with h | h
  · rw [List.drop_eq_nil_of_le (by simp; omega), List.drop_eq_nil_of_le (by simp; omega)]
  · rw [show b + (min e l.length - b) = min e l.length by omega]
    congr 1
    rw [List.take_eq_take_iff]; omega

/-- The slice of the concatenation of the lists of ranks. -/
theorem slice_flatMap {γ : Type} (L : ℕ → List γ) (b e P : ℕ) :
    slice b e ((List.range P).flatMap L) = (List.range P).flatMap fun p =>
      slice (b - ∑ r ∈ Finset.range p, (L r).length) (e - ∑ r ∈ Finset.range p, (L r).length) (L p) := by
  induction P with
  | zero => simp [slice]
  | succ P ih =>
    rw [List.range_succ, List.flatMap_append, slice_append, ih, List.flatMap_append]
    congr 1
    simp only [List.flatMap_cons, List.flatMap_nil, List.append_nil, List.length_flatMap]
    have : ((List.range P).map fun r => (L r).length).sum = ∑ r ∈ Finset.range P, (L r).length := rfl
    rw [this]

/-- Cut `[b, e)` out of the concatenation of the trees. -/
def sliceTrees : ℕ → ℕ → List (List β) → List (List β)
  | _, _, [] => []
  | b, e, l :: ls => slice b e l :: sliceTrees (b - l.length) (e - l.length) ls

theorem tagFrom_slice (a b e : ℕ) (ls : List (List β)) :
    tagFrom a (sliceTrees b e ls) = slice b e (tagFrom a ls) := by
  induction ls generalizing a b e with
  | nil => simp [sliceTrees, tagFrom, slice]
  | cons l ls ih =>
    rw [sliceTrees, tagFrom, tagFrom, slice_append, ih, slice_map]
    simp

theorem sliceTrees_length (b e : ℕ) (ls : List (List β)) : (sliceTrees b e ls).length = ls.length := by
  induction ls generalizing b e with
  | nil => rfl
  | cons l ls ih => simp [sliceTrees, ih]

/-- The leaves before tree `t`. -/
def cum (ls : List (List β)) (t : ℕ) : ℕ := ((ls.take t).map List.length).sum

theorem cum_succ {ls : List (List β)} {t : ℕ} {l : List β} (h : ls[t]? = some l) :
    cum ls (t + 1) = cum ls t + l.length := by
  unfold cum
  rw [List.take_add_one, h]
  simp

theorem sliceTrees_get (b e : ℕ) (ls : List (List β)) (t : ℕ) :
    (sliceTrees b e ls)[t]? = (ls[t]?).map (slice (b - cum ls t) (e - cum ls t)) := by
  induction ls generalizing b e t with
  | nil => simp [sliceTrees]
  | cons l ls ih =>
    cases t with
    | zero => simp [sliceTrees, cum]
    | succ t =>
      simp only [sliceTrees, List.getElem?_cons_succ, ih, cum, List.take_succ_cons, List.map_cons,
        List.sum_cons, Nat.sub_sub]

theorem map_snd_tagFrom (a : ℕ) (ls : List (List β)) : (tagFrom a ls).map Prod.snd = ls.flatten := by
  induction ls generalizing a with
  | nil => rfl
  | cons l ls ih => simp [tagFrom, ih, Function.comp_def]

theorem flatten_sliceTrees (b e : ℕ) (ls : List (List β)) :
    (sliceTrees b e ls).flatten = slice b e ls.flatten := by
  rw [← map_snd_tagFrom 0, tagFrom_slice, ← slice_map, map_snd_tagFrom]

/-! ### The leaves of one tree -/

/-- The leaves of tree `t` in a sequence of leaves with tree numbers. -/
def leavesIn (L : List (ℕ × β)) (t : ℕ) : List β := (L.filter (fun x => x.1 = t)).map Prod.snd

theorem leavesIn_append (L1 L2 : List (ℕ × β)) (t : ℕ) :
    leavesIn (L1 ++ L2) t = leavesIn L1 t ++ leavesIn L2 t := by
  simp [leavesIn]

theorem leavesIn_map (a t : ℕ) (l : List β) :
    leavesIn (l.map fun q => (a, q)) t = if a = t then l else [] := by
  induction l with
  | nil => simp [leavesIn]
  | cons q l ih =>
    have e : (q :: l).map (fun q => (a, q)) = [(a, q)] ++ l.map (fun q => (a, q)) := rfl
    rw [e, leavesIn_append, ih]
    by_cases h : a = t <;> simp [leavesIn, h]

theorem leavesIn_tagFrom (a t : ℕ) (ls : List (List β)) :
    leavesIn (tagFrom a ls) t = if a ≤ t then ls.getD (t - a) [] else [] := by
  induction ls generalizing a with
  | nil => simp [tagFrom, leavesIn]
  | cons l ls ih =>
    rw [tagFrom, leavesIn_append, ih, leavesIn_map]
    by_cases h : a = t
    · subst h; simp
    · rw [if_neg h]
      by_cases h1 : a + 1 ≤ t
      · rw [if_pos h1, if_pos (by omega), show t - a = (t - (a + 1)) + 1 by omega]; simp
      · rw [if_neg h1, if_neg (by omega)]; simp

theorem leavesIn_forest (t : ℕ) (ls : List (List β)) : leavesIn (forestLeaves ls) t = ls.getD t [] := by
  rw [forestLeaves, leavesIn_tagFrom, if_pos (Nat.zero_le _), Nat.sub_zero]

theorem leavesIn_flatMap (P t : ℕ) (L : ℕ → List (ℕ × β)) :
    leavesIn ((List.range P).flatMap L) t = (List.range P).flatMap fun p => leavesIn (L p) t := by
  induction P with
  | zero => rfl
  | succ P ih => simp [List.range_succ, List.flatMap_append, leavesIn_append, ih]

theorem leavesIn_eq_nil {L : List (ℕ × β)} {t : ℕ} : leavesIn L t = [] ↔ ∀ x ∈ L, x.1 ≠ t := by
  simp [leavesIn, List.filter_eq_nil_iff]

/-- A sequence in the order of the trees. -/
def TreeSorted (L : List (ℕ × β)) : Prop := L.Pairwise (fun x y => x.1 ≤ y.1)

theorem treeSorted_tagFrom (a : ℕ) (ls : List (List β)) : TreeSorted (tagFrom a ls) := by
  have hm : ∀ (a : ℕ) (ls : List (List β)), ∀ x ∈ tagFrom a ls, a ≤ x.1 := by
    intro a ls
    induction ls generalizing a with
    | nil => simp [tagFrom]
    | cons l ls ih =>
      intro x hx
      rw [tagFrom, List.mem_append, List.mem_map] at hx
      rcases hx with ⟨q, -, rfl⟩ | hx
      · exact le_rfl
      · have := ih _ _ hx; omega
  induction ls generalizing a with
  | nil => exact List.Pairwise.nil
  | cons l ls ih =>
    rw [tagFrom]
    refine List.pairwise_append.mpr ⟨?_, ih _, ?_⟩
    · rw [List.pairwise_map]; exact List.pairwise_of_forall fun _ _ => le_rfl
    · intro x hx y hy
      rw [List.mem_map] at hx
      obtain ⟨q, -, rfl⟩ := hx
      have := hm _ _ _ hy
      show a ≤ y.1; omega

/-- A sorted sequence is made of the leaves of its trees. -/
theorem TreeSorted.eq_tagFrom {L : List (ℕ × β)} (h : TreeSorted L) (a n : ℕ)
    (hb : ∀ x ∈ L, a ≤ x.1 ∧ x.1 < a + n) :
    L = tagFrom a ((List.range n).map fun i => leavesIn L (a + i)) := by
  induction n generalizing a L with
  | zero =>
    cases L with
    | nil => rfl
    | cons x L => have := hb x (by simp); omega
  | succ n ih =>
    have hsplit : L = L.filter (fun x => x.1 = a) ++ L.filter (fun x => ¬ x.1 = a) := by
      clear ih
      induction L with
      | nil => rfl
      | cons x L ihL =>
        obtain ⟨h1, h2⟩ := List.pairwise_cons.mp h
        have ih' := ihL h2 (fun y hy => hb y (by simp [hy]))
        by_cases hx : x.1 = a
        · simp only [List.filter_cons, hx, decide_true, if_true, not_true_eq_false, decide_false]
          simpa using ih'
        · have hnil : L.filter (fun x => decide (x.1 = a)) = [] := by
            rw [List.filter_eq_nil_iff]
            intro y hy
            have h3 := h1 y hy
            have h4 := hb x (by simp)
            simp only [decide_eq_true_eq]; omega
          simp only [List.filter_cons, hx, decide_false, hnil]
          rw [hnil] at ih'
          simpa using ih'
    rw [List.range_succ_eq_map, List.map_cons, tagFrom]
    have h2 : (List.map Nat.succ (List.range n)).map (fun i => leavesIn L (a + i)) =
        (List.range n).map fun i => leavesIn (L.filter (fun x => ¬ x.1 = a)) (a + 1 + i) := by
      rw [List.map_map]
      apply List.map_congr_left
      intro i _
      simp only [Function.comp, leavesIn, List.filter_filter]
      congr 1
      apply List.filter_congr
      intro x _
      have : a + i.succ = a + 1 + i := by omega
      rw [this]
      by_cases hx : x.1 = a + 1 + i
      · simp [hx]; omega
      · simp [hx]
    rw [h2, ← ih (L := L.filter (fun x => ¬ x.1 = a)) (h.filter _)]
    · conv_lhs => rw [hsplit]
      congr 1
      rw [leavesIn, List.map_map, Nat.add_zero]
      symm
      conv_rhs => rw [← List.map_id (L.filter _)]
      apply List.map_congr_left
      intro x hx
      have := List.of_mem_filter hx
      simp only [decide_eq_true_eq] at this
      simp [Function.comp, ← this]
    · intro x hx
      have h3 := hb x (List.mem_of_mem_filter hx)
      have h4 := List.of_mem_filter hx
      simp only [decide_eq_true_eq] at h4
      omega

theorem TreeSorted.eq_forest {L : List (ℕ × β)} (h : TreeSorted L) (n : ℕ) (hb : ∀ x ∈ L, x.1 < n) :
    L = forestLeaves ((List.range n).map (leavesIn L)) := by
  have := h.eq_tagFrom 0 n (fun x hx => ⟨Nat.zero_le _, by simpa using hb x hx⟩)
  simpa [forestLeaves] using this


/-! ### Windows -/

theorem overlapLoop_spec (last : ℕ → ℤ) (P : ℕ) (b e : ℤ) (n p : ℕ) (ov : Overlap) (h : p + n ≤ P) :
    ∃ ov', overlapLoop last P b e n p ov = some ov' ∧ ov'.lo = ov.lo ∧ ov'.hi = ov.hi ∧
      (∀ x, ov'.num x = if (p ≤ x ∧ x < p + n) ∧ lowerBound last x ≤ e ∧ last x ≥ b then
          min e (last x) - max b (lowerBound last x) + 1 else ov.num x) ∧
      (∀ x, ov'.begins x = if (p ≤ x ∧ x < p + n) ∧ lowerBound last x ≤ e ∧ last x ≥ b then
          some (max b (lowerBound last x)) else ov.begins x) := by
  induction n generalizing p ov with
  | zero =>
    refine ⟨ov, rfl, rfl, rfl, fun x => ?_, fun x => ?_⟩ <;> rw [if_neg (by omega)]
  | succ n ih =>
    rw [overlapLoop, if_pos (by omega)]
    obtain ⟨ov', h1, h2, h3, h4, h5⟩ := ih (p + 1) (if lowerBound last p ≤ e ∧ last p ≥ b then
          { ov with
            num := Function.update ov.num p (min e (last p) - max b (lowerBound last p) + 1)
            begins := Function.update ov.begins p (some (max b (lowerBound last p))) }
        else ov) (by omega)
    refine ⟨ov', h1, ?_, ?_, fun x => ?_, fun x => ?_⟩
    · rw [h2]; split <;> rfl
    · rw [h3]; split <;> rfl
    · rw [h4]
      by_cases hx : x = p
      · subst hx
        rw [if_neg (by omega)]
        by_cases hc : lowerBound last x ≤ e ∧ last x ≥ b
        · rw [if_pos hc, if_pos ⟨⟨le_rfl, by omega⟩, hc⟩]; simp
        · rw [if_neg hc, if_neg (fun h => hc h.2)]
      · have e1 : (p + 1 ≤ x ∧ x < p + 1 + n) ↔ (p ≤ x ∧ x < p + (n + 1)) := by omega
        simp only [e1]
        split
        · rfl
        · split
          · simp [Function.update_of_ne hx]
          · rfl
    · rw [h5]
      by_cases hx : x = p
      · subst hx
        rw [if_neg (by omega)]
        by_cases hc : lowerBound last x ≤ e ∧ last x ≥ b
        · rw [if_pos hc, if_pos ⟨⟨le_rfl, by omega⟩, hc⟩]; simp
        · rw [if_neg hc, if_neg (fun h => hc h.2)]
      · have e1 : (p + 1 ≤ x ∧ x < p + 1 + n) ↔ (p ≤ x ∧ x < p + (n + 1)) := by omega
        simp only [e1]
        split
        · rfl
        · split
          · simp [Function.update_of_ne hx]
          · rfl

theorem lowerBound_eq {last : ℕ → ℤ} {s : ℕ → ℕ} {P : ℕ} (h0 : s 0 = 0)
    (hl : ∀ p, p < P → last p = (s (p + 1) : ℤ) - 1) (p : ℕ) (hp : p ≤ P) : lowerBound last p = s p := by
  unfold lowerBound
  cases p with
  | zero => simp [h0]
  | succ p => rw [if_neg (by omega), hl _ (by omega)]; simp

/-- The window for `[b, e)` and the ranks whose intervals begin at `s`. -/
theorem overlapWindow_spec {last : ℕ → ℤ} {s : ℕ → ℕ} (h0 : s 0 = 0) (hm : Monotone s)
    (P : ℕ) (hl : ∀ p, p < P → last p = (s (p + 1) : ℤ) - 1) (rank b e : ℕ) (hr : rank < P) (he : e ≤ s P) :
    ∃ ov, overlapWindow last P rank b ((e : ℤ) - 1) = some ov ∧ ov.lo ≤ ov.hi ∧ ov.hi < P ∧
      (∀ p, p < P → ov.num p = ((min e (s (p + 1)) - max b (s p) : ℕ) : ℤ)) ∧
      (∀ p, ¬ (ov.lo ≤ p ∧ p ≤ ov.hi) → ov.num p = 0) ∧
      (b < e → ∀ p, ov.lo ≤ p → p ≤ ov.hi → ov.begins p = some ((max b (s p) : ℕ) : ℤ)) ∧
      (e ≤ b → ∀ p, ov.num p = 0 ∧ ov.begins p = some (-1)) := by
  unfold overlapWindow
  rcases Nat.lt_or_ge b e with hbe | hbe
  · rw [if_neg (by omega)]
    have hsort : ((List.range P).map last).Pairwise (· ≤ ·) := by
      rw [List.pairwise_map]
      refine List.Pairwise.imp_of_mem ?_ List.pairwise_lt_range
      intro x y hx hy hxy
      have := hm (Nat.succ_le_succ hxy.le)
      rw [hl _ (List.mem_range.mp hx), hl _ (List.mem_range.mp hy)]; simp only [Nat.succ_eq_add_one] at this; omega
    obtain ⟨i, j, h1, h2, h3, h4, h5⟩ := C25_find_partition_partial _ (b : ℤ) ((e : ℤ) - 1) hsort (by omega)
    simp only [List.length_map, List.length_range] at h3 h4 h5
    have hjP : j < P := by
      by_contra hc
      have := (h5 (P - 1) (by omega)).mp (by omega)
      rw [List.getElem_map, List.getElem_range, hl _ (by omega), show P - 1 + 1 = P by omega] at this
      omega
    obtain ⟨ov, k1, k2, k3, k4, k5⟩ := overlapLoop_spec last P b ((e : ℤ) - 1) (j + 1 - i) i
      ⟨i, j, fun _ => 0, fun _ => none⟩ (by omega)
    have hin : ∀ p, i ≤ p → p ≤ j → lowerBound last p ≤ (e : ℤ) - 1 ∧ last p ≥ b := by
      intro p hp1 hp2
      constructor
      · rw [lowerBound_eq h0 hl _ (by omega)]
        cases p with
        | zero => rw [h0]; omega
        | succ p =>
          have := (h5 p (by omega)).mp (by omega)
          rw [List.getElem_map, List.getElem_range, hl _ (by omega)] at this
          omega
      · by_contra hc
        have := (h4 p (by omega)).mpr (by rw [List.getElem_map, List.getElem_range]; omega)
        omega
    have hout : ∀ p, p < P → ¬ (i ≤ p ∧ p ≤ j) → min e (s (p + 1)) ≤ max b (s p) := by
      intro p hp hc
      rcases Nat.lt_or_ge p i with h | h
      · have := (h4 p hp).mp h
        rw [List.getElem_map, List.getElem_range, hl _ (by omega)] at this
        omega
      · have hjp : j < p := by omega
        have h6 : ¬ j < j := by omega
        rw [h5 j hjP, List.getElem_map, List.getElem_range, hl _ (by omega)] at h6
        have := hm (show j + 1 ≤ p by omega)
        omega
    refine ⟨ov, ?_, ?_, ?_, ?_, ?_, ?_, fun h => by omega⟩
    · rw [h1]; exact k1
    · rw [k2, k3]; exact h2
    · rw [k3]; exact hjP
    · intro p hp
      rw [k4]
      by_cases hc : i ≤ p ∧ p ≤ j
      · rw [if_pos ⟨by omega, hin p hc.1 hc.2⟩, lowerBound_eq h0 hl _ (by omega), hl _ hp]
        have := hin p hc.1 hc.2
        rw [lowerBound_eq h0 hl _ (by omega), hl _ hp] at this
        have := hm (show p ≤ p + 1 by omega)
        omega
      · rw [if_neg (by omega)]
        have := hout p hp hc
        simp only; omega
    · intro p hp
      rw [k2, k3] at hp
      simp only at hp
      rw [k4, if_neg (by omega)]
    · intro _ p hp1 hp2
      rw [k2] at hp1; rw [k3] at hp2
      simp only at hp1 hp2
      rw [k5, if_pos ⟨by omega, hin p hp1 hp2⟩, lowerBound_eq h0 hl _ (by omega)]
      push_cast; rfl
  · rw [if_pos (by omega)]
    refine ⟨_, rfl, le_rfl, hr, ?_, fun _ _ => rfl, fun h => by omega, fun _ _ => ⟨rfl, rfl⟩⟩
    intro p _
    simp only
    omega

/-! ### Packing -/

/-- The leaves of a rank in the arrays of its trees. -/
structure Spec.Holds (T : ℕ) (leaves : List (ℕ × β)) (rt : RankTrees β) : Prop where
  trees : rt.trees.length = T
  split : forestLeaves rt.trees = leaves
  first : rt.first = leaves.head?.elim (-1) fun x => (x.1 : ℤ)
  last : rt.last = leaves.getLast?.elim (-2) fun x => (x.1 : ℤ)

theorem Spec.Holds.get {T : ℕ} {L : List (ℕ × β)} {rt : RankTrees β} (h : Holds T L rt) {t : ℕ} (ht : t < T) :
    rt.trees[t]? = some (leavesIn L t) := by
  rw [← h.split, leavesIn_forest, List.getD_eq_getElem?_getD, List.getElem?_eq_getElem (by rw [h.trees]; exact ht)]
  rfl

theorem Spec.Holds.sorted {T : ℕ} {L : List (ℕ × β)} {rt : RankTrees β} (h : Holds T L rt) : TreeSorted L := by
  rw [← h.split]; exact treeSorted_tagFrom 0 _

theorem mem_tagFrom' {n : ℕ} {trees : List (List β)} {x : ℕ × β} (h : x ∈ tagFrom n trees) :
    n ≤ x.1 ∧ x.1 < n + trees.length := by
  induction trees generalizing n with
  | nil => simp [tagFrom] at h
  | cons l ls ih =>
    rw [tagFrom, List.mem_append, List.mem_map] at h
    rcases h with ⟨q, -, rfl⟩ | h
    · simp
    · have := ih h
      simp only [List.length_cons]; omega

theorem Spec.Holds.lt {T : ℕ} {L : List (ℕ × β)} {rt : RankTrees β} (h : Holds T L rt) {x : ℕ × β} (hx : x ∈ L) :
    x.1 < T := by
  rw [← h.split] at hx
  have := mem_tagFrom' hx
  rw [h.trees] at this; omega

/-- First and last tree bound the trees of all leaves. -/
theorem Spec.Holds.bounds {T : ℕ} {L : List (ℕ × β)} {rt : RankTrees β} (h : Holds T L rt) {x : ℕ × β} (hx : x ∈ L) :
    rt.first ≤ x.1 ∧ (x.1 : ℤ) ≤ rt.last := by
  have hs := h.sorted
  rw [h.first, h.last]
  constructor
  · cases L with
    | nil => simp at hx
    | cons y L =>
      simp only [List.head?_cons, Option.elim_some]
      rcases List.mem_cons.mp hx with rfl | hx
      · exact le_rfl
      · exact_mod_cast (List.pairwise_cons.mp hs).1 x hx
  · obtain ⟨L', y, rfl⟩ : ∃ L' y, L = L' ++ [y] := by
      rcases List.eq_nil_or_concat L with rfl | ⟨L', y, h⟩
      · simp at hx
      · exact ⟨L', y, by simpa using h⟩
    simp only [List.getLast?_append, List.getLast?_singleton, Option.some_or, Option.elim_some]
    rcases List.mem_append.mp hx with hx | hx
    · exact_mod_cast (List.pairwise_append.mp hs).2.2 x hx y (by simp)
    · simp only [List.mem_singleton] at hx; rw [hx]

theorem Spec.Holds.nonempty {T : ℕ} {L : List (ℕ × β)} {rt : RankTrees β} (h : Holds T L rt) (hne : L ≠ []) :
    0 ≤ rt.first ∧ rt.first ≤ rt.last ∧ rt.last < T := by
  have h1 := h.first
  have h2 := h.last
  obtain ⟨x, L', rfl⟩ := List.exists_cons_of_ne_nil hne
  have h3 := h.bounds (x := x) (by simp)
  obtain ⟨y, hy⟩ : ∃ y, (x :: L').getLast? = some y := ⟨_, List.getLast?_eq_some_getLast (by simp)⟩
  rw [hy] at h2
  have h4 := h.lt (List.mem_of_getLast? hy)
  simp only [List.head?_cons, Option.elim_some] at h1 h2
  omega

theorem Spec.Holds.empty {T : ℕ} {rt : RankTrees β} (h : Holds T [] rt) : rt.first = -1 ∧ rt.last = -2 :=
  ⟨h.first, h.last⟩

theorem cum_first {T : ℕ} {L : List (ℕ × β)} {rt : RankTrees β} (h : Holds T L rt) {t : ℕ} (ht : (t : ℤ) ≤ rt.first) :
    cum rt.trees t = 0 := by
  induction t with
  | zero => simp [cum]
  | succ t ih =>
    rcases Nat.lt_or_ge t T with h1 | h1
    · rw [cum_succ (h.get h1), ih (by push_cast at ht ⊢; omega)]
      have : leavesIn L t = [] := leavesIn_eq_nil.mpr fun x hx => by
        have := (h.bounds hx).1; push_cast at ht; omega
      rw [this]; rfl
    · have e : cum rt.trees (t + 1) = cum rt.trees t := by
        unfold cum; rw [List.take_of_length_le (by rw [h.trees]; omega), List.take_of_length_le (by rw [h.trees]; omega)]
      rw [e, ih (by push_cast at ht ⊢; omega)]

theorem treeLast_spec {T : ℕ} {L : List (ℕ × β)} {rt : RankTrees β} (h : Holds T L rt) (hne : L ≠ []) (i : ℕ)
    (hi : rt.first.toNat + i < T) :
    treeLast rt i = some ((cum rt.trees (rt.first.toNat + i + 1) : ℤ) - 1) := by
  have h0 := h.nonempty hne
  induction i with
  | zero =>
    simp only [Nat.add_zero] at hi ⊢
    rw [treeLast, h.get hi, cum_succ (h.get hi), cum_first h (by omega)]
    simp
  | succ i ih =>
    rw [treeLast, h.get hi, ih (by omega), ← Nat.add_assoc, cum_succ (t := rt.first.toNat + i + 1) (h.get hi)]
    simp only [bind, Option.bind]
    congr 1
    push_cast; rw [Nat.add_assoc]; ring

theorem fromRange_spec {T : ℕ} {L : List (ℕ × β)} {rt : RankTrees β} (h : Holds T L rt) (hne : L ≠ []) (i : ℕ)
    (hi : rt.first.toNat + i < T) :
    fromRange rt i = some ((cum rt.trees (rt.first.toNat + i) : ℤ), (cum rt.trees (rt.first.toNat + i + 1) : ℤ) - 1) := by
  have h0 := h.nonempty hne
  unfold fromRange
  rw [treeLast_spec h hne i hi]
  cases i with
  | zero => simp [cum_first h (t := rt.first.toNat) (by omega)]
  | succ i =>
    rw [if_neg (by omega), Nat.add_sub_cancel, treeLast_spec h hne i (by omega)]
    simp [Nat.add_assoc]

/-- The part of one tree is the slice. -/
theorem treePart_spec (l : List β) (b e E : ℕ) (mb : ℤ) (hbe : b ≤ e) (h1 : (b : ℤ) ≤ mb) (h2 : mb ≤ (max b (min e E) : ℕ)) :
    (treePart mb ((e : ℤ) - 1) E (((E + l.length : ℕ) : ℤ) - 1)).2 = (slice (b - E) (e - E) l).length ∧
    cut l (treePart mb ((e : ℤ) - 1) E (((E + l.length : ℕ) : ℤ) - 1)).1
      (treePart mb ((e : ℤ) - 1) E (((E + l.length : ℕ) : ℤ) - 1)).2 = some (slice (b - E) (e - E) l) := by
  have hk : (treePart mb ((e : ℤ) - 1) E (((E + l.length : ℕ) : ℤ) - 1)).2 = (slice (b - E) (e - E) l).length := by
    rw [slice_length]
    unfold treePart
    split
    · simp only; omega
    · simp only; omega
  refine ⟨hk, ?_⟩
  rw [hk]
  unfold cut
  have hlen := slice_length (b - E) (e - E) l
  rcases Nat.eq_zero_or_pos (slice (b - E) (e - E) l).length with h0 | h0
  · have hb : 0 ≤ (treePart mb ((e : ℤ) - 1) E (((E + l.length : ℕ) : ℤ) - 1)).1 ∧
        (treePart mb ((e : ℤ) - 1) E (((E + l.length : ℕ) : ℤ) - 1)).1 ≤ l.length := by
      unfold treePart
      split
      · simp only; omega
      · simp
    rw [h0, if_pos (by omega), List.length_eq_zero_iff.mp h0]
    simp
  · have hb : (treePart mb ((e : ℤ) - 1) E (((E + l.length : ℕ) : ℤ) - 1)).1 = ((b - E : ℕ) : ℤ) := by
      unfold treePart
      split
      · simp only; omega
      · omega
    rw [hb, if_pos (by omega)]
    congr 1
    unfold slice
    simp only [Int.toNat_natCast, List.length_drop, List.length_take, List.drop_take]
    rw [List.take_eq_take_iff, List.length_drop]
    omega

theorem leavesIn_slice {T : ℕ} {L : List (ℕ × β)} {rt : RankTrees β} (h : Holds T L rt) (b e : ℕ) {t : ℕ}
    (ht : t < T) : leavesIn (slice b e L) t =
      slice (b - cum rt.trees t) (e - cum rt.trees t) (leavesIn L t) := by
  rw [← h.split, forestLeaves, ← tagFrom_slice, leavesIn_tagFrom, if_pos (Nat.zero_le _), Nat.sub_zero,
    List.getD_eq_getElem?_getD, sliceTrees_get, h.get ht, ← h.split, forestLeaves]
  rfl

theorem TreeSorted.map_snd {M : List (ℕ × β)} (h : TreeSorted M) (a n : ℕ)
    (hb : ∀ x ∈ M, a ≤ x.1 ∧ x.1 < a + n) :
    M.map Prod.snd = (List.range n).flatMap fun i => leavesIn M (a + i) := by
  conv_lhs => rw [h.eq_tagFrom a n hb]
  rw [map_snd_tagFrom, List.flatMap_def]

theorem TreeSorted.slice {M : List (ℕ × β)} (h : TreeSorted M) (b e : ℕ) : TreeSorted (slice b e M) :=
  List.Pairwise.sublist (slice_sublist b e M) h

theorem packLoop_spec {T : ℕ} {L : List (ℕ × β)} {rt : RankTrees β} (h : Holds T L rt) (hne : L ≠ [])
    (numTrees b e : ℕ) (hbe : b ≤ e) (n i : ℕ) (counts : ℕ → ℤ) (buf : List β)
    (hi : rt.first.toNat + (i + n) ≤ T) (hn : i + n ≤ numTrees) :
    ∃ counts', packLoop rt numTrees ((e : ℤ) - 1) n i ((max b (min e (cum rt.trees (rt.first.toNat + i))) : ℕ) : ℤ)
        counts buf =
      some (counts', buf ++ (List.range' i n).flatMap fun j => leavesIn (slice b e L) (rt.first.toNat + j)) ∧
      ∀ x, counts' x = if i ≤ x ∧ x < i + n then ((leavesIn (slice b e L) (rt.first.toNat + x)).length : ℤ)
        else counts x := by
  induction n generalizing i counts buf with
  | zero =>
    refine ⟨counts, by simp [packLoop], fun x => ?_⟩
    rw [if_neg (by omega)]
  | succ n ih =>
    have hT : rt.first.toNat + i < T := by omega
    rw [packLoop, fromRange_spec h hne i hT, cum_succ (h.get hT), h.get hT]
    obtain ⟨k1, k2⟩ := treePart_spec (leavesIn L (rt.first.toNat + i)) b e (cum rt.trees (rt.first.toNat + i))
      ((max b (min e (cum rt.trees (rt.first.toNat + i))) : ℕ) : ℤ) hbe (by omega) le_rfl
    simp only [bind, Option.bind]
    rw [k2]
    simp only
    rw [if_pos (by omega), k1]
    have hmb : ((max b (min e (cum rt.trees (rt.first.toNat + i))) : ℕ) : ℤ) +
        ((slice (b - cum rt.trees (rt.first.toNat + i)) (e - cum rt.trees (rt.first.toNat + i))
          (leavesIn L (rt.first.toNat + i))).length : ℤ) =
        ((max b (min e (cum rt.trees (rt.first.toNat + (i + 1)))) : ℕ) : ℤ) := by
      rw [slice_length, ← Nat.add_assoc, cum_succ (h.get hT)]
      omega
    rw [hmb]
    obtain ⟨c', h1, h2⟩ := ih (i + 1) (Function.update counts i
      ((slice (b - cum rt.trees (rt.first.toNat + i)) (e - cum rt.trees (rt.first.toNat + i))
          (leavesIn L (rt.first.toNat + i))).length : ℤ))
      (buf ++ slice (b - cum rt.trees (rt.first.toNat + i)) (e - cum rt.trees (rt.first.toNat + i))
          (leavesIn L (rt.first.toNat + i))) (by omega) (by omega)
    refine ⟨c', ?_, fun x => ?_⟩
    · rw [h1, List.range'_succ, List.flatMap_cons, leavesIn_slice h b e hT, List.append_assoc]
    · rw [h2]
      by_cases hx : x = i
      · subst hx
        rw [if_neg (by omega), if_pos (by omega), Function.update_self, leavesIn_slice h b e hT]
      · rw [Function.update_of_ne hx]
        have e1 : (i + 1 ≤ x ∧ x < i + 1 + n) ↔ (i ≤ x ∧ x < i + (n + 1)) := by omega
        simp only [e1]

theorem localCountsLoop_spec {T : ℕ} {L : List (ℕ × β)} {rt : RankTrees β} (h : Holds T L rt) (hne : L ≠ [])
    (numTrees b e : ℕ) (hbe : b ≤ e) (n i : ℕ) (counts : ℕ → ℤ)
    (hi : rt.first.toNat + (i + n) ≤ T) (hn : i + n ≤ numTrees) :
    ∃ counts', localCountsLoop rt numTrees (b : ℤ) ((e : ℤ) - 1) n i counts = some counts' ∧
      ∀ x, counts' x = if i ≤ x ∧ x < i + n then ((leavesIn (slice b e L) (rt.first.toNat + x)).length : ℤ)
        else counts x := by
  induction n generalizing i counts with
  | zero =>
    refine ⟨counts, by simp [localCountsLoop], fun x => ?_⟩
    rw [if_neg (by omega)]
  | succ n ih =>
    have hT : rt.first.toNat + i < T := by omega
    rw [localCountsLoop, fromRange_spec h hne i hT, cum_succ (h.get hT)]
    obtain ⟨k1, -⟩ := treePart_spec (leavesIn L (rt.first.toNat + i)) b e (cum rt.trees (rt.first.toNat + i))
      (b : ℤ) hbe le_rfl (by omega)
    simp only [bind, Option.bind]
    rw [if_pos (by omega), k1]
    obtain ⟨c', h1, h2⟩ := ih (i + 1) (Function.update counts i
      ((slice (b - cum rt.trees (rt.first.toNat + i)) (e - cum rt.trees (rt.first.toNat + i))
          (leavesIn L (rt.first.toNat + i))).length : ℤ)) (by omega) (by omega)
    refine ⟨c', h1, fun x => ?_⟩
    rw [h2]
    by_cases hx : x = i
    · subst hx
      rw [if_neg (by omega), if_pos (by omega), Function.update_self, leavesIn_slice h b e hT]
    · rw [Function.update_of_ne hx]
      have e1 : (i + 1 ≤ x ∧ x < i + 1 + n) ↔ (i ≤ x ∧ x < i + (n + 1)) := by omega
      simp only [e1]

/-- The counts that accompany the leaves `M` of a rank whose first tree is `a`. -/
def countsOf (M : List (ℕ × β)) (a numTrees : ℕ) : List ℤ :=
  (List.range numTrees).map fun i => ((leavesIn M (a + i)).length : ℤ)

theorem packMessage_spec {T : ℕ} {L : List (ℕ × β)} {rt : RankTrees β} (h : Holds T L rt) (hne : L ≠ [])
    (numTrees b e : ℕ) (hbe : b ≤ e) (hlen : (slice b e L).length = e - b) (hn : localTrees rt ≤ numTrees) (num start base : ℤ)
    (hb : start - base = b) (hnum : num = (e : ℤ) - b) :
    ∃ m, packMessage rt numTrees num start base = some m ∧
      m.counts = countsOf (slice b e L) rt.first.toNat numTrees ∧ m.leaves = (slice b e L).map Prod.snd := by
  have h0 := h.nonempty hne
  have hbd : ∀ x ∈ slice b e L, rt.first.toNat ≤ x.1 ∧ x.1 < rt.first.toNat + localTrees rt := by
    intro x hx
    have := h.bounds ((slice_sublist b e L).subset hx)
    unfold localTrees; omega
  obtain ⟨c, h1, h2⟩ := packLoop_spec h hne numTrees b e hbe (localTrees rt) 0 (fun _ => 0) []
    (by unfold localTrees; omega) (by omega)
  have hbuf : (List.range' 0 (localTrees rt)).flatMap (fun j => leavesIn (slice b e L) (rt.first.toNat + j)) =
      (slice b e L).map Prod.snd := by
    rw [(h.sorted.slice b e).map_snd rt.first.toNat (localTrees rt) hbd, List.range_eq_range']
  rw [Nat.add_zero, cum_first h (by omega), Nat.min_zero, Nat.max_zero, List.nil_append, hbuf] at h1
  unfold packMessage
  rw [show start + num - 1 - base = (e : ℤ) - 1 by omega, hb, h1]
  simp only [bind, Option.bind]
  rw [if_pos (by rw [List.length_map, hlen]; omega)]
  refine ⟨_, rfl, ?_, rfl⟩
  unfold countsOf
  apply List.map_congr_left
  intro i _
  rw [h2]
  split
  · rfl
  · rename_i hc
    have : leavesIn (slice b e L) (rt.first.toNat + i) = [] := leavesIn_eq_nil.mpr fun x hx => by
      have := hbd x hx; omega
    rw [this]; rfl

theorem localCounts_spec {T : ℕ} {L : List (ℕ × β)} {rt : RankTrees β} (h : Holds T L rt)
    (numTrees b e rank : ℕ) (hbe : b ≤ e) (hlen : (slice b e L).length = e - b) (hn : L ≠ [] → localTrees rt ≤ numTrees) (send : Overlap)
    (base start : ℤ) (hs : 0 < e - b → send.begins rank = some start ∧ start - base = b)
    (hnum : send.num rank = (e : ℤ) - b) :
    localCounts rt numTrees rank send base = some (countsOf (slice b e L) rt.first.toNat numTrees) := by
  unfold localCounts
  split
  · rename_i hpos
    have hne : L ≠ [] := by rintro rfl; rw [slice_nil, List.length_nil] at hlen; omega
    have h0 := h.nonempty hne
    obtain ⟨h1, h2⟩ := hs (by omega)
    have hbd : ∀ x ∈ slice b e L, rt.first.toNat ≤ x.1 ∧ x.1 < rt.first.toNat + localTrees rt := by
      intro x hx
      have := h.bounds ((slice_sublist b e L).subset hx)
      unfold localTrees; omega
    obtain ⟨c, k1, k2⟩ := localCountsLoop_spec h hne numTrees b e hbe (localTrees rt) 0 (fun _ => 0)
      (by unfold localTrees; omega) (by have := hn hne; omega)
    rw [h1]
    simp only [bind, Option.bind]
    rw [h2, show start + send.num rank - 1 - base = (e : ℤ) - 1 by omega, k1]
    simp only
    congr 1
    unfold countsOf
    apply List.map_congr_left
    intro i _
    rw [k2]
    split
    · rfl
    · rename_i hc
      have : leavesIn (slice b e L) (rt.first.toNat + i) = [] := leavesIn_eq_nil.mpr fun x hx => by
        have := hbd x hx; omega
      rw [this]; rfl
  · rename_i hpos
    have hnil : slice b e L = [] := List.length_eq_zero_iff.mp (by omega)
    rw [hnil]
    congr 1
    unfold countsOf
    simp [leavesIn]

end P4est
