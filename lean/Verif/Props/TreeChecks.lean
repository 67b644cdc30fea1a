import Verif.Lemmas.Tree

/-! # C16: the consistency checks of a leaf array -/

namespace P4est
open Spec

variable {d : ℕ}

theorem treeIsSorted_chain (hd : 0 < d) (ls : List (Quad d)) (he : ∀ q ∈ ls, Extended q) :
    treeIsSorted ls = true ↔ ls.IsChain Before := by
  match ls with
  | [] => simp [treeIsSorted]
  | [q] => simp [treeIsSorted]
  | q :: r :: rest =>
    rw [treeIsSorted, List.isChain_cons_cons,
      ← treeIsSorted_chain hd (r :: rest) (fun x hx => he x (List.mem_cons_of_mem _ hx)),
      ← compare_neg_iff hd (he q (by simp)).int32 (he r (by simp)).int32]
    split
    · rename_i h; simp only [Bool.false_eq_true, false_iff, not_and]; intro h'; omega
    · rename_i h; simp only [iff_and_self]; intro _; omega

/-- C16. `p4est_tree_is_sorted` is true iff the leaves are in curve order: every leaf comes
strictly before every later one. -/
theorem C16_is_sorted_iff (hd : 0 < d) (ls : List (Quad d)) (he : ∀ q ∈ ls, Extended q) :
    treeIsSorted ls = true ↔ Sorted ls := by
  rw [treeIsSorted_chain hd ls he]
  have : IsTrans (Quad d) Before := ⟨fun _ _ _ h1 h2 => h1.trans h2⟩
  exact List.isChain_iff_pairwise

example : ∀ q ∈ [(⟨![0, 0], 0⟩ : Quad 2), ⟨![0, 0], 1⟩, ⟨![536870912, 0], 1⟩], Extended q := by
  simp only [List.mem_cons, List.not_mem_nil, or_false, forall_eq_or_imp, forall_eq,
    ← isExtended_iff]
  decide +kernel

theorem treeIsLinear_chain (hd : 0 < d) (ls : List (Quad d)) (he : ∀ q ∈ ls, Extended q) :
    treeIsLinear ls = true ↔ ls.IsChain (fun q r => stop q ≤ start r) := by
  match ls with
  | [] => simp [treeIsLinear]
  | [q] => simp [treeIsLinear]
  | q :: r :: rest =>
    have hq := he q (by simp)
    have hr := he r (by simp)
    rw [treeIsLinear, List.isChain_cons_cons,
      ← treeIsLinear_chain hd (r :: rest) (fun x hx => he x (List.mem_cons_of_mem _ hx)),
      ← before_disjoint_iff hq.aligned hr.aligned hq.int32 hr.int32]
    have hcmp := compare_neg_iff hd hq.int32 hr.int32
    have hanc := isAncestor_iff hd hq.aligned hr.aligned
    split
    · rename_i h
      simp only [Bool.false_eq_true, false_iff, not_and]
      intro h'; exact absurd (hcmp.mpr h'.1) (by omega)
    · rename_i h
      have hb : Before q r := hcmp.mp (by omega)
      split
      · rename_i h2
        simp only [Bool.false_eq_true, false_iff, not_and]
        intro h'
        have := (hanc.mp h2).1 (corner_mem r)
        have hm : r.c ∈ Cells q ∩ Cells r := ⟨this, corner_mem r⟩
        rw [h'.2] at hm
        exact absurd hm (Set.notMem_empty _)
      · rename_i h2
        simp only [iff_and_self]
        intro _
        refine ⟨hb, ?_⟩
        by_contra hne
        replace hne := Set.nonempty_iff_ne_empty.mpr hne
        apply h2
        rw [hanc]
        rcases (laminar hq.aligned hr.aligned hne).symm with h | h
        · -- q inside r contradicts the order unless equal
          rw [subset_iff_interval hd hr.aligned hq.aligned hr.int32 hq.int32] at h
          unfold Before at hb
          change start q < start r ∨ start q = start r ∧ _ at hb
          exfalso
          rcases hb with hb | ⟨hb, hl⟩
          · omega
          · have hv := (volume_le_iff hd (q := r) (r := q) hr.aligned.1 hq.aligned.1)
            have h1 := stop_eq q
            have h2 := stop_eq r
            omega
        · refine (Set.ssubset_iff_subset_ne).mpr ⟨h, fun heq => ?_⟩
          have := cells_inj hd hr.aligned hq.aligned heq
          subst this
          exact hb.irrefl

/-- C16. `p4est_tree_is_linear` is true iff the leaves are in curve order and no two of them
overlap. -/
theorem C16_is_linear_iff (hd : 0 < d) (ls : List (Quad d)) (he : ∀ q ∈ ls, Extended q) :
    treeIsLinear ls = true ↔ Linear ls := by
  rw [treeIsLinear_chain hd ls he, linear_iff_chain he]

example : treeIsLinear [(⟨![0, 0], 1⟩ : Quad 2), ⟨![805306368, 268435456], 2⟩] = true ∧
    treeIsLinear [(⟨![0, 0], 0⟩ : Quad 2), ⟨![0, 0], 1⟩] = false := by decide +kernel

/-- C16 is false as stated for `p4est_tree_is_complete` (consequence of
`C09_is_next_accepts_gap`): it accepts a leaf array with a hole.  Witness: children 0, 2 and 3 of
the root with only child 3 of child 1 between them. -/
theorem C16_is_complete_accepts_hole : ∃ ls : List (Quad 2), (∀ q ∈ ls, Valid q) ∧
    treeIsComplete ls = true ∧ ¬ Gapless ls := by
  refine ⟨[⟨![0, 0], 1⟩, ⟨![805306368, 268435456], 2⟩, ⟨![0, 536870912], 1⟩,
    ⟨![536870912, 536870912], 1⟩], ?_, by decide +kernel, ?_⟩
  · simp only [List.mem_cons, List.not_mem_nil, or_false, forall_eq_or_imp, forall_eq,
      ← isValid_iff]
    decide +kernel
  · unfold Gapless
    rw [List.isChain_cons_cons]
    have : stop (⟨![0, 0], 1⟩ : Quad 2) ≠ start (⟨![805306368, 268435456], 2⟩ : Quad 2) := by
      decide +kernel
    exact fun h => this h.1

/-- C16 is false as stated for `p8est_tree_is_complete`. -/
theorem C16_is_complete_accepts_hole_3d : ∃ ls : List (Quad 3), (∀ q ∈ ls, Valid q) ∧
    treeIsComplete ls = true ∧ ¬ Gapless ls := by
  refine ⟨[⟨![0, 0, 0], 1⟩, ⟨![805306368, 268435456, 268435456], 2⟩, ⟨![0, 536870912, 0], 1⟩], ?_,
    by decide +kernel, ?_⟩
  · simp only [List.mem_cons, List.not_mem_nil, or_false, forall_eq_or_imp, forall_eq,
      ← isValid_iff]
    decide +kernel
  · unfold Gapless
    rw [List.isChain_cons_cons]
    have : stop (⟨![0, 0, 0], 1⟩ : Quad 3) ≠
        start (⟨![805306368, 268435456, 268435456], 2⟩ : Quad 3) := by
      decide +kernel
    exact fun h => this h.1

theorem treeIsComplete_chain (ls : List (Quad d)) :
    treeIsComplete ls = true ↔ ls.IsChain (fun q r => isNext q r = true) := by
  match ls with
  | [] => simp [treeIsComplete]
  | [q] => simp [treeIsComplete]
  | q :: r :: rest =>
    rw [treeIsComplete, List.isChain_cons_cons, ← treeIsComplete_chain (r :: rest)]
    cases isNext q r <;> simp

/-- C16 partial.  Proved: a gapless array always passes `p4est_tree_is_complete`, an array that
passes is linear (and hence sorted), and the check is exact for arrays in which no leaf is smaller
than its predecessor.  Missing: that every array that passes is gapless, which
`C16_is_complete_accepts_hole` refutes. -/
theorem C16_is_complete_partial (hd : 0 < d) (hd3 : d ≤ 3) (ls : List (Quad d))
    (he : ∀ q ∈ ls, Extended q) :
    (Gapless ls → treeIsComplete ls = true) ∧
    (treeIsComplete ls = true → Linear ls ∧ Sorted ls) ∧
    (ls.IsChain (fun q r => r.level ≤ q.level) → (treeIsComplete ls = true ↔ Gapless ls)) := by
  rw [treeIsComplete_chain]
  have key : ∀ {q r}, q ∈ ls → r ∈ ls →
      (isNext q r = true ↔ stop q = start (ancestor r (min q.level r.level))) := fun hq hr =>
    isNext_iff hd hd3 (he _ hq).aligned (he _ hr).aligned (he _ hq).int32 (he _ hr).int32
      (he _ hq).1 (he _ hr).1
  have hle : ∀ {q r}, q ∈ ls → r ∈ ls → isNext q r = true → stop q ≤ start r := fun hq hr h =>
    isNext_start_le hd hd3 (he _ hq).aligned (he _ hr).aligned (he _ hq).int32 (he _ hr).int32
      (he _ hq).1 (he _ hr).1 h
  have gto : ∀ {q r}, q ∈ ls → r ∈ ls → stop q = start r → isNext q r = true := by
    intro q r hq hr h
    rw [key hq hr]
    have hr' := he _ hr
    rcases Nat.le_total q.level r.level with hl | hl
    · rw [Nat.min_eq_left hl, start_ancestor hr'.aligned hr'.int32 hl]
      have hv : volume (ancestor r q.level) = volume q := volume_congr rfl
      obtain ⟨t, ht⟩ := volume_dvd_stop (he _ hq).aligned
      unfold blockIndex
      change _ = _ * (start r / volume q)
      rw [hv, ← h, ht, Nat.mul_div_cancel_left _ (volume_pos q)]
    · rw [Nat.min_eq_right hl, ancestor_self hr'.aligned, h]
  have mono : ∀ {R S : Quad d → Quad d → Prop}, (∀ q ∈ ls, ∀ r ∈ ls, R q r → S q r) →
      ls.IsChain R → ls.IsChain S := by
    intro R S h hc
    clear key hle gto he
    induction ls with
    | nil => exact List.IsChain.nil
    | cons a t ih =>
      cases t with
      | nil => exact List.IsChain.singleton a
      | cons b t =>
        rw [List.isChain_cons_cons] at hc ⊢
        exact ⟨h a (by simp) b (by simp) hc.1, ih (fun q hq r hr => h q (List.mem_cons_of_mem _ hq) r
          (List.mem_cons_of_mem _ hr)) hc.2⟩
  refine ⟨fun h => mono (fun q hq r hr => gto hq hr) h, fun h => ?_, fun hl => ?_⟩
  · have : Linear ls := (linear_iff_chain he).mpr (mono (fun q hq r hr => hle hq hr) h)
    exact ⟨this, this.sorted⟩
  · refine ⟨fun h => ?_, fun h => mono (fun q hq r hr => gto hq hr) h⟩
    have hb : ls.IsChain (fun q r => isNext q r = true ∧ r.level ≤ q.level) := by
      rw [List.isChain_iff_getElem] at h hl ⊢
      exact fun i hi => ⟨h i hi, hl i hi⟩
    refine mono (fun q hq r hr h => ?_) hb
    have := (key hq hr).mp h.1
    rwa [Nat.min_eq_right h.2, ancestor_self (he _ hr).aligned] at this

/-- C16, meaning of a gapless array: the leaves cover, without overlap and in order, exactly the
cells of one contiguous range of the curve. -/
theorem C16_gapless_is_range (q : Quad d) (ls : List (Quad d))
    (he : ∀ r ∈ q :: ls, Extended r) (h : Gapless (q :: ls)) :
    Linear (q :: ls) ∧ ∀ p, Int32 p → (p ∈ Cover (q :: ls) ↔
      start q ≤ curve p ∧ curve p < stop ((q :: ls).getLast (List.cons_ne_nil _ _))) :=
  ⟨h.linear he, fun p hp => gapless_cover q ls he h p hp⟩

example : (∀ q ∈ [(⟨![0, 0], 1⟩ : Quad 2), ⟨![536870912, 0], 2⟩, ⟨![805306368, 0], 2⟩], Valid q) ∧
    Gapless [(⟨![0, 0], 1⟩ : Quad 2), ⟨![536870912, 0], 2⟩, ⟨![805306368, 0], 2⟩] := by
  unfold Gapless
  simp only [List.mem_cons, List.not_mem_nil, or_false, forall_eq_or_imp, forall_eq,
    ← isValid_iff, List.isChain_cons_cons, List.isChain_singleton, and_true]
  decide +kernel

end P4est
