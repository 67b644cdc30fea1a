import Verif.Lemmas.SeedsTest

/-! # C90: the test whether a quadrant forces another to be divided -/

namespace P4est
open Spec

variable {d : ℕ}

theorem dom_whole {lo hi : Fin d → ℤ} (h : WholeTrees lo hi) : Dom 0 lo hi where
  low := by norm_num
  dlo i := (h i).1
  dhi i := (h i).2
  fit u _ := Nat.zero_le _

/-- Which quadrants of a coarser level are divided. -/
theorem divides_halfDist (hd : 0 < d) {k : ℕ} {lo hi : Fin d → ℤ} (hw : WholeTrees lo hi) {q p : Quad d}
    (hq : Aligned q) (hq29 : q.level ≤ 29) (hqb : Cells q ⊆ BoxOf lo hi) (hp : Aligned p)
    (hpb : Cells p ⊆ BoxOf lo hi) {m : ℕ} (hm : q.level = p.level + m + 1) :
    Divides (BoxOf lo hi) k {q} p ↔ CanReach k m (halfDist q p) := by
  have hD := dom_whole hw
  have hs : SplitSource 0 lo hi q := ⟨hq, hq29, fun h => Nat.pos_of_ne_zero h, hqb⟩
  rw [divides_iff hd hD (by rintro s rfl; exact hs) hp (by omega) hpb,
    split_iff_reach hD hs (Nat.zero_le _) hm (by rw [qat_num hp]; exact hpb)]
  have : (fun i => gap m (numAt q (p.level + m) i) (numAt p p.level i)) = halfDist q p := by
    funext i
    exact gap_outNum (by omega) hm i
  rw [this]

/-- **C90.** `p4est_balance_seeds` returns true exactly if `q` forces `p` to be divided: every balanced
mesh of the trees, in which no quadrant is coarser than `q` where `q` is, has no quadrant that contains
`p`.  Not covered: `q` a child of `p` (see `C90_child_missed`) and calls without the array of seeds for
`q` inside `p` (see `C90_returns`). -/
theorem C90_test_partial (hdim : d = 2 ∨ d = 3) {k : ℕ} (hk1 : 1 ≤ k) (hkd : k ≤ d)
    {lo hi : Fin d → ℤ} (hw : WholeTrees lo hi) {q p : Quad d}
    (hq : Aligned q) (hq29 : q.level ≤ 29) (hqb : Cells q ⊆ BoxOf lo hi)
    (hp : Aligned p) (hp29 : p.level ≤ 29) (hpb : Cells p ⊆ BoxOf lo hi)
    (hchild : ¬ (Cells q ⊆ Cells p ∧ q.level = p.level + 1))
    {withSeeds b : Bool} {ss : List (Quad d)} (h : balanceSeeds q p k withSeeds = some (b, ss)) :
    b = true ↔ Divides (BoxOf lo hi) k {q} p := by
  have hd : 0 < d := by omega
  by_cases h1 : q.level ≤ p.level
  · have hb : b = false := by
      rw [balanceSeeds_eq, if_pos (by omega)] at h
      injection h with h
      injection h with h1 h2
      exact h1.symm
    subst hb
    simp only [Bool.false_eq_true, false_iff]
    have hD := dom_whole hw
    have hS : ∀ s ∈ ({q} : Set (Quad d)), SplitSource 0 lo hi s := by
      rintro s rfl
      exact ⟨hq, hq29, fun h => Nat.pos_of_ne_zero h, hqb⟩
    rw [divides_iff hd hD hS hp hp29 hpb]
    intro hs
    have : ∀ {l n}, SplitAt 0 lo hi k {q} l n → l < q.level := by
      intro l n hs
      induction hs with
      | base hs hl _ => rw [Set.mem_singleton_iff.mp hs] at hl; omega
      | step _ _ _ _ _ _ ih => omega
    have := this hs
    omega
  · obtain ⟨m, hm⟩ : ∃ m, q.level = p.level + m + 1 := ⟨q.level - p.level - 1, by omega⟩
    rw [divides_halfDist hd hw hq hq29 hqb hp hpb hm]
    cases m with
    | zero =>
      have hb : b = false := by
        rw [balanceSeeds_eq, if_pos (by omega)] at h
        injection h with h
        injection h with h1 h2
        exact h1.symm
      subst hb
      simp only [Bool.false_eq_true, false_iff]
      intro hr
      refine hchild ⟨(halfDist_zero_iff hq hp (by omega)).mp hr, by omega⟩
    | succ m => exact balanceSeeds_flag hdim hk1 hkd hq hp (by omega) h

/-- The test returns exactly unless `q` is inside `p`, at least two levels finer, and there is no array
of seeds: then the missing array is used. -/
theorem C90_returns {q p : Quad d} (hq : Aligned q) (hp : Aligned p) (k : ℕ) (withSeeds : Bool) :
    balanceSeeds q p k withSeeds = none ↔
      withSeeds = false ∧ Cells q ⊆ Cells p ∧ p.level + 2 ≤ q.level := by
  rw [balanceSeeds_eq]
  split
  · simp; omega
  · rename_i hl
    have hz : (∀ i, outNum q p i = 0) ↔ Cells q ⊆ Cells p := by
      rw [← halfDist_zero_iff hq hp (by omega)]
      exact forall_congr' fun i => halfDist_eq_zero.symm
    split
    · rename_i hn
      obtain ⟨i, hi⟩ := hn
      simp only [reduceCtorEq, false_iff, not_and]
      intro _ hsub _
      have h0 := hz.mpr hsub i
      rcases outside_cases hq hp (by omega) i with h | h | h | h
      · have : (0 : ℤ) < 2 ^ (q.level - p.level) := by positivity
        omega
      all_goals (rw [hi] at h; simp at h)
    · rename_i hall
      push Not at hall
      have ht : outsideType (outs q p) = 0 ↔ Cells q ⊆ Cells p := by
        rw [type_zero, ← hz]
        exact forall_congr' fun i => outs_zero_iff hq hp (by omega) (hall i)
      split
      · rename_i h0
        have := ht.mp h0
        cases withSeeds <;> simp [this]
        omega
      · rename_i h0
        simp only [reduceCtorEq, false_iff, not_and]
        intro _ hsub
        exact absurd (ht.mpr hsub) h0

/-- A quadrant of level 5 at distance. -/
def finePair (d : ℕ) : Quad d × Quad d := (⟨fun _ => 2 ^ 29 - 2 ^ 25, 5⟩, ⟨fun i => if (i : ℕ) = 0 then 2 ^ 29 else 0, 1⟩)

/-- Beside C90: a face neighbor in 3D, four levels coarser. -/
example : balanceSeeds (finePair 3).1 (finePair 3).2 1 true =
    some (true, [⟨![2 ^ 29, 2 ^ 29 - 2 ^ 26, 2 ^ 29 - 2 ^ 26], 4⟩]) ∧
    Aligned (finePair 3).1 ∧ Aligned (finePair 3).2 ∧
    WholeTrees (d := 3) (fun _ => 0) (fun _ => 2 ^ 30) ∧
    Cells (finePair 3).1 ⊆ BoxOf (fun _ => 0) (fun _ => 2 ^ 30) ∧
    Cells (finePair 3).2 ⊆ BoxOf (fun _ => 0) (fun _ => 2 ^ 30) := by
  refine ⟨by decide +kernel, ⟨by decide, by decide +kernel⟩, ⟨by decide, by decide +kernel⟩, ?_, ?_, ?_⟩
  · intro i; simp
  · rw [cells_sub_box]; decide +kernel
  · rw [cells_sub_box]; decide +kernel

/-- A quadrant that is a child of `p` forces `p` to be divided, but the test returns false. -/
theorem C90_child_missed : ∃ q p : Quad 2, Aligned q ∧ Aligned p ∧ q.level ≤ 29 ∧
    Cells q ⊆ Cells p ∧ Cells p ⊆ BoxOf (fun _ => 0) (fun _ => 2 ^ 30) ∧
    balanceSeeds q p 1 true = some (false, []) ∧ Divides (BoxOf (fun _ => 0) (fun _ => 2 ^ 30)) 1 {q} p := by
  have hq : Aligned (⟨fun _ => 0, 1⟩ : Quad 2) := ⟨by decide, by decide⟩
  have hp : Aligned (⟨fun _ => 0, 0⟩ : Quad 2) := ⟨by decide, by decide⟩
  have hsub : Cells (⟨fun _ => 0, 1⟩ : Quad 2) ⊆ Cells (⟨fun _ => 0, 0⟩ : Quad 2) := by
    refine cells_sub_box.mpr ?_
    decide +kernel
  have hpb : Cells (⟨fun _ => 0, 0⟩ : Quad 2) ⊆ BoxOf (fun _ => 0) (fun _ => 2 ^ 30) := by
    refine cells_sub_box.mpr ?_
    decide +kernel
  refine ⟨_, _, hq, hp, by decide, hsub, hpb, by decide +kernel, ?_⟩
  rw [divides_halfDist (by norm_num) (by intro i; simp) hq (by decide) (hsub.trans hpb) hp hpb
    (m := 0) rfl]
  exact (halfDist_zero_iff hq hp (by decide)).mpr hsub

end P4est
