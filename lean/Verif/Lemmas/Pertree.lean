import Verif.Lemmas.Inflate
import Verif.Props.Repartition

/-! # Lemmas for the number of leaves per tree

The first position of rank `p` is in tree `F p`, at position `C p` inside the tree. -/

namespace P4est
open Spec

variable {d : ℕ} {α : Type}

/-- What is known about the first positions of the ranks. -/
structure Firsts (P T : ℕ) (F C : ℕ → ℕ) : Prop where
  step : ∀ p, p < P → F p < F (p + 1) ∨ F p = F (p + 1) ∧ C p ≤ C (p + 1)
  F0 : F 0 = 0
  C0 : C 0 = 0
  FP : F P = T
  CP : C P = 0
  pos : 0 < T

theorem Firsts.mono {P T : ℕ} {F C : ℕ → ℕ} (h : Firsts P T F C) {p r : ℕ} (hpr : p ≤ r) (hr : r ≤ P) :
    F p < F r ∨ F p = F r ∧ C p ≤ C r := by
  induction r with
  | zero => rw [show p = 0 by omega]; simp
  | succ r ih =>
    rcases Nat.lt_or_ge p (r + 1) with h1 | h1
    · have h2 := ih (by omega) (by omega)
      have h3 := h.step r (by omega)
      omega
    · rw [show p = r + 1 by omega]; simp

theorem Firsts.le {P T : ℕ} {F C : ℕ → ℕ} (h : Firsts P T F C) {p : ℕ} (hp : p ≤ P) : F p < T ∨ F p = T ∧ C p = 0 := by
  have := h.mono hp le_rfl
  rw [h.FP, h.CP] at this
  omega

/-- The number of trees that are counted by the ranks before `p`. -/
def countedBefore (T : ℕ) (F C : ℕ → ℕ) : ℕ → ℕ
  | 0 => 0
  | p + 1 => if F p = F (p + 1) ∧ C p = C (p + 1) ∧ C p = 0 ∧ F p < T then F p + 1 else F (p + 1) + if C (p + 1) = 0 then 0 else 1

theorem Firsts.counted_bounds {P T : ℕ} {F C : ℕ → ℕ} (h : Firsts P T F C) {p : ℕ} (hp : p ≤ P) :
    F p ≤ countedBefore T F C p ∧ countedBefore T F C p ≤ F p + 1 ∧ countedBefore T F C p ≤ T ∧
    (C p ≠ 0 → countedBefore T F C p = F p + 1) := by
  cases p with
  | zero => simp [countedBefore, h.F0, h.C0]
  | succ p =>
    have h1 := h.step p (by omega)
    have h2 := h.le (show p + 1 ≤ P from hp)
    rw [countedBefore]
    split_ifs <;> omega

theorem Firsts.counted_step {P T : ℕ} {F C : ℕ → ℕ} (h : Firsts P T F C) {p : ℕ} (hp : p < P) :
    countedBefore T F C p ≤ countedBefore T F C (p + 1) := by
  have h0 := h.counted_bounds (show p ≤ P by omega)
  have h1 := h.step p (by omega)
  have h2 := h.le (show p + 1 ≤ P from hp)
  rw [countedBefore]
  split_ifs <;> omega

theorem Firsts.counted_mono {P T : ℕ} {F C : ℕ → ℕ} (h : Firsts P T F C) {p r : ℕ} (hpr : p ≤ r) (hr : r ≤ P) :
    countedBefore T F C p ≤ countedBefore T F C r := by
  induction r with
  | zero => rw [show p = 0 by omega]
  | succ r ih =>
    rcases Nat.lt_or_ge p (r + 1) with h1 | h1
    · exact (ih (by omega) (by omega)).trans (h.counted_step (by omega))
    · rw [show p = r + 1 by omega]

theorem Firsts.counted_last {P T : ℕ} {F C : ℕ → ℕ} (h : Firsts P T F C) : countedBefore T F C P = T := by
  have := h.counted_bounds le_rfl
  rw [h.FP] at this; omega

/-- The positions as they are stored. -/
def Stored (gfp : List (GPos d)) (P : ℕ) (F C : ℕ → ℕ) : Prop :=
  ∀ p, p ≤ P → ∃ g, gfp[p]? = some g ∧ g.tree = (F p : ℤ) ∧ (atTreeStart g = true ↔ C p = 0)

theorem sameTreeLoop_spec {gfp : List (GPos d)} {P T : ℕ} {F C : ℕ → ℕ} (h : Firsts P T F C) (hg : Stored gfp P F C)
    (n p : ℕ) (hn : p + n = P) (t : ℕ) (hF : F p = t) (ht : t < T) (tc : TreeCount) :
    ∃ q, p < q ∧ q ≤ P ∧ (∀ i, p ≤ i → i < q → F i = t) ∧ t < F q ∧
      sameTreeLoop gfp t n p tc = some (q, fun i => if p < i ∧ i ≤ q then some 0 else tc i) := by
  induction n generalizing p tc with
  | zero =>
    exfalso
    rw [show p = P by omega, h.FP] at hF
    omega
  | succ n ih =>
    obtain ⟨g, h1, h2, -⟩ := hg (p + 1) (by omega)
    rw [sameTreeLoop, h1]
    simp only [Option.bind_eq_bind, Option.bind_some]
    rw [h2]
    by_cases hc : F (p + 1) = t
    · rw [if_pos (by exact_mod_cast hc)]
      obtain ⟨q, h3, h4, h5, h6, h7⟩ := ih (p + 1) (by omega) hc (Function.update tc (p + 1) (some 0))
      refine ⟨q, by omega, h4, ?_, h6, ?_⟩
      · intro i hi hi2
        by_cases hip : i = p
        · rw [hip]; exact hF
        · exact h5 i (by omega) hi2
      · rw [h7]
        congr 2
        funext i
        by_cases hi : i = p + 1
        · subst hi
          rw [if_neg (show ¬ (p + 1 < p + 1 ∧ p + 1 ≤ q) by omega), if_pos (show p < p + 1 ∧ p + 1 ≤ q by omega), Function.update_self]
        · rw [Function.update_of_ne hi]
          by_cases hi2 : p < i ∧ i ≤ q
          · rw [if_pos hi2, if_pos (by omega)]
          · rw [if_neg hi2, if_neg (by omega)]
    · rw [if_neg (by exact_mod_cast hc)]
      refine ⟨p + 1, by omega, by omega, ?_, ?_, ?_⟩
      · intro i h3 h4
        rw [show i = p by omega]; exact hF
      · have := h.step p (by omega)
        omega
      · congr 2
        funext i
        by_cases hi : i = p + 1
        · subst hi
          rw [if_pos (by omega), Function.update_self]
        · rw [Function.update_of_ne hi, if_neg (by omega)]

theorem ownerCounts_spec {gfp : List (GPos d)} {P T : ℕ} {F C : ℕ → ℕ} (h : Firsts P T F C) (hg : Stored gfp P F C)
    (n p : ℕ) (hn : P ≤ p + n) (hp : p < P) (t : ℕ) (hF : F p = t) (ht : t < T) (tc : TreeCount)
    (h1 : ∀ i, i < p → tc i = some ((countedBefore T F C (i + 1) - countedBefore T F C i : ℕ) : ℤ))
    (h2 : tc p = some ((t + 1 - countedBefore T F C p : ℕ) : ℤ)) :
    ∃ tc', ownerCounts gfp P T n p t tc = some tc' ∧
      ∀ i, i < P → tc' i = some ((countedBefore T F C (i + 1) - countedBefore T F C i : ℕ) : ℤ) := by
  induction n generalizing p t tc with
  | zero => omega
  | succ n ih =>
    obtain ⟨q, a1, a2, a3, a4, a5⟩ := sameTreeLoop_spec h hg (P - p) p (by omega) t hF ht tc
    obtain ⟨g, b1, b2, b3⟩ := hg q a2
    obtain ⟨q, rfl⟩ : ∃ q', q = q' + 1 := ⟨q - 1, by omega⟩
    have hq1 : F q = t := a3 q (by omega) (by omega)
    have hst := h.step q (by omega)
    have hcq : countedBefore T F C (q + 1) = F (q + 1) + if C (q + 1) = 0 then 0 else 1 := by
      rw [countedBefore, if_neg (by omega)]
    have hin : ∀ i, p ≤ i → i < q → countedBefore T F C (i + 1) = t + 1 := by
      intro i hi hi2
      have e1 := a3 i hi (by omega)
      have e2 := a3 (i + 1) (by omega) (by omega)
      have e3 := h.step i (by omega)
      rw [countedBefore, e1, e2]
      split_ifs <;> omega
    have hbp := h.counted_bounds (show p ≤ P by omega)
    have hq2 : countedBefore T F C q ≤ t + 1 := by
      have := h.counted_bounds (show q ≤ P by omega)
      omega
    -- the entry of the last rank with this tree
    have hv : (fun i => if p < i ∧ i ≤ q + 1 then some 0 else tc i : TreeCount) q = some ((t + 1 - countedBefore T F C q : ℕ) : ℤ) := by
      dsimp only
      by_cases hqp : q = p
      · rw [if_neg (by omega), hqp, h2]
      · rw [if_pos (by omega)]
        have := hin (q - 1) (by omega) (by omega)
        rw [show q - 1 + 1 = q by omega] at this
        rw [this]; simp
    have hrest : ∀ i, i < q → (fun i => if p < i ∧ i ≤ q + 1 then some 0 else tc i : TreeCount) i =
        some ((countedBefore T F C (i + 1) - countedBefore T F C i : ℕ) : ℤ) := by
      intro i hi
      dsimp only
      by_cases hip : i < p
      · rw [if_neg (by omega), h1 i hip]
      · rw [hin i (by omega) hi]
        by_cases hip2 : i = p
        · rw [if_neg (by omega), hip2, h2]
        · rw [if_pos (by omega)]
          have := hin (i - 1) (by omega) (by omega)
          rw [show i - 1 + 1 = i by omega] at this
          rw [this]; simp
    have hend : (fun i => if p < i ∧ i ≤ q + 1 then some 0 else tc i : TreeCount) (q + 1) = some 0 := by
      dsimp only
      rw [if_pos (by omega)]
    rw [ownerCounts]
    simp only [Option.bind_eq_bind]
    rw [a5]
    simp only [Option.bind_some]
    rw [b1]
    simp only [Option.bind_some, Nat.add_sub_cancel]
    generalize (fun i => if p < i ∧ i ≤ q + 1 then some 0 else tc i : TreeCount) = tc1 at hv hrest hend
    rw [TreeCount.add, hv]
    simp only [Option.bind_eq_bind, Option.bind_some]
    rw [b2]
    have e1 : (((F (q + 1) : ℤ) - ((t : ℤ) + 1)).toNat : ℤ) = (F (q + 1) : ℤ) - (t + 1) := by omega
    have e2 : max ((t : ℤ) + 1) (F (q + 1)) = F (q + 1) := by omega
    rw [e1, e2]
    by_cases hT : F (q + 1) < T
    · rw [if_pos (by exact_mod_cast hT)]
      have hql : q + 1 < P := by
        rcases Nat.lt_or_ge (q + 1) P with h3 | h3
        · exact h3
        · rw [show q + 1 = P by omega, h.FP] at hT; omega
      by_cases hs : C (q + 1) = 0
      · rw [if_pos (b3.mpr hs), TreeCount.add, Function.update_of_ne (by omega), hend]
        simp only [Option.bind_eq_bind, Option.bind_some]
        rw [if_pos hs] at hcq
        refine ih (q + 1) (by omega) hql _ rfl hT _ ?_ ?_
        · intro i hi
          rw [Function.update_of_ne (by omega)]
          by_cases hiq : i = q
          · subst hiq
            rw [Function.update_self, hcq]
            congr 1
            omega
          · rw [Function.update_of_ne hiq]; exact hrest i (by omega)
        · rw [Function.update_self, hcq]
          congr 1
          omega
      · rw [if_neg (fun hc => hs (b3.mp hc)), TreeCount.add, Function.update_self]
        simp only [Option.bind_eq_bind, Option.bind_some]
        rw [if_neg hs] at hcq
        refine ih (q + 1) (by omega) hql _ rfl hT _ ?_ ?_
        · intro i hi
          by_cases hiq : i = q
          · subst hiq
            rw [Function.update_self, hcq]
            congr 1
            omega
          · rw [Function.update_of_ne hiq, Function.update_of_ne hiq]; exact hrest i (by omega)
        · rw [Function.update_of_ne (by omega), Function.update_of_ne (by omega), hend, hcq]
          congr 1
          omega
    · rw [if_neg (by exact_mod_cast hT)]
      have hle := h.le a2
      rw [if_pos (by omega)] at hcq
      refine ⟨_, rfl, ?_⟩
      intro i hi
      have htail : ∀ j, q + 1 ≤ j → j ≤ P → countedBefore T F C j = T := by
        intro j hj hj2
        have e1 := h.counted_mono hj hj2
        have e2 := h.counted_bounds hj2
        omega
      unfold zeroCounts
      by_cases hiq : q + 1 < i
      · rw [if_pos (by omega), htail i (by omega) (by omega), htail (i + 1) (by omega) (by omega)]; simp
      · rw [if_neg (by omega)]
        by_cases hi1 : i = q + 1
        · rw [Function.update_of_ne (by omega), hi1, hend, htail (q + 1) (by omega) (by omega), htail (q + 1 + 1) (by omega) (by omega)]
          simp
        · by_cases hi2 : i = q
          · subst hi2
            rw [Function.update_self, hcq]
            congr 1
            omega
          · rw [Function.update_of_ne hi2]; exact hrest i (by omega)

theorem treeCounts_spec {gfp : List (GPos d)} {P T : ℕ} {F C : ℕ → ℕ} (h : Firsts P T F C) (hg : Stored gfp P F C) :
    ∃ tc, treeCounts gfp P T = some tc ∧
      ∀ i, i < P → tc i = some ((countedBefore T F C (i + 1) - countedBefore T F C i : ℕ) : ℤ) := by
  have hP : 0 < P := by
    rcases Nat.eq_zero_or_pos P with h1 | h1
    · have := h.FP
      have h2 := h.pos
      rw [h1, h.F0] at this; omega
    · exact h1
  exact ownerCounts_spec h hg P 0 (by omega) hP 0 h.F0 h.pos _ (fun i hi => by omega) (by
    rw [Function.update_self]; simp [countedBefore])

theorem treeOffsets_spec {P T : ℕ} {F C : ℕ → ℕ} (h : Firsts P T F C) {tc : ℕ → ℤ}
    (htc : ∀ i, i < P → tc i = ((countedBefore T F C (i + 1) - countedBefore T F C i : ℕ) : ℤ)) (p : ℕ) (hp : p ≤ P) :
    treeOffsets tc p = countedBefore T F C p := by
  induction p with
  | zero => rfl
  | succ p ih =>
    rw [treeOffsets, ih (by omega), htc p (by omega)]
    have := h.counted_step (show p < P by omega)
    omega

theorem nextCounter_spec (tc : ℕ → ℤ) (n p : ℕ) : p ≤ nextCounter tc n p ∧ nextCounter tc n p ≤ p + n ∧
    (∀ i, p ≤ i → i < nextCounter tc n p → tc i = 0) ∧ (nextCounter tc n p < p + n → tc (nextCounter tc n p) ≠ 0) := by
  induction n generalizing p with
  | zero => exact ⟨le_rfl, le_rfl, fun i h1 h2 => by rw [nextCounter] at h2; omega, fun h => by rw [nextCounter] at h; omega⟩
  | succ n ih =>
    rw [nextCounter]
    split
    · rename_i h0
      obtain ⟨h1, h2, h3, h4⟩ := ih (p + 1)
      refine ⟨by omega, by omega, ?_, fun h => h4 (by omega)⟩
      intro i hi hi2
      by_cases hip : i = p
      · rw [hip]; exact h0
      · exact h3 i (by omega) hi2
    · rename_i h0
      exact ⟨le_rfl, by omega, fun i h1 h2 => by omega, fun _ => h0⟩

theorem prevCounter_spec (tc : ℕ → ℤ) (p : ℕ) (h : ∃ i, i < p ∧ tc i ≠ 0) :
    ∃ r, prevCounter tc p = some r ∧ r < p ∧ tc r ≠ 0 ∧ ∀ i, r < i → i < p → tc i = 0 := by
  induction p with
  | zero => obtain ⟨i, hi, -⟩ := h; omega
  | succ p ih =>
    rw [prevCounter]
    split
    · rename_i h0
      obtain ⟨r, h1, h2, h3, h4⟩ := ih (by
        obtain ⟨i, hi, hi2⟩ := h
        refine ⟨i, ?_, hi2⟩
        rcases Nat.lt_or_ge i p with h1 | h1
        · exact h1
        · rw [show i = p by omega] at hi2; exact absurd h0 hi2)
      refine ⟨r, h1, by omega, h3, ?_⟩
      intro i hi hi2
      by_cases hip : i = p
      · rw [hip]; exact h0
      · exact h4 i hi (by omega)
    · rename_i h0
      exact ⟨p, rfl, by omega, h0, fun i h1 h2 => by omega⟩

/-! ### The numbers -/

/-- `n p t` leaves of tree `t` are on rank `p`. -/
def Inside (P : ℕ) (F C : ℕ → ℕ) (n : ℕ → ℕ → ℕ) : Prop :=
  ∀ p, p < P → ∀ t, n p t ≠ 0 → F p ≤ t ∧ (t < F (p + 1) ∨ t = F (p + 1) ∧ 0 < C (p + 1))

/-- All leaves on the ranks before `p`. -/
def leavesOnRanks (T : ℕ) (n : ℕ → ℕ → ℕ) (p : ℕ) : ℕ := ∑ i ∈ Finset.range p, ∑ t ∈ Finset.range T, n i t

theorem sum_range_tail {f : ℕ → ℕ} {a b : ℕ} (hab : a ≤ b) (h : ∀ i, a ≤ i → i < b → f i = 0) :
    ∑ i ∈ Finset.range b, f i = ∑ i ∈ Finset.range a, f i := by
  induction b with
  | zero => rw [show a = 0 by omega]
  | succ b ih =>
    rcases Nat.lt_or_ge a (b + 1) with h1 | h1
    · rw [Finset.sum_range_succ, h b (by omega) (by omega), ih (by omega) fun i h2 h3 => h i h2 (by omega), Nat.add_zero]
    · rw [show a = b + 1 by omega]

theorem sum_range_same {f g : ℕ → ℕ} {a b : ℕ} (hab : a ≤ b) (h : ∀ i, a ≤ i → i < b → f i = g i) :
    ∑ i ∈ Finset.range b, f i + ∑ i ∈ Finset.range a, g i = ∑ i ∈ Finset.range b, g i + ∑ i ∈ Finset.range a, f i := by
  induction b with
  | zero => rw [show a = 0 by omega]; simp
  | succ b ih =>
    rcases Nat.lt_or_ge a (b + 1) with h1 | h1
    · have := ih (by omega) fun i h2 h3 => h i h2 (by omega)
      rw [Finset.sum_range_succ, Finset.sum_range_succ, h b (by omega) (by omega)]
      omega
    · rw [show a = b + 1 by omega]; omega

section Numbers
variable {P T : ℕ} {F C : ℕ → ℕ} {n : ℕ → ℕ → ℕ}

theorem Firsts.zero_before (h : Firsts P T F C) (hn : Inside P F C n) {p r t : ℕ} (hpr : p < r) (hr : r ≤ P)
    (ht : countedBefore T F C r ≤ t) : n p t = 0 := by
  by_contra hc
  have h1 := hn p (by omega) t hc
  have h2 := h.mono (show p + 1 ≤ r by omega) hr
  have h3 := h.counted_bounds hr
  omega

theorem Firsts.zero_after (h : Firsts P T F C) (hn : Inside P F C n) {p r t : ℕ} (hpr : r < p) (hp : p < P)
    (ht : t + 1 < countedBefore T F C (r + 1)) : n p t = 0 := by
  by_contra hc
  have h1 := hn p hp t hc
  have h2 := h.mono (show r + 1 ≤ p by omega) (by omega)
  have h3 := h.counted_bounds (show r + 1 ≤ P by omega)
  omega

theorem Firsts.whole_rank (h : Firsts P T F C) (hn : Inside P F C n) {p t : ℕ} (hp : p < P)
    (h1 : countedBefore T F C p = t + 1) (h2 : countedBefore T F C (p + 1) = t + 1) (ht : t < T) :
    ∑ i ∈ Finset.range T, n p i = n p t := by
  apply Finset.sum_eq_single t
  · intro i _ hi
    by_contra hc
    have h3 := hn p hp i hc
    have h4 := h.counted_bounds (show p ≤ P by omega)
    have h5 := h.counted_bounds (show p + 1 ≤ P by omega)
    omega
  · intro hc
    rw [Finset.mem_range] at hc
    omega

/-- All leaves of a tree that is not the last one counted by its rank. -/
theorem Firsts.total_middle (h : Firsts P T F C) (hn : Inside P F C n) {r t : ℕ} (hr : r < P)
    (h1 : countedBefore T F C r ≤ t) (h2 : t + 1 < countedBefore T F C (r + 1)) :
    ∑ p ∈ Finset.range P, n p t = n r t := by
  apply Finset.sum_eq_single r
  · intro p hp hpr
    rw [Finset.mem_range] at hp
    rcases Nat.lt_or_ge p r with h3 | h3
    · exact h.zero_before hn h3 (by omega) h1
    · exact h.zero_after hn (show r < p by omega) hp h2
  · intro hc
    rw [Finset.mem_range] at hc
    omega

/-- All leaves of the last tree counted by rank `r`; `q` is the next one that counts a tree. -/
theorem Firsts.total_last (h : Firsts P T F C) (hn : Inside P F C n) {r q t : ℕ} (hrq : r < q) (hq : q ≤ P)
    (h1 : countedBefore T F C r ≤ t) (h2 : countedBefore T F C (r + 1) = t + 1)
    (hz : ∀ i, r < i → i < q → countedBefore T F C (i + 1) = countedBefore T F C i)
    (hlast : q < P → countedBefore T F C (q + 1) ≠ countedBefore T F C q) :
    leavesOnRanks T n (r + 1) ≤ leavesOnRanks T n q ∧ (∀ i, r < i → i ≤ q → countedBefore T F C i = t + 1) ∧
    (F q = t → q < P) ∧
    ∑ p ∈ Finset.range P, n p t =
      n r t + (leavesOnRanks T n q - leavesOnRanks T n (r + 1)) + if F q = t then n q t else 0 := by
  have ht : t < T := by have := h.counted_bounds (show r + 1 ≤ P by omega); omega
  have hcq : ∀ i, r < i → i ≤ q → countedBefore T F C i = t + 1 := by
    intro i hi hi2
    induction i with
    | zero => omega
    | succ i ih =>
      by_cases hir : i = r
      · rw [hir]; exact h2
      · rw [hz i (by omega) (by omega)]; exact ih (by omega) (by omega)
  have hle : leavesOnRanks T n (r + 1) ≤ leavesOnRanks T n q :=
    Finset.sum_le_sum_of_subset (by intro x; simp only [Finset.mem_range]; omega)
  have s1 : ∑ p ∈ Finset.range (r + 1), n p t = n r t := by
    rw [Finset.sum_range_succ, sum_range_tail (Nat.zero_le r) fun i _ hi => h.zero_before hn hi (by omega) h1]
    simp
  have s2 := sum_range_same (f := fun p => n p t) (g := fun p => ∑ i ∈ Finset.range T, n p i) (show r + 1 ≤ q by omega)
    (fun i hi hi2 => (h.whole_rank hn (show i < P by omega) (hcq i (by omega) (by omega)) (by
      exact hcq (i + 1) (by omega) (by omega)) ht).symm)
  have e1 : ∑ i ∈ Finset.range q, (fun p => ∑ i ∈ Finset.range T, n p i) i = leavesOnRanks T n q := rfl
  have e2 : ∑ i ∈ Finset.range (r + 1), (fun p => ∑ i ∈ Finset.range T, n p i) i = leavesOnRanks T n (r + 1) := rfl
  have hFq : F q = t → q < P := by
    intro h3
    rcases Nat.lt_or_ge q P with h4 | h4
    · exact h4
    · rw [show q = P by omega, h.FP] at h3; omega
  refine ⟨hle, hcq, hFq, ?_⟩
  by_cases hqP : q = P
  · rw [if_neg (fun hc => by have := hFq hc; omega)]
    subst hqP
    dsimp only at s2 e1 e2
    omega
  · have s3 : ∑ p ∈ Finset.range P, n p t = ∑ p ∈ Finset.range (q + 1), n p t := by
      apply sum_range_tail (by omega)
      intro i hi hi2
      by_contra hc
      have h3 := hn i hi2 t hc
      have h4 := h.mono (show q + 1 ≤ i by omega) (by omega)
      have h5 := h.counted_bounds (show q + 1 ≤ P by omega)
      have h6 := hcq q hrq le_rfl
      have h7 := h.counted_step (show q < P by omega)
      have h8 := hlast (by omega)
      omega
    have s4 : (if F q = t then n q t else 0) = n q t := by
      split
      · rfl
      · rename_i hne
        by_contra hc
        have h3 := hn q (by omega) t (fun hc2 => hc hc2.symm)
        have h5 := h.counted_bounds (show q ≤ P by omega)
        have h6 := hcq q hrq le_rfl
        omega
    rw [s3, s4, Finset.sum_range_succ]
    dsimp only at s2 e1 e2
    omega

end Numbers

/-! ### The messages -/

theorem myPertreeLoop_spec {gfp : List (GPos d)} {gfq : ℕ → ℤ} {P r : ℕ} {tc : ℕ → ℤ} {o : ℕ} {rt : RankTrees (Quad d × α)}
    {T : ℕ} {F C n : ℕ → ℕ} (hg : Stored gfp P F C) (hr : r < P) (hsize : ∀ t : ℕ, t < T → treeSize rt t = some (n t : ℤ))
    (k c : ℕ) (hk : o + c + k ≤ T) :
    myPertreeLoop gfp gfq P r tc o rt k c = some
      ⟨(List.range k).map fun i => if i + 1 = k then (n (o + c + i) : ℤ) + (gfq (nextCounter tc (P - (r + 1)) (r + 1)) - gfq (r + 1))
          else (n (o + c + i) : ℤ),
        if k ≠ 0 ∧ F (nextCounter tc (P - (r + 1)) (r + 1)) + 1 = o + c + k then some (nextCounter tc (P - (r + 1)) (r + 1)) else none⟩ := by
  induction k generalizing c with
  | zero => simp [myPertreeLoop]
  | succ k ih =>
    rw [myPertreeLoop]
    simp only [Option.bind_eq_bind]
    rw [show (o : ℤ) + (c : ℤ) = ((o + c : ℕ) : ℤ) by push_cast; rfl, hsize (o + c) (by omega)]
    simp only [Option.bind_some]
    have hq := nextCounter_spec tc (P - (r + 1)) (r + 1)
    by_cases hk0 : k = 0
    · subst hk0
      rw [if_pos rfl]
      obtain ⟨g, g1, g2, -⟩ := hg (nextCounter tc (P - (r + 1)) (r + 1)) (by omega)
      rw [g1]
      simp only [Option.bind_some]
      rw [g2]
      congr 2
      by_cases hc : F (nextCounter tc (P - (r + 1)) (r + 1)) = o + c
      · rw [if_pos (by exact_mod_cast hc), if_pos ⟨by omega, by omega⟩]
      · rw [if_neg (by exact_mod_cast hc), if_neg (by omega)]
    · rw [if_neg hk0, ih (c + 1) (by omega)]
      simp only [Option.bind_some]
      congr 2
      · rw [List.range_succ_eq_map, List.map_cons, List.map_map]
        rw [if_neg (by omega)]
        congr 1
        apply List.map_congr_left
        intro i _
        simp only [Function.comp, Nat.succ_eq_add_one]
        rw [show o + (c + 1) + i = o + c + (i + 1) by omega]
        by_cases hi : i + 1 = k
        · rw [if_pos hi, if_pos (by omega)]
        · rw [if_neg hi, if_neg (by omega)]
      · by_cases hc : F (nextCounter tc (P - (r + 1)) (r + 1)) + 1 = o + c + (k + 1)
        · rw [if_pos ⟨hk0, by omega⟩, if_pos ⟨by omega, hc⟩]
        · rw [if_neg (by omega), if_neg (by omega)]

theorem addLast_map (g : ℕ → ℤ) (k : ℕ) (x : ℤ) :
    addLast ((List.range (k + 1)).map g) x = (List.range (k + 1)).map fun i => if i + 1 = k + 1 then g i + x else g i := by
  unfold addLast
  rw [List.length_map, List.length_range, Nat.add_sub_cancel]
  apply List.ext_getElem
  · simp
  · intro i h1 h2
    rw [List.getElem_modify]
    simp only [List.getElem_map, List.getElem_range]
    by_cases hi : k = i
    · rw [if_pos hi, if_pos (by omega)]
    · rw [if_neg hi, if_neg (by omega)]

theorem flatMap_pieces {β : Type} (o : ℕ → ℕ) (h0 : o 0 = 0) (P : ℕ) (hm : ∀ p, p < P → o p ≤ o (p + 1)) (h : ℕ → β) :
    ((List.range P).map fun p => (List.range (o (p + 1) - o p)).map fun c => h (o p + c)).flatten = (List.range (o P)).map h := by
  induction P with
  | zero => simp [h0]
  | succ P ih =>
    rw [List.range_succ, List.map_append, List.flatten_append, ih fun p hp => hm p (by omega)]
    have : o (P + 1) = o P + (o (P + 1) - o P) := by have := hm P (by omega); omega
    rw [this, List.range_add, List.map_append, List.map_map]
    simp [Function.comp_def]

theorem pertreeSums_spec (a : ℤ) (l : List ℤ) : pertreeSums a l = (List.range (l.length + 1)).map fun t => a + (l.take t).sum := by
  induction l generalizing a with
  | nil => simp [pertreeSums]
  | cons x l ih =>
    rw [pertreeSums, ih, List.length_cons, List.range_succ_eq_map (n := l.length + 1), List.map_cons, List.map_map]
    simp only [List.take_zero, List.sum_nil, Int.add_zero, List.cons.injEq, true_and]
    apply List.map_congr_left
    intro t _
    simp only [Function.comp, Nat.succ_eq_add_one, List.take_succ_cons, List.sum_cons]
    omega

end P4est
