import Mathlib.Algebra.BigOperators.Group.List.Basic
import Mathlib.Algebra.Order.BigOperators.Group.List
import Verif.Model.PartitionExt
import Verif.Spec.Weight
import Verif.Lemmas.RepartitionFill

/-! # Lemmas for weighted partition -/

namespace P4est
open Spec

variable {d : ℕ} {β σ : Type}

/-! ### Running sums -/

/-- Running sums starting with `a`. -/
def sums (a : ℤ) : List ℤ → List ℤ
  | [] => []
  | w :: ws => (a + w) :: sums (a + w) ws

theorem sums_append (a : ℤ) (l1 l2 : List ℤ) : sums a (l1 ++ l2) = sums a l1 ++ sums (a + l1.sum) l2 := by
  induction l1 generalizing a with
  | nil => simp [sums]
  | cons w l1 ih => simp only [List.cons_append, sums, ih, List.sum_cons]; congr 3; ring

theorem sums_length (a : ℤ) (l : List ℤ) : (sums a l).length = l.length := by
  induction l generalizing a with
  | nil => rfl
  | cons w l ih => simp [sums, ih]

theorem cons_sums_get (a : ℤ) (l : List ℤ) (j : ℕ) (hj : j ≤ l.length) :
    (a :: sums a l)[j]? = some (a + (l.take j).sum) := by
  induction l generalizing a j with
  | nil =>
    have : j = 0 := by simpa using hj
    subst this; simp
  | cons w l ih =>
    cases j with
    | zero => simp
    | succ j =>
      have := ih (a + w) j (by simpa using hj)
      simp only [sums, List.getElem?_cons_succ, List.take_succ_cons, List.sum_cons]
      rw [this]; congr 1; ring

theorem cons_sums_last (a : ℤ) (l : List ℤ) : (a :: sums a l).getLastD 0 = a + l.sum := by
  induction l generalizing a with
  | nil => simp [sums]
  | cons w l ih =>
    have h := ih (a + w)
    simp only [sums]
    rw [List.getLastD_cons] at h ⊢
    rw [List.getLastD_cons, h, List.sum_cons]; ring

/-! ### Calling the callback -/

theorem callAll_append (f : ℕ → β → σ → ℤ × σ) (l1 l2 : List (ℕ × β)) (s : σ) :
    callAll f (l1 ++ l2) s = ((callAll f l1 s).1 ++ (callAll f l2 (callAll f l1 s).2).1, (callAll f l2 (callAll f l1 s).2).2) := by
  induction l1 generalizing s with
  | nil => rfl
  | cons x l1 ih => obtain ⟨t, q⟩ := x; simp only [List.cons_append, callAll, ih]

theorem callAll_length (f : ℕ → β → σ → ℤ × σ) (l : List (ℕ × β)) (s : σ) : (callAll f l s).1.length = l.length := by
  induction l generalizing s with
  | nil => rfl
  | cons x l ih => obtain ⟨t, q⟩ := x; simp [callAll, ih]

theorem weighTree_spec (f : ℕ → β → σ → ℤ × σ) (size t : ℕ) (l : List β) (pre : List ℤ) (s : σ)
    (h : pre.length + l.length < size) :
    weighTree f size t l (0 :: sums 0 pre, s) =
      some (0 :: sums 0 (pre ++ (callAll f (l.map fun q => (t, q)) s).1), (callAll f (l.map fun q => (t, q)) s).2) := by
  induction l generalizing pre s with
  | nil => simp [weighTree, callAll]
  | cons q l ih =>
    simp only [List.length_cons] at h
    rw [weighTree, if_pos (by rw [List.length_cons, sums_length]; omega), cons_sums_last]
    have e : (0 :: sums 0 pre) ++ [0 + pre.sum + (f t q s).1] = 0 :: sums 0 (pre ++ [(f t q s).1]) := by
      rw [sums_append]; simp [sums]
    rw [e, ih _ _ (by simp; omega)]
    simp only [List.map_cons, callAll, List.append_assoc, List.singleton_append]

theorem weighTrees_spec (f : ℕ → β → σ → ℤ × σ) (size : ℕ) (rt : RankTrees β) (A : ℕ → List β) (n t : ℕ)
    (hA : ∀ i, i < n → rt.trees[t + i]? = some (A (t + i))) (pre : List ℤ) (s : σ)
    (h : pre.length + (tagFrom t ((List.range n).map fun i => A (t + i))).length < size) :
    weighTrees f size rt n t (0 :: sums 0 pre, s) =
      some (0 :: sums 0 (pre ++ (callAll f (tagFrom t ((List.range n).map fun i => A (t + i))) s).1),
        (callAll f (tagFrom t ((List.range n).map fun i => A (t + i))) s).2) := by
  induction n generalizing t pre s with
  | zero => simp [weighTrees, callAll, tagFrom]
  | succ n ih =>
    have e : (List.range (n + 1)).map (fun i => A (t + i)) = A t :: (List.range n).map fun i => A (t + 1 + i) := by
      rw [List.range_succ_eq_map, List.map_cons, List.map_map]
      congr 1
      apply List.map_congr_left
      intro i _
      simp only [Function.comp]; congr 1; omega
    rw [e] at h ⊢
    rw [tagFrom] at h ⊢
    rw [List.length_append, List.length_map] at h
    have h0 := hA 0 (by omega)
    simp only [Nat.add_zero] at h0
    rw [weighTrees, h0]
    simp only [bind, Option.bind]
    rw [weighTree_spec f size t (A t) pre s (by omega)]
    simp only
    rw [ih (t + 1) (fun i hi => by have := hA (i + 1) (by omega); rwa [show t + (i + 1) = t + 1 + i by omega] at this)
      _ _ (by rw [List.length_append, callAll_length, List.length_map]; omega)]
    rw [callAll_append, List.append_assoc]

theorem localWeights_spec (f : ℕ → β → σ → ℤ × σ) {T : ℕ} {L : List (ℕ × β)} {rt : RankTrees β} (h : Holds T L rt) (s : σ) :
    localWeights f rt L.length s = some (0 :: sums 0 (callAll f L s).1, (callAll f L s).2) := by
  have key : weighTrees f (L.length + 1) rt (localTrees rt) rt.first.toNat ([0], s) =
      some (0 :: sums 0 (callAll f L s).1, (callAll f L s).2) := by
    by_cases hne : L = []
    · subst hne
      have := h.empty
      have e : localTrees rt = 0 := by unfold localTrees; omega
      rw [e]; simp [weighTrees, callAll, sums]
    · have h0 := h.nonempty hne
      have hb : ∀ x ∈ L, rt.first.toNat ≤ x.1 ∧ x.1 < rt.first.toNat + localTrees rt := by
        intro x hx
        have h1 := h.bounds hx
        unfold localTrees; omega
      have e := h.sorted.eq_tagFrom rt.first.toNat (localTrees rt) hb
      have hlast : ∀ i, i < localTrees rt → rt.first.toNat + i < T := by
        intro i hi
        have h1 : rt.last < T := by
          rw [h.last, List.getLast?_eq_some_getLast hne]
          have h2 := h.lt (List.getLast_mem hne)
          simp only [Option.elim_some]
          exact_mod_cast h2
        unfold localTrees at hi; omega
      have := weighTrees_spec f (L.length + 1) rt (leavesIn L) (localTrees rt) rt.first.toNat
        (fun i hi => h.get (hlast i hi)) [] s (by rw [← e]; simp)
      rw [← e] at this
      simpa [sums] using this
  unfold localWeights
  rw [key]
  simp only [bind, Option.bind]
  rw [if_pos (by simp [sums_length, callAll_length])]

/-! ### Which ranks know which cuts -/

theorem weightPeers_spec (cut : ℕ → ℤ) (a b : ℤ) (n i : ℕ) (s : ℕ × ℕ) :
    (∀ j, i ≤ j → j < i + n → a < cut j ∧ cut j ≤ b → (weightPeers cut a b n i s).1 ≤ j ∧ j ≤ (weightPeers cut a b n i s).2) ∧
    (weightPeers cut a b n i s).1 ≤ s.1 ∧ s.2 ≤ (weightPeers cut a b n i s).2 ∧
    ((weightPeers cut a b n i s).1 = s.1 ∨ (i ≤ (weightPeers cut a b n i s).1 ∧ (weightPeers cut a b n i s).1 < i + n ∧
      a < cut (weightPeers cut a b n i s).1 ∧ cut (weightPeers cut a b n i s).1 ≤ b)) ∧
    ((weightPeers cut a b n i s).2 = s.2 ∨ (i ≤ (weightPeers cut a b n i s).2 ∧ (weightPeers cut a b n i s).2 < i + n ∧
      a < cut (weightPeers cut a b n i s).2 ∧ cut (weightPeers cut a b n i s).2 ≤ b)) := by
  induction n generalizing i s with
  | zero => exact ⟨fun j h1 h2 => by omega, le_rfl, le_rfl, Or.inl rfl, Or.inl rfl⟩
  | succ n ih =>
    rw [weightPeers]
    split
    · rename_i hc
      obtain ⟨h1, h2, h3, h4, h5⟩ := ih (i + 1) (min s.1 i, max s.2 i)
      set w := weightPeers cut a b n (i + 1) (min s.1 i, max s.2 i)
      simp only at h2 h3 h4 h5
      refine ⟨fun j j1 j2 j3 => ?_, by omega, by omega, ?_, ?_⟩
      · by_cases hj : j = i
        · subst hj; omega
        · exact h1 j (by omega) (by omega) j3
      · rcases h4 with h4 | h4
        · by_cases hs : s.1 ≤ i
          · exact Or.inl (by omega)
          · have : w.1 = i := by omega
            rw [this]; exact Or.inr ⟨le_rfl, by omega, hc⟩
        · exact Or.inr ⟨by omega, by omega, h4.2.2⟩
      · rcases h5 with h5 | h5
        · by_cases hs : i ≤ s.2
          · exact Or.inl (by omega)
          · have : w.2 = i := by omega
            rw [this]; exact Or.inr ⟨le_rfl, by omega, hc⟩
        · exact Or.inr ⟨by omega, by omega, h5.2.2⟩
    · rename_i hc
      obtain ⟨h1, h2, h3, h4, h5⟩ := ih (i + 1) s
      set w := weightPeers cut a b n (i + 1) s
      refine ⟨fun j j1 j2 j3 => ?_, h2, h3, ?_, ?_⟩
      · by_cases hj : j = i
        · subst hj; exact absurd j3 hc
        · exact h1 j (by omega) (by omega) j3
      · rcases h4 with h4 | h4
        · exact Or.inl h4
        · exact Or.inr ⟨by omega, by omega, h4.2.2⟩
      · rcases h5 with h5 | h5
        · exact Or.inl h5
        · exact Or.inr ⟨by omega, by omega, h5.2.2⟩

/-- The window consists of the cuts with the property. -/
theorem weightPeers_iff {cut : ℕ → ℤ} {P : ℕ} (hm : ∀ i j, i ≤ j → j ≤ P → cut i ≤ cut j) (a b : ℤ) (hP : 0 < P) :
    1 ≤ (weightPeers cut a b P 1 (P, 0)).1 ∧ (weightPeers cut a b P 1 (P, 0)).2 ≤ P ∧
    ∀ j, ((weightPeers cut a b P 1 (P, 0)).1 ≤ j ∧ j ≤ (weightPeers cut a b P 1 (P, 0)).2) ↔
      (1 ≤ j ∧ j ≤ P ∧ a < cut j ∧ cut j ≤ b) := by
  obtain ⟨h1, h2, h3, h4, h5⟩ := weightPeers_spec cut a b P 1 (P, 0)
  set w := weightPeers cut a b P 1 (P, 0)
  simp only at h2 h3 h4 h5
  have hw1 : 1 ≤ w.1 := by rcases h4 with h4 | h4 <;> omega
  have hw2 : w.2 ≤ P := by rcases h5 with h5 | h5 <;> omega
  refine ⟨hw1, hw2, fun j => ⟨fun ⟨j1, j2⟩ => ?_, fun ⟨j1, j2, j3⟩ => h1 j j1 (by omega) j3⟩⟩
  have h6 : a < cut w.2 ∧ cut w.2 ≤ b := by
    rcases h5 with h5 | h5
    · omega
    · exact h5.2.2
  have h7 : a < cut w.1 := by
    rcases h4 with h4 | h4
    · have : w.1 = w.2 := by omega
      rw [this]; exact h6.1
    · exact h4.2.2.1
  have h8 := hm w.1 j j1 (by omega)
  have h9 := hm j w.2 j2 hw2
  exact ⟨by omega, by omega, by omega, by omega⟩

theorem flatMap_range_if {γ : Type} (a n r : ℕ) (X : List γ) :
    (List.range' a n).flatMap (fun i => if i = r then X else []) = if a ≤ r ∧ r < a + n then X else [] := by
  induction n generalizing a with
  | zero => rw [if_neg (by omega)]; rfl
  | succ n ih =>
    rw [List.range'_succ, List.flatMap_cons, ih]
    by_cases h : a = r
    · rw [if_pos h, if_neg (by omega), if_pos (by omega)]; simp
    · rw [if_neg h]
      by_cases h2 : a + 1 ≤ r ∧ r < a + 1 + n
      · rw [if_pos h2, if_pos (by omega)]; rfl
      · rw [if_neg h2, if_neg (by omega)]; rfl

theorem weightSource_spec {gws : ℕ → ℤ} {cut : ℤ} {q : ℕ} (hq : gws q < cut ∧ cut ≤ gws (q + 1)) (n i : ℕ) (h1 : i ≤ q)
    (h2 : q < i + n) (hu : ∀ j, i ≤ j → j < q → ¬ (gws j < cut ∧ cut ≤ gws (j + 1))) : weightSource gws cut n i = some q := by
  induction n generalizing i with
  | zero => omega
  | succ n ih =>
    rw [weightSource]
    by_cases hi : i = q
    · subst hi; rw [if_pos hq]
    · rw [if_neg (hu i le_rfl (by omega)), ih (i + 1) (by omega) (by omega) fun j j1 j2 => hu j (by omega) j2]

/-! ### The cuts -/

/-- What is known about weights `ws` on rank `p`, cumulative weights `C`, and cuts. -/
structure WData (P : ℕ) (o : ℕ → ℕ) (N : ℕ) (C : ℕ → ℤ) (cut : ℕ → ℤ) (b : ℕ → ℕ) : Prop where
  pos : 0 < P
  o0 : o 0 = 0
  oP : o P = N
  omono : Monotone o
  cmono : Monotone C
  c0 : C 0 = 0
  cut0 : cut 0 = 0
  cutm : ∀ i j, i ≤ j → j ≤ P → cut i ≤ cut j
  cutP : cut P = C N
  cpos : C N ≠ 0
  b : ∀ i, i ≤ P → ∀ k, cut i ≤ C k ↔ b i ≤ k

variable {P : ℕ} {o : ℕ → ℕ} {N : ℕ} {C : ℕ → ℤ} {cut : ℕ → ℤ} {b : ℕ → ℕ}

theorem WData.knows (h : WData P o N C cut b) {i p : ℕ} (hi : i ≤ P) :
    (C (o p) < cut i ∧ cut i ≤ C (o (p + 1))) ↔ (o p < b i ∧ b i ≤ o (p + 1)) := by
  rw [h.b i hi, ← Int.not_le, h.b i hi]; omega

/-- Message contents: the cut, or the end of the forest. -/
def wval (P N : ℕ) (b : ℕ → ℕ) (i : ℕ) : ℕ := if i < P then b i else N

/-- The messages for cut `i`. -/
def wmsgs (P N : ℕ) (b : ℕ → ℕ) (i : ℕ) : List WMsg :=
  if i < P then [⟨i, true, b i⟩, ⟨i - 1, false, b i⟩] else [⟨i - 1, false, N⟩]

theorem scLowerBound_spec (target : ℤ) (lw : List ℤ) (k len : ℕ) (D : ℕ → ℤ) (hl : lw.length = len + 1)
    (hget : ∀ j, j ≤ len → lw[j]? = some (D j)) (hk : k ≤ len) (hD : ∀ j, target ≤ D j ↔ k ≤ j) (guess : ℤ)
    (h1 : 0 ≤ guess) (h2 : guess ≤ len) : scLowerBound target lw guess = some (k : ℤ) := by
  unfold scLowerBound
  rw [if_pos ⟨h1, by rw [hl]; push_cast; omega⟩]
  have : lw.findIdx? (fun x => decide (target ≤ x)) = some k := by
    rw [List.findIdx?_eq_some_iff_getElem]
    refine ⟨by omega, ?_, fun j hj => ?_⟩
    · have := hget k hk
      rw [List.getElem?_eq_some_iff] at this
      obtain ⟨_, this⟩ := this
      rw [this, decide_eq_true_eq, hD]
    · have := hget j (by omega)
      rw [List.getElem?_eq_some_iff] at this
      obtain ⟨_, this⟩ := this
      rw [this, decide_eq_true_eq, hD]; omega
  rw [this]

theorem weightSends_spec (h : WData P o N C cut b) {p : ℕ} {lw : List ℤ} (hl : lw.length = o (p + 1) - o p + 1)
    (hget : ∀ j, j ≤ o (p + 1) - o p → lw[j]? = some (C (o p + j))) (n i : ℕ)
    (hk : ∀ j, i ≤ j → j < i + n → j ≤ P ∧ o p < b j ∧ b j ≤ o (p + 1)) (lowers : ℤ) (acc : List WMsg) (h1 : 0 ≤ lowers)
    (h2 : lowers ≤ ((o (p + 1) - o p : ℕ) : ℤ)) :
    weightSends cut lw (o p) N P n i lowers acc = some (acc ++ (List.range' i n).flatMap (wmsgs P N b)) := by
  induction n generalizing i lowers acc with
  | zero => simp [weightSends]
  | succ n ih =>
    obtain ⟨k1, k2, k3⟩ := hk i le_rfl (by omega)
    have hk' : ∀ j, i + 1 ≤ j → j < i + 1 + n → j ≤ P ∧ o p < b j ∧ b j ≤ o (p + 1) := fun j j1 j2 => hk j (by omega) (by omega)
    rw [weightSends, List.range'_succ, List.flatMap_cons]
    by_cases hi : i < P
    · rw [if_pos hi, scLowerBound_spec (cut i) lw (b i - o p) (o (p + 1) - o p) (fun j => C (o p + j)) hl hget (by omega)
        (fun j => by rw [h.b i k1]; omega) lowers h1 h2]
      simp only [bind, Option.bind]
      rw [ih (i + 1) hk' _ _ (by omega) (by omega)]
      have e : ((b i - o p : ℕ) : ℤ) + (o p : ℤ) = b i := by omega
      rw [e, List.append_assoc, wmsgs, if_pos hi]
    · rw [if_neg hi, ih (i + 1) hk' _ _ le_rfl (by omega), List.append_assoc, wmsgs, if_neg hi]

theorem weightMessages_spec (h : WData P o N C cut b) {p : ℕ} {lw : List ℤ} (hl : lw.length = o (p + 1) - o p + 1)
    (hget : ∀ j, j ≤ o (p + 1) - o p → lw[j]? = some (C (o p + j))) :
    ∃ ms, weightMessages cut lw (o p) N P (C (o p)) (C (o (p + 1))) = some ms ∧
      (∀ r, r < P → ms.filter (fun m => m.dst = r ∧ m.low = true) = if o p < b r ∧ b r ≤ o (p + 1) then [⟨r, true, b r⟩] else []) ∧
      (∀ r, r < P → ms.filter (fun m => m.dst = r ∧ m.low = false) =
        if o p < b (r + 1) ∧ b (r + 1) ≤ o (p + 1) then [⟨r, false, wval P N b (r + 1)⟩] else []) := by
  obtain ⟨w1, w2, w3⟩ := weightPeers_iff h.cutm (C (o p)) (C (o (p + 1))) h.pos
  unfold weightMessages
  simp only
  set w := weightPeers cut (C (o p)) (C (o (p + 1))) P 1 (P, 0)
  have hwin : ∀ j, (w.1 ≤ j ∧ j < w.1 + (w.2 + 1 - w.1)) ↔ (1 ≤ j ∧ j ≤ P ∧ o p < b j ∧ b j ≤ o (p + 1)) := by
    intro j
    have h1 := w3 j
    constructor
    · intro h2
      have h3 := h1.mp (by omega)
      exact ⟨h3.1, h3.2.1, (h.knows h3.2.1).mp h3.2.2⟩
    · intro h2
      have h3 := h1.mpr ⟨h2.1, h2.2.1, (h.knows h2.2.1).mpr h2.2.2⟩
      omega
  refine ⟨_, weightSends_spec h hl hget _ _ (fun j j1 j2 => ((hwin j).mp ⟨j1, j2⟩).2) 0 [] le_rfl (by omega), ?_, ?_⟩
  · intro r hr
    rw [List.nil_append, List.filter_flatMap]
    have e : (List.range' w.1 (w.2 + 1 - w.1)).flatMap (fun a => (wmsgs P N b a).filter fun m => m.dst = r ∧ m.low = true) =
        (List.range' w.1 (w.2 + 1 - w.1)).flatMap (fun i => if i = r then [⟨r, true, b r⟩] else []) := by
      apply List.flatMap_congr
      intro i _
      unfold wmsgs
      by_cases hi : i < P
      · by_cases hir : i = r
        · subst hir; simp [hi]
        · simp [hi, hir]
      · have hir : i ≠ r := by omega
        simp [hi, hir]
    rw [e, flatMap_range_if]
    have hb0 : b 0 = 0 := by
      have := (h.b 0 (by omega) 0).mp (by rw [h.cut0, h.c0]); omega
    by_cases hc : o p < b r ∧ b r ≤ o (p + 1)
    · have : r ≠ 0 := by rintro rfl; omega
      rw [if_pos hc, if_pos ((hwin r).mpr ⟨by omega, by omega, hc⟩)]
    · rw [if_neg hc, if_neg fun h1 => hc ((hwin r).mp h1).2.2]
  · intro r hr
    rw [List.nil_append, List.filter_flatMap]
    have e : (List.range' w.1 (w.2 + 1 - w.1)).flatMap (fun a => (wmsgs P N b a).filter fun m => m.dst = r ∧ m.low = false) =
        (List.range' w.1 (w.2 + 1 - w.1)).flatMap (fun i => if i = r + 1 then [⟨r, false, wval P N b (r + 1)⟩] else []) := by
      apply List.flatMap_congr
      intro i hi'
      rw [List.mem_range'_1] at hi'
      have h1 := (hwin i).mp hi'
      unfold wmsgs wval
      by_cases hi : i < P
      · by_cases hir : i = r + 1
        · subst hir; simp [hi]
        · have : i - 1 ≠ r := by omega
          simp [hi, hir, this]
      · by_cases hir : i = r + 1
        · subst hir; simp [hi]
        · have : i - 1 ≠ r := by omega
          simp [hi, hir, this]
    rw [e, flatMap_range_if]
    by_cases hc : o p < b (r + 1) ∧ b (r + 1) ≤ o (p + 1)
    · rw [if_pos hc, if_pos ((hwin (r + 1)).mpr ⟨by omega, by omega, hc⟩)]
    · rw [if_neg hc, if_neg fun h1 => hc ((hwin (r + 1)).mp h1).2.2]

theorem WData.source (h : WData P o N C cut b) {i : ℕ} (hi : i ≤ P) (hc : cut i ≠ 0) :
    ∃ q, q < P ∧ o q < b i ∧ b i ≤ o (q + 1) := by
  have h1 : b i ≤ N := by
    rw [← h.b i hi, ← h.cutP]; exact h.cutm i P hi le_rfl
  have h2 : 0 < b i := by
    by_contra h0
    have h3 := (h.b i hi 0).mpr (by omega)
    have h4 := h.cutm 0 i (by omega) hi
    rw [h.c0] at h3; rw [h.cut0] at h4; omega
  have : ∀ q, q ≤ P → b i ≤ o q → ∃ q', q' < q ∧ o q' < b i ∧ b i ≤ o (q' + 1) := by
    intro q
    induction q with
    | zero => intro _ h5; rw [h.o0] at h5; omega
    | succ q ih =>
      intro h4 h5
      rcases Nat.lt_or_ge (o q) (b i) with h6 | h6
      · exact ⟨q, by omega, h6, h5⟩
      · obtain ⟨q', h7, h8⟩ := ih (by omega) h6
        exact ⟨q', by omega, h8⟩
  exact this P le_rfl (by rw [h.oP]; exact h1)

theorem WData.source_unique (h : WData P o N C cut b) {i q q' : ℕ} (h1 : o q < b i ∧ b i ≤ o (q + 1))
    (h2 : o q' < b i ∧ b i ≤ o (q' + 1)) : q = q' := by
  rcases Nat.lt_trichotomy q q' with h3 | h3 | h3
  · have := h.omono (show q + 1 ≤ q' by omega); omega
  · exact h3
  · have := h.omono (show q' + 1 ≤ q by omega); omega

theorem WData.b_zero (h : WData P o N C cut b) {i : ℕ} (hi : i ≤ P) (hc : cut i = 0) : b i = 0 := by
  have := (h.b i hi 0).mp (by rw [hc, h.c0]); omega

theorem weightReceive_spec {ms : ℕ → List WMsg} {rank : ℕ} {low : Bool} {source : Option ℕ} {v : ℤ}
    (hf : ∀ p, p < P → (ms p).filter (fun m => m.dst = rank ∧ m.low = low) = if source = some p then [⟨rank, low, v⟩] else [])
    (hs : ∀ q, source = some q → q < P) (hv : source = none → v = 0) :
    weightReceive ms P rank low source = some v := by
  unfold weightReceive
  rw [if_pos]
  · cases source with
    | none => simp only; rw [hv rfl]
    | some q =>
      simp only
      rw [← List.head?_filter, hf q (hs q rfl), if_pos rfl]; rfl
  · rw [List.all_eq_true]
    intro p hp
    rw [decide_eq_true_eq, hf p (List.mem_range.mp hp)]
    split <;> rfl

theorem weightCount_spec (h : WData P o N C cut b) {gws : ℕ → ℤ} (hg : ∀ p, p ≤ P → gws p = C (o p))
    {ms : ℕ → List WMsg}
    (hlow : ∀ p, p < P → ∀ r, r < P → (ms p).filter (fun m => m.dst = r ∧ m.low = true) =
      if o p < b r ∧ b r ≤ o (p + 1) then [⟨r, true, b r⟩] else [])
    (hhigh : ∀ p, p < P → ∀ r, r < P → (ms p).filter (fun m => m.dst = r ∧ m.low = false) =
      if o p < b (r + 1) ∧ b (r + 1) ≤ o (p + 1) then [⟨r, false, wval P N b (r + 1)⟩] else [])
    {r : ℕ} (hr : r < P) :
    weightCount cut gws ms P r = some ((wval P N b (r + 1) : ℤ) - b r) := by
  have hsrc : ∀ i, i ≤ P → cut i ≠ 0 → ∀ a, (∀ q, o q < b i ∧ b i ≤ o (q + 1) → a ≤ q) →
      ∃ q, q < P ∧ (o q < b i ∧ b i ≤ o (q + 1)) ∧ weightSource gws (cut i) (P - a) a = some q := by
    intro i hi hc a ha
    obtain ⟨q, q1, q2⟩ := h.source hi hc
    have h3 := ha q q2
    refine ⟨q, q1, q2, weightSource_spec ?_ _ _ h3 (by omega) ?_⟩
    · rw [hg q (by omega), hg (q + 1) (by omega)]; exact (h.knows hi).mpr q2
    · intro j j1 j2
      rw [hg j (by omega), hg (j + 1) (by omega), h.knows hi]
      intro h4
      have := h.source_unique h4 q2; omega
  -- the source of the low cut
  have hL : ∃ ls : Option ℕ, cutSource gws (cut r) P 0 = some ls ∧
      (∀ q, ls = some q → q < P) ∧ (ls = none → b r = 0) ∧ (∀ p, p < P → (ls = some p ↔ o p < b r ∧ b r ≤ o (p + 1))) := by
    by_cases hc : cut r = 0
    · have hb := h.b_zero (by omega) hc
      exact ⟨none, by rw [cutSource, if_pos hc], by simp, fun _ => hb, fun p _ => ⟨by simp, by omega⟩⟩
    · obtain ⟨q, q1, q2, q3⟩ := hsrc r (by omega) hc 0 (fun _ _ => Nat.zero_le _)
      refine ⟨some q, by rw [cutSource, if_neg hc, q3]; rfl, fun q' hq' => by simp at hq'; omega, by simp, fun p _ => ?_⟩
      rw [Option.some_inj]
      exact ⟨fun e => e ▸ q2, fun e => h.source_unique q2 e⟩
  obtain ⟨ls, l1, l2, l3, l4⟩ := hL
  have hH : ∃ hs : Option ℕ, cutSource gws (cut (r + 1)) P (ls.getD 0) = some hs ∧
      (∀ q, hs = some q → q < P) ∧ (hs = none → wval P N b (r + 1) = 0) ∧
      (∀ p, p < P → (hs = some p ↔ o p < b (r + 1) ∧ b (r + 1) ≤ o (p + 1))) := by
    by_cases hc : cut (r + 1) = 0
    · have hb := h.b_zero (by omega) hc
      refine ⟨none, by rw [cutSource, if_pos hc], by simp, fun _ => ?_, fun p _ => ⟨by simp, by omega⟩⟩
      unfold wval
      split
      · exact hb
      · have : r + 1 = P := by omega
        rw [this, h.cutP] at hc
        exact absurd hc h.cpos
    · obtain ⟨q, q1, q2, q3⟩ := hsrc (r + 1) (by omega) hc (ls.getD 0) (by
        intro q hq
        cases hls : ls with
        | none => simp
        | some q' =>
          simp only [Option.getD_some]
          have h5 := (l4 q' (l2 q' hls)).mp hls
          have h6 : b r ≤ b (r + 1) := by
            rw [← h.b r (by omega)]
            exact le_trans (h.cutm r (r + 1) (by omega) (by omega)) ((h.b (r + 1) (by omega) _).mpr le_rfl)
          by_contra h7
          have := h.omono (show q + 1 ≤ q' by omega)
          omega)
      refine ⟨some q, by rw [cutSource, if_neg hc, q3]; rfl, fun q' hq' => by simp at hq'; omega, by simp, fun p _ => ?_⟩
      rw [Option.some_inj]
      exact ⟨fun e => e ▸ q2, fun e => h.source_unique q2 e⟩
  obtain ⟨hs, s1, s2, s3, s4⟩ := hH
  unfold weightCount
  simp only [bind, Option.bind]
  rw [l1]
  simp only
  rw [s1]
  simp only
  rw [weightReceive_spec (v := (b r : ℤ)) (fun p hp => by
    rw [hlow p hp r hr]
    by_cases hc : ls = some p
    · rw [if_pos hc, if_pos ((l4 p hp).mp hc)]
    · rw [if_neg hc, if_neg fun h1 => hc ((l4 p hp).mpr h1)]) l2 (fun e => by rw [l3 e]; rfl)]
  simp only
  rw [weightReceive_spec (v := (wval P N b (r + 1) : ℤ)) (fun p hp => by
    rw [hhigh p hp r hr]
    by_cases hc : hs = some p
    · rw [if_pos hc, if_pos ((s4 p hp).mp hc)]
    · rw [if_neg hc, if_neg fun h1 => hc ((s4 p hp).mpr h1)]) s2 (fun e => by rw [s3 e]; rfl)]

end P4est
