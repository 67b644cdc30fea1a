import Verif.Lemmas.Repartition

/-! # Filling in received leaves -/

namespace P4est
open Spec

variable {β : Type}

/-- The leaves of tree `t` that come from the ranks before `p`. -/
def fromBefore (M : ℕ → List (ℕ × β)) (p t : ℕ) : ℕ := ∑ r ∈ Finset.range p, (leavesIn (M r) t).length

theorem fromBefore_succ (M : ℕ → List (ℕ × β)) (p t : ℕ) :
    fromBefore M (p + 1) t = fromBefore M p t + (leavesIn (M p) t).length := Finset.sum_range_succ _ _

theorem fromBefore_mono (M : ℕ → List (ℕ × β)) {p q : ℕ} (h : p ≤ q) (t : ℕ) :
    fromBefore M p t ≤ fromBefore M q t :=
  Finset.sum_le_sum_of_subset (Finset.range_mono h)

/-- Ranks that give nothing do not count. -/
theorem fromBefore_const {M : ℕ → List (ℕ × β)} {p q : ℕ} (h : p ≤ q) (hM : ∀ r, p ≤ r → r < q → M r = []) (t : ℕ) :
    fromBefore M q t = fromBefore M p t := by
  induction q with
  | zero => rw [show p = 0 by omega]
  | succ q ih =>
    rcases Nat.lt_or_ge p (q + 1) with h1 | h1
    · rw [fromBefore_succ, hM q (by omega) (by omega), ih (by omega) (fun r h2 h3 => hM r h2 (by omega))]
      simp [leavesIn]
    · rw [show p = q + 1 by omega]

/-- The new content of tree `t`. -/
def newTree (M : ℕ → List (ℕ × β)) (P t : ℕ) : List β := (List.range P).flatMap fun p => leavesIn (M p) t

theorem newTree_length (M : ℕ → List (ℕ × β)) (P t : ℕ) : (newTree M P t).length = fromBefore M P t := by
  unfold newTree fromBefore
  rw [List.length_flatMap]; rfl

theorem newTree_get {M : ℕ → List (ℕ × β)} {P p t j : ℕ} (hp : p < P) (hj : j < (leavesIn (M p) t).length) :
    (newTree M P t)[fromBefore M p t + j]? = (leavesIn (M p) t)[j]? := by
  induction P with
  | zero => omega
  | succ P ih =>
    have e : newTree M (P + 1) t = newTree M P t ++ leavesIn (M P) t := by
      simp [newTree, List.range_succ]
    rw [e]
    rcases Nat.lt_or_ge p P with h | h
    · have h1 := fromBefore_succ M p t
      have h2 := fromBefore_mono M h t
      have h3 : p.succ = p + 1 := rfl
      rw [h3] at h2
      rw [List.getElem?_append_left (by rw [newTree_length]; omega), ih h]
    · have : p = P := by omega
      subst this
      rw [List.getElem?_append_right (by rw [newTree_length]; omega), newTree_length]
      congr 1; omega

/-! ### Counting -/

theorem countTrees_spec (T : ℕ) (below : Bool) (f : ℕ → ℕ) (n t : ℕ) (s : NewCounts)
    (hT : ∀ x, t ≤ x → x < t + n → 0 < f x → x < T) :
    ∃ s', countTrees T below ((List.range' t n).map fun x => (f x : ℤ)) t s = some s' ∧
      (∀ x, s'.count x = s.count x + if t ≤ x ∧ x < t + n then (f x : ℤ) else 0) ∧
      (∀ x, s'.before x = s.before x + if (t ≤ x ∧ x < t + n) ∧ below = true then (f x : ℤ) else 0) ∧
      (∀ z : ℤ, z ≤ s'.first ↔ z ≤ s.first ∧ ∀ x, t ≤ x → x < t + n → 0 < f x → z ≤ x) ∧
      (∀ z : ℤ, s'.last ≤ z ↔ s.last ≤ z ∧ ∀ x, t ≤ x → x < t + n → 0 < f x → (x : ℤ) ≤ z) := by
  induction n generalizing t s with
  | zero =>
    refine ⟨s, rfl, fun x => ?_, fun x => ?_, fun z => ?_, fun z => ?_⟩
    · rw [if_neg (by omega)]; simp
    · rw [if_neg (by omega)]; simp
    · exact ⟨fun h => ⟨h, fun x h1 h2 => by omega⟩, fun h => h.1⟩
    · exact ⟨fun h => ⟨h, fun x h1 h2 => by omega⟩, fun h => h.1⟩
  | succ n ih =>
    rw [List.range'_succ, List.map_cons, countTrees]
    have hcast : ((t : ℤ) + 1) = ((t + 1 : ℕ) : ℤ) := by push_cast; rfl
    have hiff : ∀ x, (t + 1 ≤ x ∧ x < t + 1 + n) ↔ (t ≤ x ∧ x < t + (n + 1)) ∧ x ≠ t := by omega
    by_cases hf : 0 < f t
    · have htT := hT t le_rfl (by omega) hf
      rw [if_pos (by exact_mod_cast hf), if_pos (by omega), hcast]
      obtain ⟨s', h1, h2, h3, h4, h5⟩ := ih (t + 1)
        { count := Function.update s.count (t : ℤ).toNat (s.count (t : ℤ).toNat + f t)
          before := Function.update s.before (t : ℤ).toNat (s.before (t : ℤ).toNat + if below then (f t : ℤ) else 0)
          first := min s.first t
          last := max s.last t } (fun x hx1 hx2 => hT x (by omega) (by omega))
      refine ⟨s', h1, fun x => ?_, fun x => ?_, fun z => ?_, fun z => ?_⟩
      · rw [h2]
        simp only [Int.toNat_natCast]
        by_cases hx : x = t
        · subst hx
          rw [Function.update_self, if_neg (by omega), if_pos (by omega)]; simp
        · rw [Function.update_of_ne hx]
          simp only [hiff, hx, ne_eq, not_false_eq_true, and_true]
      · rw [h3]
        simp only [Int.toNat_natCast]
        by_cases hx : x = t
        · subst hx
          rw [Function.update_self]
          have e1 : ¬ (x + 1 ≤ x ∧ x < x + 1 + n) := by omega
          have e2 : x ≤ x ∧ x < x + (n + 1) := by omega
          cases below <;> simp [e1, e2]
        · rw [Function.update_of_ne hx]
          simp only [hiff, hx, ne_eq, not_false_eq_true, and_true]
      · rw [h4]
        simp only [le_min_iff, and_assoc]
        constructor
        · rintro ⟨k1, k2, k3⟩
          refine ⟨k1, fun x hx1 hx2 hx3 => ?_⟩
          by_cases hx : x = t
          · rw [hx]; exact k2
          · exact k3 x (by omega) (by omega) hx3
        · rintro ⟨k1, k2⟩
          exact ⟨k1, k2 t le_rfl (by omega) hf, fun x hx1 hx2 hx3 => k2 x (by omega) (by omega) hx3⟩
      · rw [h5]
        simp only [max_le_iff, and_assoc]
        constructor
        · rintro ⟨k1, k2, k3⟩
          refine ⟨k1, fun x hx1 hx2 hx3 => ?_⟩
          by_cases hx : x = t
          · rw [hx]; exact k2
          · exact k3 x (by omega) (by omega) hx3
        · rintro ⟨k1, k2⟩
          exact ⟨k1, k2 t le_rfl (by omega) hf, fun x hx1 hx2 hx3 => k2 x (by omega) (by omega) hx3⟩
    · rw [if_neg (by push_cast; omega), hcast]
      obtain ⟨s', h1, h2, h3, h4, h5⟩ := ih (t + 1) s (fun x hx1 hx2 => hT x (by omega) (by omega))
      have hft : f t = 0 := by omega
      refine ⟨s', h1, fun x => ?_, fun x => ?_, fun z => ?_, fun z => ?_⟩
      · rw [h2]
        by_cases hx : x = t
        · subst hx
          rw [if_neg (by omega), if_pos (by omega), hft]; simp
        · simp only [hiff, hx, ne_eq, not_false_eq_true, and_true]
      · rw [h3]
        by_cases hx : x = t
        · subst hx
          rw [if_neg (by omega), hft]; simp
        · simp only [hiff, hx, ne_eq, not_false_eq_true, and_true]
      · rw [h4]
        refine and_congr_right fun _ => ⟨fun k x hx1 hx2 hx3 => ?_, fun k x hx1 hx2 hx3 => k x (by omega) (by omega) hx3⟩
        exact k x (by rcases Nat.eq_or_lt_of_le hx1 with rfl | h; exact absurd hx3 hf; omega) (by omega) hx3
      · rw [h5]
        refine and_congr_right fun _ => ⟨fun k x hx1 hx2 hx3 => ?_, fun k x hx1 hx2 hx3 => k x (by omega) (by omega) hx3⟩
        exact k x (by rcases Nat.eq_or_lt_of_le hx1 with rfl | h; exact absurd hx3 hf; omega) (by omega) hx3

theorem countsOf_eq (M : List (ℕ × β)) (a n : ℕ) :
    countsOf M a n = (List.range' a n).map fun x => ((leavesIn M x).length : ℤ) := by
  unfold countsOf
  rw [List.range'_eq_map_range, List.map_map]; rfl

theorem leavesIn_pos {L : List (ℕ × β)} {t : ℕ} : 0 < (leavesIn L t).length ↔ ∃ x ∈ L, x.1 = t := by
  rw [List.length_pos_iff, ne_eq, leavesIn_eq_nil]; push Not; rfl

/-- What the sources `p, ..., p + n - 1` contribute. `F` and `nT` are the first tree and the number of trees
in the counts. -/
structure Sources (T : ℕ) (gfpTree : List ℤ) (M : ℕ → List (ℕ × β)) (num : ℕ → ℤ) (counts : ℕ → List ℤ)
    (F nT : ℕ → ℕ) (p : ℕ) : Prop where
  num : num p = (M p).length
  tree : 0 < (M p).length → gfpTree[p]? = some (F p : ℤ)
  counts : 0 < (M p).length → counts p = countsOf (M p) (F p) (nT p)
  bound : ∀ x ∈ M p, F p ≤ x.1 ∧ x.1 < F p + nT p ∧ x.1 < T

theorem countSources_spec (T : ℕ) (gfpTree : List ℤ) (M : ℕ → List (ℕ × β)) (num : ℕ → ℤ) (counts : ℕ → List ℤ)
    (F nT : ℕ → ℕ) (rank n p : ℕ) (s : NewCounts)
    (h : ∀ q, p ≤ q → q < p + n → Sources T gfpTree M num counts F nT q) :
    ∃ s', countSources T gfpTree rank num counts (List.range' p n) s = some s' ∧
      (∀ x, s'.count x + fromBefore M p x = s.count x + fromBefore M (p + n) x) ∧
      (∀ x, s'.before x + fromBefore M (min p rank) x = s.before x + fromBefore M (min (p + n) rank) x) ∧
      (∀ z : ℤ, z ≤ s'.first ↔ z ≤ s.first ∧ ∀ q, p ≤ q → q < p + n → ∀ x ∈ M q, z ≤ x.1) ∧
      (∀ z : ℤ, s'.last ≤ z ↔ s.last ≤ z ∧ ∀ q, p ≤ q → q < p + n → ∀ x ∈ M q, (x.1 : ℤ) ≤ z) := by
  induction n generalizing p s with
  | zero =>
    refine ⟨s, rfl, fun x => rfl, fun x => rfl, fun z => ?_, fun z => ?_⟩
    · exact ⟨fun h => ⟨h, fun x h1 h2 => by omega⟩, fun h => h.1⟩
    · exact ⟨fun h => ⟨h, fun x h1 h2 => by omega⟩, fun h => h.1⟩
  | succ n ih =>
    have hp := h p le_rfl (by omega)
    rw [List.range'_succ, countSources]
    have hcase : ∀ q, p ≤ q → q < p + (n + 1) → q = p ∨ (p + 1 ≤ q ∧ q < p + 1 + n) := by omega
    by_cases hpos : 0 < (M p).length
    · rw [if_pos (by rw [hp.num]; exact_mod_cast hpos), hp.tree hpos]
      simp only [bind, Option.bind]
      rw [hp.counts hpos, countsOf_eq]
      obtain ⟨s1, h1, h2, h3, h4, h5⟩ := countTrees_spec T (decide (p < rank)) (fun x => (leavesIn (M p) x).length)
        (nT p) (F p) s (fun x _ _ hx => by
          obtain ⟨y, hy, rfl⟩ := leavesIn_pos.mp hx
          exact (hp.bound y hy).2.2)
      rw [h1]
      simp only
      obtain ⟨s2, k1, k2, k3, k4, k5⟩ := ih (p + 1) s1 (fun q hq1 hq2 => h q (by omega) (by omega))
      have hadd : ∀ x, (if F p ≤ x ∧ x < F p + nT p then ((leavesIn (M p) x).length : ℤ) else 0) =
          (leavesIn (M p) x).length := by
        intro x
        split
        · rfl
        · rename_i hc
          have : leavesIn (M p) x = [] := leavesIn_eq_nil.mpr fun y hy => by
            have := hp.bound y hy; omega
          rw [this]; rfl
      refine ⟨s2, k1, fun x => ?_, fun x => ?_, fun z => ?_, fun z => ?_⟩
      · have e1 := k2 x
        have e2 := h2 x
        rw [hadd] at e2
        rw [fromBefore_succ] at e1
        rw [show p + 1 + n = p + (n + 1) by omega] at e1
        push_cast at e1; omega
      · have e1 := k3 x
        have e2 := h3 x
        have e3 := hadd x
        rw [show p + 1 + n = p + (n + 1) by omega] at e1
        by_cases hr : p < rank
        · simp only [hr, decide_true, and_true] at e2
          rw [e3] at e2
          rw [show min (p + 1) rank = p + 1 by omega, fromBefore_succ] at e1
          rw [show min p rank = p by omega]
          push_cast at e1; omega
        · simp only [hr, decide_false, Bool.false_eq_true, and_false, if_false] at e2
          rw [show min (p + 1) rank = rank by omega] at e1
          rw [show min p rank = rank by omega]
          omega
      · rw [k4, h4, and_assoc]
        refine and_congr_right fun _ => ⟨fun ⟨j1, j2⟩ q hq1 hq2 y hy => ?_, fun j => ⟨fun x _ _ hx => ?_, fun q hq1 hq2 => j q (by omega) (by omega)⟩⟩
        · rcases hcase q hq1 hq2 with rfl | hq
          · exact j1 y.1 (hp.bound y hy).1 (hp.bound y hy).2.1 (leavesIn_pos.mpr ⟨y, hy, rfl⟩)
          · exact j2 q hq.1 hq.2 y hy
        · obtain ⟨y, hy, rfl⟩ := leavesIn_pos.mp hx
          exact j p le_rfl (by omega) y hy
      · rw [k5, h5, and_assoc]
        refine and_congr_right fun _ => ⟨fun ⟨j1, j2⟩ q hq1 hq2 y hy => ?_, fun j => ⟨fun x _ _ hx => ?_, fun q hq1 hq2 => j q (by omega) (by omega)⟩⟩
        · rcases hcase q hq1 hq2 with rfl | hq
          · exact j1 y.1 (hp.bound y hy).1 (hp.bound y hy).2.1 (leavesIn_pos.mpr ⟨y, hy, rfl⟩)
          · exact j2 q hq.1 hq.2 y hy
        · obtain ⟨y, hy, rfl⟩ := leavesIn_pos.mp hx
          exact j p le_rfl (by omega) y hy
    · rw [if_neg (by rw [hp.num]; exact_mod_cast hpos)]
      have hnil : M p = [] := List.length_eq_zero_iff.mp (by omega)
      have hz : ∀ x, fromBefore M (p + 1) x = fromBefore M p x := fun x => by
        rw [fromBefore_succ, hnil]; simp [leavesIn]
      obtain ⟨s2, k1, k2, k3, k4, k5⟩ := ih (p + 1) s (fun q hq1 hq2 => h q (by omega) (by omega))
      refine ⟨s2, k1, fun x => ?_, fun x => ?_, fun z => ?_, fun z => ?_⟩
      · have e1 := k2 x
        rw [hz, show p + 1 + n = p + (n + 1) by omega] at e1
        exact e1
      · have e1 := k3 x
        rw [show p + 1 + n = p + (n + 1) by omega] at e1
        by_cases hr : p < rank
        · rw [show min (p + 1) rank = p + 1 by omega, hz] at e1
          rw [show min p rank = p by omega]; exact e1
        · rw [show min (p + 1) rank = rank by omega] at e1
          rw [show min p rank = rank by omega]; exact e1
      · rw [k4]
        refine and_congr_right fun _ => ⟨fun j q hq1 hq2 y hy => ?_, fun j q hq1 hq2 => j q (by omega) (by omega)⟩
        rcases hcase q hq1 hq2 with rfl | hq
        · rw [hnil] at hy; simp at hy
        · exact j q hq.1 hq.2 y hy
      · rw [k5]
        refine and_congr_right fun _ => ⟨fun j q hq1 hq2 y hy => ?_, fun j q hq1 hq2 => j q (by omega) (by omega)⟩
        rcases hcase q hq1 hq2 with rfl | hq
        · rw [hnil] at hy; simp at hy
        · exact j q hq.1 hq.2 y hy

/-! ### Arrays -/

theorem resize_length {γ : Type} (a : List (Option γ)) (n : ℕ) : (resize a n).length = n := by
  simp [resize]; omega

theorem resize_get {γ : Type} {a : List (Option γ)} {n j : ℕ} (h1 : j < a.length) (h2 : j < n) :
    (resize a n)[j]? = a[j]? := by
  unfold resize
  rw [List.getElem?_append_left (by simp; omega), List.getElem?_take, if_pos h2]

theorem overwrite_spec {γ : Type} {a piece : List γ} {b : ℕ} (h : b + piece.length ≤ a.length) :
    ∃ a', overwrite a (b : ℤ) piece = some a' ∧ a'.length = a.length ∧
      ∀ j, a'[j]? = if b ≤ j ∧ j < b + piece.length then piece[j - b]? else a[j]? := by
  unfold overwrite
  rw [if_pos (by omega)]
  refine ⟨_, rfl, by simp; omega, fun j => ?_⟩
  simp only [Int.toNat_natCast]
  rcases Nat.lt_or_ge j b with h1 | h1
  · rw [if_neg (by omega), List.append_assoc, List.getElem?_append_left (by simp; omega), List.getElem?_take, if_pos h1]
  · rcases Nat.lt_or_ge j (b + piece.length) with h2 | h2
    · rw [if_pos ⟨h1, h2⟩, List.getElem?_append_left (by simp; omega),
        List.getElem?_append_right (by simp; omega)]
      congr 1; simp; omega
    · rw [if_neg (by omega), List.getElem?_append_right (by simp; omega), List.getElem?_drop]
      congr 1; simp; omega

/-- The state of the arrays while leaves are filled in: `pre t` entries of tree `t` are complete, and those
of the rank itself are in place. -/
structure FillInv (T P rank : ℕ) (M : ℕ → List (ℕ × β)) (pre : ℕ → ℕ) (arrs : List (List (Option β))) : Prop where
  len : arrs.length = T
  tree : ∀ t, t < T → ∃ a, arrs[t]? = some a ∧
    (a.length = fromBefore M P t ∨ (a = [] ∧ pre t = 0 ∧ leavesIn (M rank) t = [])) ∧
    (∀ j, j < pre t → a[j]? = some ((newTree M P t)[j]?)) ∧
    (∀ j, fromBefore M rank t ≤ j → j < fromBefore M (rank + 1) t → a[j]? = some ((newTree M P t)[j]?))

theorem FillInv.own {T P rank : ℕ} {M : ℕ → List (ℕ × β)} {pre : ℕ → ℕ} {arrs : List (List (Option β))}
    (h : FillInv T P rank M pre arrs) {t : ℕ} (hpre : pre t = fromBefore M rank t) (hpos : 0 < (leavesIn (M rank) t).length) :
    FillInv T P rank M (Function.update pre t (pre t + (leavesIn (M rank) t).length)) arrs := by
  refine ⟨h.len, fun x hx => ?_⟩
  obtain ⟨a, h1, h2, h3, h4⟩ := h.tree x hx
  by_cases hxt : x = t
  · subst hxt
    refine ⟨a, h1, ?_, ?_, h4⟩
    · rcases h2 with h2 | h2
      · exact Or.inl h2
      · rw [h2.2.2] at hpos; simp at hpos
    · intro j hj
      rw [Function.update_self] at hj
      rcases Nat.lt_or_ge j (pre x) with hl | hl
      · exact h3 j hl
      · exact h4 j (by omega) (by rw [fromBefore_succ]; omega)
  · refine ⟨a, h1, ?_, ?_, h4⟩
    · rw [Function.update_of_ne hxt]; exact h2
    · rw [Function.update_of_ne hxt]; exact h3

theorem FillInv.write {T P rank : ℕ} {M : ℕ → List (ℕ × β)} {pre : ℕ → ℕ} {arrs : List (List (Option β))}
    (h : FillInv T P rank M pre arrs) {p t : ℕ} (hp : p < P) (hpr : p ≠ rank) (ht : t < T)
    (hpre : pre t = fromBefore M p t) :
    ∃ a a', arrs[t]? = some a ∧
      overwrite (resize a (fromBefore M P t)) (pre t : ℤ) ((leavesIn (M p) t).map some) = some a' ∧
      FillInv T P rank M (Function.update pre t (pre t + (leavesIn (M p) t).length)) (arrs.set t a') := by
  obtain ⟨a, h1, h2, h3, h4⟩ := h.tree t ht
  have hm1 := fromBefore_mono M (show p + 1 ≤ P by omega) t
  rw [fromBefore_succ] at hm1
  obtain ⟨a', k1, k2, k3⟩ := overwrite_spec (a := resize a (fromBefore M P t)) (piece := (leavesIn (M p) t).map some)
    (b := pre t) (by rw [resize_length, List.length_map]; omega)
  refine ⟨a, a', h1, k1, by rw [List.length_set]; exact h.len, fun x hx => ?_⟩
  by_cases hxt : x = t
  · subst hxt
    have hdisj : ∀ j, fromBefore M rank x ≤ j → j < fromBefore M (rank + 1) x →
        ¬ (pre x ≤ j ∧ j < pre x + (leavesIn (M p) x).length) := by
      intro j hj1 hj2
      rcases Nat.lt_or_ge p rank with hlt | hge
      · have := fromBefore_mono M (show p + 1 ≤ rank by omega) x
        rw [fromBefore_succ] at this; omega
      · have := fromBefore_mono M (show rank + 1 ≤ p by omega) x
        omega
    refine ⟨a', by rw [List.getElem?_set_self (by rw [h.len]; exact hx)], Or.inl (by rw [k2, resize_length]), ?_, ?_⟩
    · intro j hj
      rw [Function.update_self] at hj
      rw [k3, List.length_map]
      split
      · rename_i hc
        rw [List.getElem?_map]
        have := newTree_get (M := M) (P := P) (t := x) hp (j := j - pre x) (by omega)
        rw [← hpre, show pre x + (j - pre x) = j by omega] at this
        rw [this, List.getElem?_eq_getElem (by omega)]
        rfl
      · have hja : j < a.length := by
          rcases h2 with h2 | ⟨h2, h5, -⟩
          · omega
          · omega
        rw [resize_get hja (by omega)]
        exact h3 j (by omega)
    · intro j hj1 hj2
      rw [k3, List.length_map, if_neg (hdisj j hj1 hj2)]
      have h5 := h4 j hj1 hj2
      have hja : j < a.length := by
        rcases h2 with h2 | ⟨rfl, -, h6⟩
        · rw [h2]
          by_contra hc
          rw [List.getElem?_eq_none (by omega)] at h5
          simp at h5
        · simp at h5
      rw [resize_get hja (by
        rcases h2 with h2 | ⟨rfl, -, h6⟩
        · omega
        · simp at hja)]
      exact h5
  · obtain ⟨b, g1, g2, g3, g4⟩ := h.tree x hx
    refine ⟨b, by rw [List.getElem?_set_ne (fun hc => hxt hc.symm)]; exact g1, ?_, ?_, g4⟩
    · rw [Function.update_of_ne hxt]; exact g2
    · rw [Function.update_of_ne hxt]; exact g3

theorem fillTrees_spec {T P rank : ℕ} {M : ℕ → List (ℕ × β)} (new : NewCounts)
    (hnew : ∀ t, new.count t = fromBefore M P t) (p : ℕ) (hp : p < P) (n t : ℕ) (buf : List β)
    (hbuf : p ≠ rank → buf = (List.range' t n).flatMap (leavesIn (M p)))
    (hT : ∀ x ∈ M p, x.1 < T) (pre : ℕ → ℕ) (arrs : List (List (Option β))) (h : FillInv T P rank M pre arrs)
    (hpre : ∀ x, t ≤ x → x < t + n → pre x = fromBefore M p x) :
    ∃ pre' : ℕ → ℕ, ∃ arrs', fillTrees new (decide (p = rank))
        ((List.range' t n).map fun x => ((leavesIn (M p) x).length : ℤ)) t buf (fun x => (pre x : ℤ), arrs) =
        some (fun x => (pre' x : ℤ), arrs') ∧
      FillInv T P rank M pre' arrs' ∧
      ∀ x, pre' x = if t ≤ x ∧ x < t + n then fromBefore M (p + 1) x else pre x := by
  induction n generalizing t buf pre arrs with
  | zero =>
    refine ⟨pre, arrs, rfl, h, fun x => ?_⟩
    rw [if_neg (by omega)]
  | succ n ih =>
    rw [List.range'_succ, List.map_cons, fillTrees]
    have hcast : ((t : ℤ) + 1) = ((t + 1 : ℕ) : ℤ) := by push_cast; rfl
    have hiff : ∀ x, (t + 1 ≤ x ∧ x < t + 1 + n) ↔ (t ≤ x ∧ x < t + (n + 1)) ∧ x ≠ t := by omega
    have hpt := hpre t le_rfl (by omega)
    by_cases hpos : 0 < (leavesIn (M p) t).length
    · have htT : t < T := by
        obtain ⟨y, hy, rfl⟩ := leavesIn_pos.mp hpos
        exact hT y hy
      rw [if_pos (by exact_mod_cast hpos), if_neg (by omega)]
      have hupd : Function.update (fun x => (pre x : ℤ)) t ((pre t : ℤ) + (leavesIn (M p) t).length) =
          fun x => ((Function.update pre t (pre t + (leavesIn (M p) t).length) x : ℕ) : ℤ) := by
        funext x
        by_cases hx : x = t
        · subst hx; simp
        · simp [Function.update_of_ne hx]
      have hpre' : ∀ x, t + 1 ≤ x → x < t + 1 + n →
          Function.update pre t (pre t + (leavesIn (M p) t).length) x = fromBefore M p x := by
        intro x hx1 hx2
        rw [Function.update_of_ne (by omega)]
        exact hpre x (by omega) (by omega)
      have hfin : ∀ pre' : ℕ → ℕ, (∀ x, pre' x = if t + 1 ≤ x ∧ x < t + 1 + n then fromBefore M (p + 1) x else
          Function.update pre t (pre t + (leavesIn (M p) t).length) x) →
          ∀ x, pre' x = if t ≤ x ∧ x < t + (n + 1) then fromBefore M (p + 1) x else pre x := by
        intro pre' hpr x
        rw [hpr]
        by_cases hx : x = t
        · subst hx
          rw [if_neg (by omega), if_pos (by omega), Function.update_self, fromBefore_succ, hpt]
        · simp only [hiff, hx, ne_eq, not_false_eq_true, and_true, Function.update_of_ne hx]
      by_cases hown : p = rank
      · rw [if_pos (by simpa using hown)]
        simp only [Int.toNat_natCast]
        rw [hupd, hcast]
        subst hown
        obtain ⟨pre', arrs', k1, k2, k3⟩ := ih (t + 1) buf (fun hc => absurd rfl hc) _ arrs (h.own hpt hpos) hpre'
        exact ⟨pre', arrs', k1, k2, hfin pre' k3⟩
      · rw [if_neg (by simpa using hown)]
        obtain ⟨a, a', g1, g2, g3⟩ := h.write hp hown htT hpt
        have hb := hbuf hown
        rw [List.range'_succ, List.flatMap_cons] at hb
        simp only [Int.toNat_natCast]
        rw [g1]
        simp only [bind, Option.bind]
        have hcut : cut buf 0 ((leavesIn (M p) t).length : ℤ) = some (leavesIn (M p) t) := by
          unfold cut
          rw [if_pos ⟨le_rfl, by omega, by rw [hb, List.length_append]; push_cast; omega⟩, hb]
          simp
        rw [hcut]
        simp only
        rw [hnew, Int.toNat_natCast, g2]
        simp only
        rw [hupd, hcast]
        obtain ⟨pre', arrs', k1, k2, k3⟩ := ih (t + 1) (buf.drop (leavesIn (M p) t).length)
          (fun _ => by rw [hb]; simp) _ _ g3 hpre'
        exact ⟨pre', arrs', k1, k2, hfin pre' k3⟩
    · rw [if_neg (by push_cast; omega), hcast]
      have hnil : leavesIn (M p) t = [] := List.length_eq_zero_iff.mp (by omega)
      obtain ⟨pre', arrs', k1, k2, k3⟩ := ih (t + 1) buf (fun hc => by
          rw [hbuf hc, List.range'_succ, List.flatMap_cons, hnil, List.nil_append]) pre arrs h
        (fun x hx1 hx2 => hpre x (by omega) (by omega))
      refine ⟨pre', arrs', k1, k2, fun x => ?_⟩
      rw [k3]
      by_cases hx : x = t
      · subst hx
        rw [if_neg (by omega), if_pos (by omega), hpt, fromBefore_succ, hnil]; rfl
      · simp only [hiff, hx, ne_eq, not_false_eq_true, and_true]

theorem fillSources_spec {T P rank : ℕ} {gfpTree : List ℤ} {M : ℕ → List (ℕ × β)} {num : ℕ → ℤ} {counts : ℕ → List ℤ}
    {F nT : ℕ → ℕ} (new : NewCounts) (hnew : ∀ t, new.count t = fromBefore M P t) (bufs : ℕ → List β)
    (n p : ℕ) (hn : p + n ≤ P) (h : ∀ q, p ≤ q → q < p + n → Sources T gfpTree M num counts F nT q)
    (hs : ∀ q, p ≤ q → q < p + n → TreeSorted (M q))
    (hb : ∀ q, p ≤ q → q < p + n → 0 < (M q).length → q ≠ rank → bufs q = (M q).map Prod.snd)
    (arrs : List (List (Option β))) (hinv : FillInv T P rank M (fromBefore M p) arrs) :
    ∃ pre' : ℕ → ℕ, ∃ arrs', fillSources gfpTree rank new num counts bufs (List.range' p n)
        (fun x => (fromBefore M p x : ℤ), arrs) = some (fun x => (pre' x : ℤ), arrs') ∧
      FillInv T P rank M pre' arrs' ∧ pre' = fromBefore M (p + n) := by
  induction n generalizing p arrs with
  | zero => exact ⟨_, arrs, rfl, hinv, rfl⟩
  | succ n ih =>
    have hp := h p le_rfl (by omega)
    rw [List.range'_succ, fillSources]
    by_cases hpos : 0 < (M p).length
    · rw [if_pos (by rw [hp.num]; exact_mod_cast hpos), hp.tree hpos]
      simp only [bind, Option.bind]
      rw [hp.counts hpos, countsOf_eq]
      obtain ⟨pre1, arrs1, h1, h2, h3⟩ := fillTrees_spec new hnew p (by omega) (nT p) (F p) (bufs p)
        (fun hc => by
          rw [hb p le_rfl (by omega) hpos hc, (hs p le_rfl (by omega)).map_snd (F p) (nT p)
            (fun x hx => ⟨(hp.bound x hx).1, (hp.bound x hx).2.1⟩), List.range'_eq_map_range, List.flatMap_map])
        (fun x hx => (hp.bound x hx).2.2) _ arrs hinv (fun x _ _ => rfl)
      rw [h1]
      simp only
      have hpre1 : pre1 = fromBefore M (p + 1) := by
        funext x
        rw [h3]
        split
        · rfl
        · rename_i hc
          rw [fromBefore_succ, leavesIn_eq_nil.mpr fun y hy => by have := hp.bound y hy; omega]
          rfl
      subst hpre1
      obtain ⟨pre', arrs', k1, k2, k3⟩ := ih (p + 1) (by omega) (fun q hq1 hq2 => h q (by omega) (by omega))
        (fun q hq1 hq2 => hs q (by omega) (by omega)) (fun q hq1 hq2 => hb q (by omega) (by omega)) arrs1 h2
      exact ⟨pre', arrs', k1, k2, by rw [k3, show p + 1 + n = p + (n + 1) by omega]⟩
    · rw [if_neg (by rw [hp.num]; exact_mod_cast hpos)]
      have hnil : M p = [] := List.length_eq_zero_iff.mp (by omega)
      have hz : fromBefore M (p + 1) = fromBefore M p := funext fun x => by
        rw [fromBefore_succ, hnil]; simp [leavesIn]
      rw [← hz]
      obtain ⟨pre', arrs', k1, k2, k3⟩ := ih (p + 1) (by omega) (fun q hq1 hq2 => h q (by omega) (by omega))
        (fun q hq1 hq2 => hs q (by omega) (by omega)) (fun q hq1 hq2 => hb q (by omega) (by omega)) arrs
        (by rw [hz]; exact hinv)
      exact ⟨pre', arrs', k1, k2, by rw [k3, show p + 1 + n = p + (n + 1) by omega]⟩


/-! ### Keeping local leaves -/

/-- What is known of the array of tree `t` after the local leaves are in place. -/
def KeptTree (P rank : ℕ) (M : ℕ → List (ℕ × β)) (t : ℕ) (a : List (Option β)) : Prop :=
  (a.length = fromBefore M P t ∨ (a = [] ∧ leavesIn (M rank) t = [])) ∧
    ∀ j, fromBefore M rank t ≤ j → j < fromBefore M (rank + 1) t → a[j]? = some ((newTree M P t)[j]?)

theorem keptTree_nil {P rank : ℕ} {M : ℕ → List (ℕ × β)} {t : ℕ} (h : leavesIn (M rank) t = []) :
    KeptTree P rank M t [] :=
  ⟨Or.inr ⟨rfl, h⟩, fun j h1 h2 => by
    rw [fromBefore_succ, h] at h2
    simp only [List.length_nil] at h2; omega⟩

theorem keepTree_spec {T P rank : ℕ} {M : ℕ → List (ℕ × β)} {L : List (ℕ × β)} {rt : RankTrees β} (h : Holds T L rt)
    (hr : rank < P) (b e : ℕ) (hbe : b ≤ e) (hM : M rank = slice b e L) (new : NewCounts)
    (mb me : ℤ) (hm : (mb = b ∧ me = (e : ℤ) - 1) ∨ (M rank = [] ∧ me < 0))
    (t : ℕ) (ht : t < T) (hcount : new.count t = fromBefore M P t) (hbefore : new.before t = fromBefore M rank t) :
    ∃ a', keepTree rt new mb me t ((leavesIn L t).map some) = some a' ∧ KeptTree P rank M t a' := by
  have hle1 := fromBefore_succ M rank t
  have hle2 := fromBefore_mono M (show rank + 1 ≤ P by omega) t
  have hnonlocal : ¬ (rt.first ≤ t ∧ t ≤ rt.last) → leavesIn L t = [] := fun hc =>
    leavesIn_eq_nil.mpr fun x hx hxt => hc (hxt ▸ h.bounds hx)
  have hsub : leavesIn L t = [] → leavesIn (M rank) t = [] := fun hc => by
    rw [leavesIn_eq_nil] at hc ⊢
    intro x hx
    rw [hM] at hx
    exact hc x ((slice_sublist b e L).subset hx)
  unfold keepTree
  by_cases hpos : new.count t > 0
  · rw [if_pos hpos]
    by_cases hloc : rt.first ≤ t ∧ t ≤ rt.last
    · rw [if_pos hloc]
      have hne : L ≠ [] := by
        rintro rfl
        have := h.empty; omega
      have h0 := h.nonempty hne
      have hidx : rt.first.toNat + (t - rt.first.toNat) = t := by omega
      rw [fromRange_spec h hne _ (by rw [hidx]; exact ht), hidx, cum_succ (h.get ht)]
      simp only [bind, Option.bind]
      obtain ⟨k, hk⟩ : ∃ part, part = treePart mb me (cum rt.trees t : ℤ)
          (((cum rt.trees t + (leavesIn L t).length : ℕ) : ℤ) - 1) := ⟨_, rfl⟩
      rw [← hk]
      -- the part of the tree
      have hcut : cut ((leavesIn L t).map some) k.1 k.2 = some ((leavesIn (M rank) t).map some) := by
        rcases hm with ⟨rfl, rfl⟩ | ⟨hnil, hme⟩
        · have := (treePart_spec ((leavesIn L t).map some) b e (cum rt.trees t) (b : ℤ) hbe le_rfl (by omega)).2
          rw [List.length_map] at this
          rw [hk, this, slice_map, ← leavesIn_slice h b e ht, hM]
        · have : k = (0, 0) := by
            rw [hk]; unfold treePart; rw [if_neg (by omega)]
          rw [this, hnil]
          simp [cut, leavesIn]
      have hcut' : ∀ a1 : List (Option β), a1 = (if new.count t > ((leavesIn L t).map some).length then
          resize ((leavesIn L t).map some) (new.count t).toNat else (leavesIn L t).map some) →
          cut a1 k.1 k.2 = some ((leavesIn (M rank) t).map some) ∧ fromBefore M P t ≤ a1.length := by
        intro a1 ha1
        split at ha1
        · rename_i hgt
          constructor
          · have h5 : 0 ≤ k.1 ∧ 0 ≤ k.2 ∧ k.1 + k.2 ≤ ((leavesIn L t).map some).length := by
              by_contra hc
              rw [cut, if_neg hc] at hcut
              simp at hcut
            rw [cut, if_pos h5] at hcut
            rw [ha1, cut, if_pos (by rw [resize_length]; omega), ← hcut]
            congr 1
            apply List.ext_getElem?
            intro j
            simp only [List.getElem?_take, List.getElem?_drop]
            split
            · exact resize_get (by omega) (by omega)
            · rfl
          · rw [ha1, resize_length]; omega
        · exact ⟨by rw [ha1]; exact hcut, by rw [ha1]; omega⟩
      obtain ⟨a1, ha1⟩ : ∃ a1, a1 = (if new.count t > ((leavesIn L t).map some).length then
          resize ((leavesIn L t).map some) (new.count t).toNat else (leavesIn L t).map some) := ⟨_, rfl⟩
      rw [← ha1]
      obtain ⟨hc1, hc2⟩ := hcut' a1 ha1
      rw [hc1]
      simp only
      obtain ⟨a2, g1, g2, g3⟩ := overwrite_spec (a := a1) (piece := (leavesIn (M rank) t).map some)
        (b := fromBefore M rank t) (by rw [List.length_map]; omega)
      rw [hbefore, g1]
      simp only
      refine ⟨_, rfl, Or.inl ?_, ?_⟩
      · split
        · rw [resize_length]; omega
        · omega
      · intro j hj1 hj2
        have ha2 : a2[j]? = some ((newTree M P t)[j]?) := by
          rw [g3, List.length_map, if_pos (by omega), List.getElem?_map]
          have := newTree_get (M := M) (P := P) (t := t) hr (j := j - fromBefore M rank t) (by omega)
          rw [show fromBefore M rank t + (j - fromBefore M rank t) = j by omega] at this
          rw [this, List.getElem?_eq_getElem (by omega)]
          rfl
        split
        · rw [resize_get (by omega) (by omega)]; exact ha2
        · exact ha2
    · rw [if_neg hloc, hnonlocal hloc]
      exact ⟨_, rfl, keptTree_nil (hsub (hnonlocal hloc))⟩
  · rw [if_neg hpos]
    have hown : leavesIn (M rank) t = [] := List.length_eq_zero_iff.mp (by omega)
    split
    · exact ⟨_, rfl, keptTree_nil hown⟩
    · rename_i hloc
      rw [hnonlocal hloc]
      exact ⟨_, rfl, keptTree_nil hown⟩

theorem keepLoop_spec {rt : RankTrees β} {new : NewCounts} {mb me : ℤ} {T : ℕ} (K : ℕ → List (Option β) → Prop)
    (orig : ℕ → List (Option β))
    (hk : ∀ t, t < T → ∃ a', keepTree rt new mb me t (orig t) = some a' ∧ K t a')
    (n t : ℕ) (arrs : List (List (Option β))) (hlen : arrs.length = T) (hn : n = 0 ∨ t + n ≤ T)
    (horig : ∀ x, t ≤ x → x < t + n → arrs[x]? = some (orig x)) :
    ∃ arrs', keepLoop rt new mb me n t arrs = some arrs' ∧ arrs'.length = T ∧
      (∀ x, t ≤ x → x < t + n → ∃ a, arrs'[x]? = some a ∧ K x a) ∧
      (∀ x, ¬ (t ≤ x ∧ x < t + n) → arrs'[x]? = arrs[x]?) := by
  induction n generalizing t arrs with
  | zero => exact ⟨arrs, rfl, hlen, fun x h1 h2 => by omega, fun x _ => rfl⟩
  | succ n ih =>
    rw [keepLoop, horig t le_rfl (by omega)]
    obtain ⟨a', h1, h2⟩ := hk t (by omega)
    simp only [bind, Option.bind]
    rw [h1]
    simp only
    obtain ⟨arrs', k1, k2, k3, k4⟩ := ih (t + 1) (arrs.set t a') (by rw [List.length_set]; exact hlen) (by omega)
      (fun x hx1 hx2 => by rw [List.getElem?_set_ne (by omega)]; exact horig x (by omega) (by omega))
    refine ⟨arrs', k1, k2, fun x hx1 hx2 => ?_, fun x hx => ?_⟩
    · by_cases hx : x = t
      · subst hx
        exact ⟨a', by rw [k4 x (by omega), List.getElem?_set_self (by omega)], h2⟩
      · exact k3 x (by omega) (by omega)
    · rw [k4 x (by omega), List.getElem?_set_ne (by omega)]

/-! ### The whole rank -/

theorem mapM_some {γ δ : Type} {f : γ → Option δ} {g : γ → δ} {l : List γ} (h : ∀ x ∈ l, f x = some (g x)) :
    l.mapM f = some (l.map g) := by
  induction l with
  | nil => rfl
  | cons x l ih =>
    rw [List.mapM_cons, h x (by simp), ih (fun y hy => h y (by simp [hy]))]
    rfl

theorem initialised_map_some (l : List β) : initialised (l.map some) = some l := by
  unfold initialised
  induction l with
  | nil => rfl
  | cons x l ih => rw [List.map_cons, List.mapM_cons, ih]; rfl

/-- First and last tree found while counting. -/
theorem newBounds {N : List (ℕ × β)} (hN : TreeSorted N) (hT : ∀ x ∈ N, (x.1 : ℤ) ≤ topidxMax) {first last : ℤ}
    (hf : ∀ z : ℤ, z ≤ first ↔ z ≤ topidxMax ∧ ∀ x ∈ N, z ≤ x.1)
    (hl : ∀ z : ℤ, last ≤ z ↔ 0 ≤ z ∧ ∀ x ∈ N, (x.1 : ℤ) ≤ z) :
    (if first > last then (-1 : ℤ) else first) = N.head?.elim (-1) (fun x => (x.1 : ℤ)) ∧
    (if first > last then (-2 : ℤ) else last) = N.getLast?.elim (-2) (fun x => (x.1 : ℤ)) := by
  rcases List.eq_nil_or_concat N with rfl | ⟨N', y, hy⟩
  · have h1 := (hf topidxMax).mpr ⟨le_rfl, by simp⟩
    have h2 := (hl 0).mpr ⟨le_rfl, by simp⟩
    have : (0:ℤ) < topidxMax := by unfold topidxMax; norm_num
    rw [if_pos (by omega), if_pos (by omega)]
    exact ⟨rfl, rfl⟩
  · have hy' : N = N' ++ [y] := by simpa using hy
    have hym : y ∈ N := by rw [hy']; simp
    have hylast : ∀ x ∈ N, x.1 ≤ y.1 := by
      intro x hx
      rw [hy'] at hx hN
      rcases List.mem_append.mp hx with hx | hx
      · exact (List.pairwise_append.mp hN).2.2 x hx y (by simp)
      · simp only [List.mem_singleton] at hx; rw [hx]
    have hlast : last = y.1 := by
      apply le_antisymm
      · exact (hl _).mpr ⟨by positivity, fun x hx => by exact_mod_cast hylast x hx⟩
      · exact ((hl last).mp le_rfl).2 y hym
    obtain ⟨x, N'', hx⟩ := List.exists_cons_of_ne_nil (List.ne_nil_of_mem hym)
    have hxm : x ∈ N := by rw [hx]; simp
    have hxfirst : ∀ w ∈ N, x.1 ≤ w.1 := by
      intro w hw
      rw [hx] at hw hN
      rcases List.mem_cons.mp hw with rfl | hw
      · exact le_rfl
      · exact (List.pairwise_cons.mp hN).1 w hw
    have hfirst : first = x.1 := by
      apply le_antisymm
      · exact ((hf first).mp le_rfl).2 x hxm
      · exact (hf _).mpr ⟨hT x hxm, fun w hw => by exact_mod_cast hxfirst w hw⟩
    have := hxfirst y hym
    rw [if_neg (by omega), if_neg (by omega), hfirst, hlast]
    constructor
    · rw [hx]; rfl
    · rw [hy']; simp

theorem fillIn_spec {T P rank : ℕ} {gfpTree : List ℤ} {M : ℕ → List (ℕ × β)} {L : List (ℕ × β)} {rt : RankTrees β}
    (h : Holds T L rt) (hr : rank < P) (b e : ℕ) (hbe : b ≤ e) (hM : M rank = slice b e L)
    (recv send : Overlap) (base start : ℤ) (local_ : List ℤ) (msgs : ℕ → Option (Message β)) (F nT : ℕ → ℕ)
    (hlohi : recv.lo ≤ recv.hi) (hhi : recv.hi < P)
    (hout : ∀ p, p < P → ¬ (recv.lo ≤ p ∧ p ≤ recv.hi) → M p = [])
    (hsrc : ∀ q, recv.lo ≤ q → q ≤ recv.hi → Sources T gfpTree M recv.num
      (fun p => if p = rank then local_ else (msgs p).elim [] Message.counts) F nT q)
    (hbuf : ∀ q, recv.lo ≤ q → q ≤ recv.hi → 0 < (M q).length → q ≠ rank →
      (msgs q).elim [] Message.leaves = (M q).map Prod.snd)
    (hstart : ownStart send rank = some start)
    (hm : (start - base = b ∧ start + send.num rank - 1 - base = (e : ℤ) - 1) ∨
      (M rank = [] ∧ start + send.num rank - 1 - base < 0))
    (hN : TreeSorted ((List.range P).flatMap M)) (hNT : ∀ x ∈ (List.range P).flatMap M, x.1 < T)
    (hT : (T : ℤ) ≤ topidxMax) :
    ∃ rt', fillIn gfpTree rank rt recv send base local_ msgs = some rt' ∧ Holds T ((List.range P).flatMap M) rt' := by
  unfold fillIn
  simp only [bind, Option.bind]
  obtain ⟨nc, h1, h2, h3, h4, h5⟩ := countSources_spec T gfpTree M recv.num
    (fun p => if p = rank then local_ else (msgs p).elim [] Message.counts) F nT rank (recv.hi + 1 - recv.lo) recv.lo
    ⟨fun _ => 0, fun _ => 0, topidxMax, 0⟩ (fun q hq1 hq2 => hsrc q hq1 (by omega))
  rw [h.trees, h1]
  simp only
  have hwin : recv.lo + (recv.hi + 1 - recv.lo) = recv.hi + 1 := by omega
  have hmem : ∀ (Q : ℕ × β → Prop), (∀ q, recv.lo ≤ q → q < recv.lo + (recv.hi + 1 - recv.lo) → ∀ x ∈ M q, Q x) ↔
      ∀ x ∈ (List.range P).flatMap M, Q x := by
    intro Q
    constructor
    · intro hq x hx
      obtain ⟨p, hp, hx⟩ := List.mem_flatMap.mp hx
      rw [List.mem_range] at hp
      by_cases hc : recv.lo ≤ p ∧ p ≤ recv.hi
      · exact hq p hc.1 (by omega) x hx
      · rw [hout p hp hc] at hx; simp at hx
    · intro hq p hp1 hp2 x hx
      exact hq x (List.mem_flatMap.mpr ⟨p, List.mem_range.mpr (by omega), hx⟩)
  have hlo : ∀ t, fromBefore M recv.lo t = 0 := fun t => by
    rw [fromBefore_const (M := M) (Nat.zero_le recv.lo) (fun r _ h7 => hout r (by omega) (by omega)) t]
    simp [fromBefore]
  have hcount : ∀ t, nc.count t = fromBefore M P t := fun t => by
    have := h2 t
    rw [hlo, hwin] at this
    rw [fromBefore_const (show recv.hi + 1 ≤ P by omega) (fun r h6 h7 => hout r h7 (by omega)) t]
    simp only [Nat.cast_zero] at this; omega
  have hbefore : ∀ t, nc.before t = fromBefore M rank t := fun t => by
    have := h3 t
    rw [hwin] at this
    have e1 : fromBefore M (min recv.lo rank) t = 0 := by
      have h6 := fromBefore_mono M (show min recv.lo rank ≤ recv.lo by omega) t
      rw [hlo] at h6; omega
    have e2 : fromBefore M (min (recv.hi + 1) rank) t = fromBefore M rank t := by
      rcases Nat.lt_or_ge rank (recv.hi + 1) with h6 | h6
      · rw [show min (recv.hi + 1) rank = rank by omega]
      · rw [show min (recv.hi + 1) rank = recv.hi + 1 by omega]
        exact (fromBefore_const h6 (fun r h7 h8 => hout r (by omega) (by omega)) t).symm
    rw [e1, e2] at this
    simp only [Nat.cast_zero] at this; omega
  obtain ⟨hf, hl⟩ := newBounds hN (fun x hx => by have := hNT x hx; omega)
    (fun z => by rw [h4 z, hmem fun x => z ≤ x.1]) (fun z => by rw [h5 z, hmem fun x => (x.1 : ℤ) ≤ z])
  obtain ⟨new, hnew⟩ : ∃ new : NewCounts, new = (if nc.first > nc.last then { nc with first := -1, last := -2 } else nc) :=
    ⟨_, rfl⟩
  have n1 : ∀ t, new.count t = fromBefore M P t := fun t => by rw [hnew]; split <;> exact hcount t
  have n2 : ∀ t, new.before t = fromBefore M rank t := fun t => by rw [hnew]; split <;> exact hbefore t
  have n3 : new.first = ((List.range P).flatMap M).head?.elim (-1) (fun x => (x.1 : ℤ)) := by
    rw [← hf, hnew]; split <;> rfl
  have n4 : new.last = ((List.range P).flatMap M).getLast?.elim (-2) (fun x => (x.1 : ℤ)) := by
    rw [← hl, hnew]; split <;> rfl
  rw [← hnew]
  -- the result has the right form
  have hres : Holds T ((List.range P).flatMap M) ⟨(List.range T).map (newTree M P), new.first, new.last⟩ := by
    refine ⟨by simp, ?_, n3, n4⟩
    have : newTree M P = leavesIn ((List.range P).flatMap M) := funext fun t => (leavesIn_flatMap P t M).symm
    rw [this]
    exact (hN.eq_forest T hNT).symm
  have hb1 : (rt.first = -1 ∧ rt.last = -2 ∧ L = []) ∨ (0 ≤ rt.first ∧ rt.first ≤ rt.last ∧ rt.last < T) := by
    rcases List.eq_nil_or_concat L with rfl | ⟨_, _, hc⟩
    · exact Or.inl ⟨h.first, h.last, rfl⟩
    · exact Or.inr (h.nonempty (by rw [hc]; simp))
  have hb2 : (new.first = -1 ∧ new.last = -2) ∨ (0 ≤ new.first ∧ new.first ≤ new.last ∧ new.last < T) := by
    rcases List.eq_nil_or_concat ((List.range P).flatMap M) with hc | ⟨_, _, hc⟩
    · left
      rw [n3, n4, hc]
      exact ⟨rfl, rfl⟩
    · exact Or.inr (hres.nonempty (by rw [hc]; simp))
  -- keep local leaves
  have hkeep : ∃ arrs, keepLocal rt new send rank base = some arrs ∧ FillInv T P rank M (fun _ => 0) arrs := by
    unfold keepLocal
    simp only [bind, Option.bind]
    rw [hstart]
    simp only
    obtain ⟨ft, hft⟩ : ∃ ft, ft = (if rt.first ≥ 0 ∧ new.first ≥ 0 then min rt.first new.first else max rt.first new.first) :=
      ⟨_, rfl⟩
    rw [← hft]
    have horig : ∀ x, x < T → (rt.trees.map (·.map some))[x]? = some ((leavesIn L x).map some) := fun x hx => by
      rw [List.getElem?_map, h.get hx]; rfl
    have hrange : (max rt.last new.last - ft + 1).toNat = 0 ∨
        ft.toNat + (max rt.last new.last - ft + 1).toNat ≤ T := by
      rw [hft]; split <;> omega
    obtain ⟨arrs, k1, k2, k3, k4⟩ := keepLoop_spec (T := T) (KeptTree P rank M) (fun t => (leavesIn L t).map some)
      (fun t ht => keepTree_spec h hr b e hbe hM new _ _ hm t ht (n1 t) (n2 t))
      (max rt.last new.last - ft + 1).toNat ft.toNat (rt.trees.map (·.map some)) (by rw [List.length_map, h.trees])
      hrange (fun x hx1 hx2 => horig x (by omega))
    refine ⟨arrs, k1, k2, fun t ht => ?_⟩
    by_cases hc : ft.toNat ≤ t ∧ t < ft.toNat + (max rt.last new.last - ft + 1).toNat
    · obtain ⟨a, g1, g2, g3⟩ := k3 t hc.1 hc.2
      exact ⟨a, g1, g2.imp id (fun g => ⟨g.1, rfl, g.2⟩), fun j hj => by omega, g3⟩
    · have hnil : leavesIn L t = [] := leavesIn_eq_nil.mpr fun x hx hxt => by
        have h6 := h.bounds hx
        rw [hxt] at h6
        apply hc
        rw [hft]
        rcases hb1 with ⟨-, -, rfl⟩ | hb1
        · simp at hx
        · split <;> omega
      have hown : leavesIn (M rank) t = [] := by
        rw [leavesIn_eq_nil] at hnil ⊢
        intro x hx
        rw [hM] at hx
        exact hnil x ((slice_sublist b e L).subset hx)
      have hk := keptTree_nil (P := P) hown
      exact ⟨[], by rw [k4 t hc, horig t ht, hnil]; rfl, Or.inr ⟨rfl, rfl, hown⟩, fun j hj => by omega, hk.2⟩
  obtain ⟨arrs, hk1, hk2⟩ := hkeep
  rw [hk1]
  simp only
  have hz : (fun _ => 0 : ℕ → ℤ) = fun x => (fromBefore M recv.lo x : ℤ) := funext fun x => by rw [hlo]; rfl
  rw [hz]
  obtain ⟨pre', arrs', g1, g2, g3⟩ := fillSources_spec (rank := rank) (gfpTree := gfpTree) (num := recv.num)
    (counts := fun p => if p = rank then local_ else (msgs p).elim [] Message.counts)
    (F := F) (nT := nT) new n1
    (fun p => (msgs p).elim [] Message.leaves) (recv.hi + 1 - recv.lo) recv.lo (by omega)
    (fun q hq1 hq2 => hsrc q hq1 (by omega))
    (fun q hq1 hq2 => by
      have hsub : (M q).Sublist ((List.range P).flatMap M) := by
        rw [List.flatMap_def]
        exact List.sublist_flatten_of_mem (List.mem_map.mpr ⟨q, List.mem_range.mpr (by omega), rfl⟩)
      exact List.Pairwise.sublist hsub hN)
    (fun q hq1 hq2 => hbuf q hq1 (by omega)) arrs
    (by
      have : fromBefore M recv.lo = fun _ => 0 := funext fun x => hlo x
      rw [this]; exact hk2)
  rw [g1]
  simp only
  have hfin : arrs' = (List.range T).map fun t => (newTree M P t).map some := by
    apply List.ext_getElem?
    intro t
    rw [List.getElem?_map]
    rcases Nat.lt_or_ge t T with ht | ht
    · rw [List.getElem?_range ht]
      obtain ⟨a, m1, m2, m3, -⟩ := g2.tree t ht
      rw [m1]
      simp only [Option.map_some, Option.some.injEq]
      have hpre : pre' t = fromBefore M P t := by
        rw [g3, hwin, fromBefore_const (show recv.hi + 1 ≤ P by omega) (fun r h6 h7 => hout r h7 (by omega)) t]
      have hla : a.length = fromBefore M P t := by
        rcases m2 with m2 | ⟨m2, m4, -⟩
        · exact m2
        · rw [m2, ← hpre, m4]; rfl
      apply List.ext_getElem?
      intro j
      rcases Nat.lt_or_ge j (fromBefore M P t) with hj | hj
      · rw [m3 j (by omega), List.getElem?_map, List.getElem?_eq_getElem (by rw [newTree_length]; exact hj)]
        rfl
      · rw [List.getElem?_eq_none (by omega), List.getElem?_eq_none (by rw [List.length_map, newTree_length]; exact hj)]
    · rw [List.getElem?_eq_none (by rw [g2.len]; exact ht), List.getElem?_eq_none (by simpa using ht)]
      rfl
  rw [hfin, List.mapM_map, mapM_some (f := initialised ∘ _) (g := newTree M P) (fun t _ => initialised_map_some _)]
  exact ⟨_, rfl, hres⟩

end P4est
