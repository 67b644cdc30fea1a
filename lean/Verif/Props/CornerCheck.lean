import Verif.Lemmas.CornerTargets
import Verif.Props.Ghost
import Verif.Model.CornerCheck

/-! # C59: the check of the corner tables -/

namespace P4est
open Spec

theorem checkAll_iff {β : Type} {f : β → Option Bool} : ∀ {l : List β}, checkAll f l = some true ↔ ∀ x ∈ l, f x = some true := by
  intro l
  induction l with
  | nil => simp [checkAll]
  | cons a l ih =>
    rw [checkAll]
    cases h : f a with
    | none => simp [h]
    | some b =>
      cases b with
      | false => simp [h]
      | true => simp [h, ih]

/-- Checks that are all defined yield a value. -/
theorem checkAll_some {β : Type} {f : β → Option Bool} : ∀ {l : List β}, (∀ x ∈ l, ∃ b, f x = some b) → ∃ b, checkAll f l = some b := by
  intro l
  induction l with
  | nil => intro _; exact ⟨true, rfl⟩
  | cons a l ih =>
    intro h
    obtain ⟨b, hb⟩ := h a (by simp)
    obtain ⟨b', hb'⟩ := ih fun x hx => h x (by simp [hx])
    rw [checkAll, hb]
    cases b with
    | false => exact ⟨false, rfl⟩
    | true => exact ⟨b', hb'⟩

section

variable {conn : FaceConn} {cc : CornerConn}

/-- The entry at position `j` of the lists. -/
def entryAt (cc : CornerConn) (j t c : ℕ) : Prop := cc.cornerToTree[j]? = some t ∧ cc.cornerToCorner[j]? = some c

/-- The loop over a list, with all entries in range. -/
theorem cornerList_spec {t c : ℕ} {v : ℤ} : ∀ {l : List ℕ} {s0 : Option Bool}, l.Nodup →
    (∀ j ∈ l, ∃ t' c' w, entryAt cc j t' c' ∧ cc.treeToCorner[4 * t' + c']? = some w) →
    ∃ s, l.foldlM (cornerListStep cc t c v) s0 = some s ∧
      (s = some true ↔ s0 ≠ none ∧ (∀ j ∈ l, ∀ t' c', entryAt cc j t' c' → cc.treeToCorner[4 * t' + c']? = some v) ∧
        ((s0 = some true ∧ ∀ j ∈ l, ¬ entryAt cc j t c) ∨
         (s0 = some false ∧ ∃ j ∈ l, entryAt cc j t c ∧ ∀ i ∈ l, entryAt cc i t c → i = j))) := by
  intro l
  induction l with
  | nil => intro s0 _ _; refine ⟨s0, rfl, ?_⟩; cases s0 <;> simp
  | cons j l ih =>
    intro s0 hnd h
    rw [List.nodup_cons] at hnd
    obtain ⟨t', c', w, ⟨h1, h2⟩, h3⟩ := h j (by simp)
    have hl : ∀ i ∈ l, ∃ t' c' w, entryAt cc i t' c' ∧ cc.treeToCorner[4 * t' + c']? = some w := fun i hi => h i (by simp [hi])
    have huniq : ∀ t1 c1, entryAt cc j t1 c1 → t1 = t' ∧ c1 = c' := by
      rintro t1 c1 ⟨k1, k2⟩
      rw [h1, Option.some.injEq] at k1
      rw [h2, Option.some.injEq] at k2
      exact ⟨k1.symm, k2.symm⟩
    rw [List.foldlM_cons]
    cases s0 with
    | none =>
      obtain ⟨s, k1, k2⟩ := ih (s0 := none) hnd.2 hl
      refine ⟨s, k1, ?_⟩
      rw [k2]; simp
    | some found =>
      have hstep : cornerListStep cc t c v (some found) j = if w ≠ v then some none
          else if t' = t ∧ c' = c then some (if found then none else some true) else some (some found) := by
        unfold cornerListStep
        simp only [h1, h2, Option.bind_eq_bind, Option.bind_some]
        rw [Nat.mul_comm t', h3]
        rfl
      rw [hstep]
      by_cases hw : w ≠ v
      · rw [if_pos hw]
        obtain ⟨s, k1, k2⟩ := ih (s0 := none) hnd.2 hl
        refine ⟨s, k1, ?_⟩
        rw [k2]
        simp only [ne_eq, not_true_eq_false, false_and, false_iff, not_and]
        intro _ hall
        have := hall j (by simp) t' c' ⟨h1, h2⟩
        rw [h3, Option.some.injEq] at this
        exact absurd this hw
      · rw [if_neg hw]
        push Not at hw
        have hjall : ∀ t1 c1, entryAt cc j t1 c1 → cc.treeToCorner[4 * t1 + c1]? = some v := by
          intro t1 c1 k
          obtain ⟨rfl, rfl⟩ := huniq _ _ k
          rw [h3, hw]
        by_cases hs : t' = t ∧ c' = c
        · rw [if_pos hs]
          obtain ⟨rfl, rfl⟩ := hs
          cases found with
          | true =>
            obtain ⟨s, k1, k2⟩ := ih (s0 := none) hnd.2 hl
            refine ⟨s, k1, ?_⟩
            rw [k2]
            constructor
            · rintro ⟨k, -⟩; exact absurd rfl k
            · rintro ⟨-, -, ⟨-, k⟩ | ⟨k, -⟩⟩
              · exact absurd ⟨h1, h2⟩ (k j (by simp))
              · cases k
          | false =>
            obtain ⟨s, k1, k2⟩ := ih (s0 := some true) hnd.2 hl
            refine ⟨s, k1, ?_⟩
            rw [k2]
            constructor
            · rintro ⟨-, ha, ⟨-, hb⟩ | ⟨hb, -⟩⟩
              · refine ⟨by simp, fun i hi => ?_, Or.inr ⟨rfl, j, by simp, ⟨h1, h2⟩, fun i hi hie => ?_⟩⟩
                · rcases List.mem_cons.mp hi with rfl | hi
                  · exact hjall
                  · exact ha i hi
                · rcases List.mem_cons.mp hi with rfl | hi
                  · rfl
                  · exact absurd hie (hb i hi)
              · cases hb
            · rintro ⟨-, ha, ⟨hb, -⟩ | ⟨-, i, hi, hie, hu⟩⟩
              · cases hb
              · refine ⟨by simp, fun i hi => ha i (by simp [hi]), Or.inl ⟨rfl, fun m hm hme => ?_⟩⟩
                have e1 := hu j (by simp) ⟨h1, h2⟩
                have e2 := hu m (by simp [hm]) hme
                rw [e1.trans e2.symm] at hnd
                exact hnd.1 hm
        · rw [if_neg hs]
          have hne : ¬ entryAt cc j t c := fun k => hs ⟨(huniq _ _ k).1.symm, (huniq _ _ k).2.symm⟩
          obtain ⟨s, k1, k2⟩ := ih (s0 := some found) hnd.2 hl
          refine ⟨s, k1, ?_⟩
          rw [k2]
          refine and_congr_right fun _ => and_congr ?_ (or_congr (and_congr_right fun _ => ?_) (and_congr_right fun _ => ?_))
          · simp only [List.mem_cons, forall_eq_or_imp]
            exact ⟨fun k => ⟨hjall, k⟩, fun k => k.2⟩
          · simp only [List.mem_cons, forall_eq_or_imp]
            exact ⟨fun k => ⟨hne, k⟩, fun k => k.2⟩
          · simp only [List.mem_cons, forall_eq_or_imp, exists_eq_or_imp]
            constructor
            · rintro ⟨i, hi, hie, hu⟩
              exact Or.inr ⟨i, hi, hie, fun k => absurd k hne, hu⟩
            · rintro (⟨k, -⟩ | ⟨i, hi, hie, -, hu⟩)
              · exact absurd k hne
              · exact ⟨i, hi, hie, hu⟩

theorem cornerDistinct_some (hconn : FaceConsistent 2 conn) {t c : ℕ} (ht : t < conn.numTrees) (hc : c < 4) :
    ∃ l, cornerDistinct conn t c = some l := by
  obtain ⟨l, h, -⟩ := cornerDistinct_spec hconn ht hc
  exact ⟨l, h⟩

/-- The tables without the entries of the trees. -/
structure ListsGood (numTrees : ℕ) (cc : CornerConn) : Prop where
  arrays : CornerArrays numTrees cc
  ordered : ∀ k a b, cc.cttOffset[k]? = some a → cc.cttOffset[k + 1]? = some b → a ≤ b
  tree : ∀ t ∈ cc.cornerToTree, t < numTrees
  corner : ∀ c ∈ cc.cornerToCorner, c < 4

/-- With an entry in range, no access is out of bounds. -/
theorem findCornerTransform_some (hconn : FaceConsistent 2 conn) (hg : ListsGood conn.numTrees cc) {t c : ℕ}
    (ht : t < conn.numTrees) (hc : c < 4)
    (hv : cc.numCorners ≠ 0 → ∃ v, cc.treeToCorner[4 * t + c]? = some v ∧ -1 ≤ v ∧ v < cc.numCorners) :
    ∃ l, findCornerTransform conn cc t c = some l := by
  unfold findCornerTransform
  by_cases h0 : cc.numCorners = 0
  · rw [if_pos h0]; exact ⟨[], rfl⟩
  · rw [if_neg h0]
    obtain ⟨v, hv, h1, h2⟩ := hv h0
    rw [hv]
    simp only [Option.bind_eq_bind, Option.bind_some]
    by_cases hm : v = -1
    · rw [if_pos hm]; exact ⟨[], rfl⟩
    · rw [if_neg hm]
      have hidx : index v = some v.toNat := by unfold index; rw [if_pos (by omega)]
      have hlen := hg.arrays.offsets
      have hb : v.toNat + 1 < cc.cttOffset.length := by omega
      rw [hidx, Option.bind_some, List.getElem?_eq_getElem (show v.toNat < cc.cttOffset.length by omega), List.getElem?_eq_getElem hb]
      simp only [Option.bind_some]
      obtain ⟨D, hD⟩ := cornerDistinct_some hconn ht hc
      rw [hD]
      simp only [Option.bind_some]
      have hbl := hg.arrays.bound hg.ordered (List.getElem?_eq_getElem hb)
      have hcl := hg.arrays.corners
      obtain ⟨es, h2, -⟩ := mapM_pairs (l := List.range' cc.cttOffset[v.toNat] (cc.cttOffset[v.toNat + 1] - cc.cttOffset[v.toNat])) (f := fun j =>
          (cc.cornerToTree[j]?).bind fun nctree => (cc.cornerToCorner[j]?).bind fun ncorner => some (nctree, ncorner)) (by
        intro j hj
        rw [List.mem_range'_1] at hj
        rw [List.getElem?_eq_getElem (show j < cc.cornerToTree.length by omega),
          List.getElem?_eq_getElem (show j < cc.cornerToCorner.length by omega)]
        exact ⟨_, rfl⟩)
      rw [h2]
      exact ⟨_, rfl⟩

/-- What the check of one corner decides. -/
theorem cornerCheck_spec (hconn : FaceConsistent 2 conn) (hg : ListsGood conn.numTrees cc) (h0 : cc.numCorners ≠ 0) {t c : ℕ}
    (ht : t < conn.numTrees) (hc : c < 4) {v : ℤ} (hv : cc.treeToCorner[4 * t + c]? = some v) (hv1 : -1 ≤ v) (hv2 : v < cc.numCorners) :
    ∃ b, cornerCheck conn cc t c = some b ∧ (b = true ↔ v = -1 ∨ ∃ k : ℕ, v = k ∧ k < cc.numCorners ∧
      (∀ t' c', Listed cc k t' c' → cc.treeToCorner[4 * t' + c']? = some v) ∧
      ∃ a e j, cc.cttOffset[k]? = some a ∧ cc.cttOffset[k + 1]? = some e ∧ a ≤ j ∧ j < e ∧ entryAt cc j t c ∧
        ∀ i, a ≤ i → i < e → entryAt cc i t c → i = j) := by
  obtain ⟨l, hl⟩ := findCornerTransform_some hconn hg ht hc fun _ => ⟨v, hv, hv1, hv2⟩
  unfold cornerCheck
  rw [hl]
  simp only [Option.bind_eq_bind, Option.bind_some]
  rw [Nat.mul_comm t 4, hv]
  simp only [Option.bind_some]
  rw [if_neg (by omega)]
  by_cases hm : v = -1
  · rw [if_pos hm]; exact ⟨true, rfl, by simp [hm]⟩
  · rw [if_neg hm]
    obtain ⟨k, rfl⟩ : ∃ k : ℕ, v = k := ⟨v.toNat, by omega⟩
    have hk : k < cc.numCorners := by omega
    have hidx : index (k : ℤ) = some k := by unfold index; simp
    have hlen := hg.arrays.offsets
    have hk0 : k < cc.cttOffset.length := by omega
    have hk1 : k + 1 < cc.cttOffset.length := by omega
    have ha := List.getElem?_eq_getElem hk0
    have he := List.getElem?_eq_getElem hk1
    set a := cc.cttOffset[k] with had
    set e := cc.cttOffset[k + 1] with hed
    rw [hidx]
    simp only [Option.bind_some]
    rw [ha, he, hg.arrays.trees]
    simp only [Option.bind_some]
    have hae := hg.ordered k a e ha he
    have hel := hg.arrays.bound hg.ordered he
    have hcl := hg.arrays.corners
    have hlisted : ∀ t' c', Listed cc k t' c' ↔ ∃ j, a ≤ j ∧ j < e ∧ entryAt cc j t' c' := by
      intro t' c'
      constructor
      · rintro ⟨a', e', j, h1, h2, h3, h4, h5, h6⟩
        rw [ha, Option.some.injEq] at h1
        rw [he, Option.some.injEq] at h2
        exact ⟨j, by omega, by omega, h5, h6⟩
      · rintro ⟨j, h3, h4, h5, h6⟩
        exact ⟨a, e, j, ha, he, h3, h4, h5, h6⟩
    have hend : ¬ (k : ℤ) = -1 := by omega
    by_cases hb : a ≥ cc.cornerToTree.length ∨ e > cc.cornerToTree.length
    · rw [if_pos hb]
      refine ⟨false, rfl, ?_⟩
      simp only [Bool.false_eq_true, false_iff, not_or, not_exists, not_and]
      refine ⟨hend, ?_⟩
      intro k' hk' _ _ a' e' j h1 h2 h3 h4 _ _
      obtain rfl : k = k' := by omega
      rw [ha, Option.some.injEq] at h1
      rw [he, Option.some.injEq] at h2
      omega
    · rw [if_neg hb]
      have hentries : ∀ j ∈ List.range' a (e - a), ∃ t' c' w, entryAt cc j t' c' ∧ cc.treeToCorner[4 * t' + c']? = some w := by
        intro j hj
        rw [List.mem_range'_1] at hj
        have j1 : j < cc.cornerToTree.length := by omega
        have j2 : j < cc.cornerToCorner.length := by omega
        have g1 := hg.tree _ (List.getElem_mem j1)
        have g2 := hg.corner _ (List.getElem_mem j2)
        have hl := hg.arrays.entries h0
        refine ⟨_, _, _, ⟨List.getElem?_eq_getElem j1, List.getElem?_eq_getElem j2⟩,
          List.getElem?_eq_getElem (show 4 * cc.cornerToTree[j] + cc.cornerToCorner[j] < cc.treeToCorner.length by omega)⟩
      obtain ⟨s, h1, h2⟩ := cornerList_spec (cc := cc) (t := t) (c := c) (v := (k : ℤ)) (s0 := some false)
        (List.nodup_range' (s := a) (n := e - a)) hentries
      rw [h1]
      refine ⟨_, rfl, ?_⟩
      have hs : s.getD false = true ↔ s = some true := by
        cases s with
        | none => simp
        | some b => cases b <;> simp
      rw [hs, h2]
      constructor
      · rintro ⟨-, hall, ⟨k', -⟩ | ⟨-, j, hj, hje, hu⟩⟩
        · cases k'
        · right
          refine ⟨k, rfl, hk, fun t' c' hl => ?_, a, e, j, ha, he, ?_⟩
          · obtain ⟨i, i1, i2, i3⟩ := (hlisted t' c').mp hl
            exact hall i (List.mem_range'_1.mpr ⟨i1, by omega⟩) t' c' i3
          · rw [List.mem_range'_1] at hj
            exact ⟨hj.1, by omega, hje, fun i i1 i2 i3 => hu i (List.mem_range'_1.mpr ⟨i1, by omega⟩) i3⟩
      · rintro (k' | ⟨k', hk', -, hall, a', e', j, g1, g2, g3, g4, g5, g6⟩)
        · exact absurd k' hend
        · obtain rfl : k = k' := by omega
          rw [ha, Option.some.injEq] at g1
          rw [he, Option.some.injEq] at g2
          subst g1 g2
          refine ⟨by simp, fun i hi t' c' hie => ?_, Or.inr ⟨rfl, j, List.mem_range'_1.mpr ⟨g3, by omega⟩, g5, fun i hi hie => ?_⟩⟩
          · rw [List.mem_range'_1] at hi
            exact hall t' c' ((hlisted t' c').mpr ⟨i, hi.1, by omega, hie⟩)
          · rw [List.mem_range'_1] at hi
            exact g6 i hi.1 (by omega) hie

/-- What the first loop decides. -/
theorem rangeCheck_spec (ha : CornerArrays conn.numTrees cc) :
    ∃ b, checkAll (cornerRangeCheck conn.numTrees cc) (List.range cc.cornerToTree.length) = some b ∧
      (b = true ↔ (∀ t ∈ cc.cornerToTree, t < conn.numTrees) ∧ ∀ c ∈ cc.cornerToCorner, c < 4) := by
  have hcl := ha.corners
  have one : ∀ j (hj : j < cc.cornerToTree.length), ∃ b, cornerRangeCheck conn.numTrees cc j = some b ∧
      (b = true ↔ cc.cornerToTree[j] < conn.numTrees ∧ cc.cornerToCorner[j] < 4) := by
    intro j hj
    unfold cornerRangeCheck
    rw [List.getElem?_eq_getElem hj, List.getElem?_eq_getElem (show j < cc.cornerToCorner.length by omega)]
    simp only [Option.bind_eq_bind, Option.bind_some]
    split
    · exact ⟨false, rfl, by simp; omega⟩
    · exact ⟨_, rfl, by simp; omega⟩
  obtain ⟨b, hb⟩ := checkAll_some (f := cornerRangeCheck conn.numTrees cc) (l := List.range cc.cornerToTree.length) (by
    intro j hj
    obtain ⟨b, h, -⟩ := one j (List.mem_range.mp hj)
    exact ⟨b, h⟩)
  refine ⟨b, hb, ?_⟩
  have e : b = true ↔ checkAll (cornerRangeCheck conn.numTrees cc) (List.range cc.cornerToTree.length) = some true := by
    rw [hb, Option.some.injEq]
  rw [e, checkAll_iff]
  constructor
  · intro h
    have h' : ∀ j (hj : j < cc.cornerToTree.length), cc.cornerToTree[j] < conn.numTrees ∧ cc.cornerToCorner[j] < 4 := by
      intro j hj
      obtain ⟨b, k1, k2⟩ := one j hj
      rw [h j (List.mem_range.mpr hj), Option.some.injEq] at k1
      exact k2.mp k1.symm
    constructor
    · intro t ht
      obtain ⟨j, hj, rfl⟩ := List.mem_iff_getElem.mp ht
      exact (h' j hj).1
    · intro c hc
      obtain ⟨j, hj, rfl⟩ := List.mem_iff_getElem.mp hc
      exact (h' j (by omega)).2
  · rintro ⟨h1, h2⟩ j hj
    obtain ⟨b, k1, k2⟩ := one j (List.mem_range.mp hj)
    rw [k1, k2.mpr ⟨h1 _ (List.getElem_mem _), h2 _ (List.getElem_mem _)⟩]

/-- What the loop over the offsets decides. -/
theorem offsetCheck_spec (ha : CornerArrays conn.numTrees cc) :
    ∃ b, checkAll (offsetCheck cc) (List.range cc.numCorners) = some b ∧
      (b = true ↔ ∀ k a b, cc.cttOffset[k]? = some a → cc.cttOffset[k + 1]? = some b → a ≤ b) := by
  have hlen := ha.offsets
  have one : ∀ j (hj : j < cc.numCorners), offsetCheck cc j = some (decide (cc.cttOffset[j] ≤ cc.cttOffset[j + 1])) := by
    intro j hj
    unfold offsetCheck
    rw [List.getElem?_eq_getElem (show j < cc.cttOffset.length by omega),
      List.getElem?_eq_getElem (show j + 1 < cc.cttOffset.length by omega)]
    rfl
  obtain ⟨b, hb⟩ := checkAll_some (f := offsetCheck cc) (l := List.range cc.numCorners) fun j hj =>
    ⟨_, one j (List.mem_range.mp hj)⟩
  refine ⟨b, hb, ?_⟩
  have e : b = true ↔ checkAll (offsetCheck cc) (List.range cc.numCorners) = some true := by
    rw [hb, Option.some.injEq]
  rw [e, checkAll_iff]
  constructor
  · intro h k a b h1 h2
    obtain ⟨k1, rfl⟩ := List.getElem?_eq_some_iff.mp h1
    obtain ⟨k2, rfl⟩ := List.getElem?_eq_some_iff.mp h2
    have := h k (List.mem_range.mpr (by omega))
    rw [one k (by omega)] at this
    simpa using this
  · intro h j hj
    have hj := List.mem_range.mp hj
    rw [one j hj]
    simpa using h j _ _ (List.getElem?_eq_getElem (show j < cc.cttOffset.length by omega))
      (List.getElem?_eq_getElem (show j + 1 < cc.cttOffset.length by omega))

/-- A corner that passes the check has an entry in range. -/
theorem cornerCheck_range {t c : ℕ} {v : ℤ} (hv : cc.treeToCorner[4 * t + c]? = some v)
    (h : cornerCheck conn cc t c = some true) : -1 ≤ v ∧ v < cc.numCorners := by
  unfold cornerCheck at h
  obtain ⟨l, -, h⟩ := Option.bind_eq_some_iff.mp h
  rw [Nat.mul_comm t 4, hv] at h
  simp only [Option.bind_eq_bind, Option.bind_some] at h
  by_contra hcon
  rw [if_pos (by omega)] at h
  cases h

end

/-- **C59.**  For a connectivity of squares with at least one tree, with consistent faces and arrays of the declared
lengths, the corner part of `p4est_connectivity_is_valid` accepts exactly the consistent corner tables, and if
each entry of `tree_to_corner` is in range it decides without an access out of bounds.

Partial: an entry out of range is not rejected, see `C59_entry_out_of_range`. -/
theorem C59_corner_checks_partial (conn : FaceConn) (hconn : FaceConsistent 2 conn) (h1 : 0 < conn.numTrees) (cc : CornerConn)
    (ha : CornerArrays conn.numTrees cc) :
    (cornersCheck conn cc = some true ↔ CornerConsistent conn.numTrees cc) ∧
    ((∀ v ∈ cc.treeToCorner, -1 ≤ v ∧ v < cc.numCorners) → ∃ b, cornersCheck conn cc = some b) := by
  obtain ⟨b1, r1, r2⟩ := rangeCheck_spec (conn := conn) ha
  obtain ⟨b2, o1, o2⟩ := offsetCheck_spec (conn := conn) ha
  have hent : cc.numCorners ≠ 0 → ∀ t c, t < conn.numTrees → c < 4 → ∃ v, cc.treeToCorner[4 * t + c]? = some v := by
    intro h0 t c ht hc
    have := ha.entries h0
    exact ⟨_, List.getElem?_eq_getElem (show 4 * t + c < cc.treeToCorner.length by omega)⟩
  unfold cornersCheck
  rw [ha.trees]
  simp only [Option.bind_eq_bind, Option.bind_some]
  rw [r1]
  simp only [Option.bind_some]
  simp only [o1, Option.bind_some]
  cases b1 with
  | false =>
    simp only [Bool.false_eq_true, if_false]
    refine ⟨⟨fun h => absurd h (by simp), fun h => ?_⟩, fun _ => ⟨false, rfl⟩⟩
    exact absurd (r2.mpr ⟨h.tree, h.corner⟩) (by simp)
  | true =>
    obtain ⟨g1, g2⟩ := r2.mp rfl
    rw [if_pos rfl]
    cases b2 with
    | false =>
      simp only [Bool.false_eq_true, if_false]
      refine ⟨⟨fun h => ?_, fun h => ?_⟩, fun _ => checkAll_some fun _ _ => ⟨false, rfl⟩⟩
      · have := checkAll_iff.mp h 0 (List.mem_range.mpr h1)
        simp at this
      · exact absurd (o2.mpr h.ordered) (by simp)
    | true =>
      simp only [if_true]
      have hg : ListsGood conn.numTrees cc := ⟨ha, o2.mp rfl, g1, g2⟩
      by_cases h0 : cc.numCorners = 0
      · simp only [if_neg (show ¬ cc.numCorners > 0 by omega)]
        refine ⟨⟨fun _ => ⟨ha, hg.ordered, g1, g2, fun h => absurd h0 h, ?_, ?_⟩, fun _ => checkAll_iff.mpr fun _ _ => rfl⟩,
          fun _ => checkAll_some fun _ _ => ⟨true, rfl⟩⟩
        · intro t c k a b i j _ _ hk; omega
        · intro t c k t' c' _ _ hk; omega
      · simp only [if_pos (show cc.numCorners > 0 by omega)]
        constructor
        · rw [checkAll_iff]
          simp only [checkAll_iff, List.mem_range]
          constructor
          · intro h
            refine ⟨ha, hg.ordered, g1, g2, ?_, ?_, ?_⟩
            · intro _ t c v ht hc hv
              obtain ⟨v1, v2⟩ := cornerCheck_range hv (h t ht c hc)
              obtain ⟨b, b1, b2⟩ := cornerCheck_spec hconn hg h0 ht hc hv v1 v2
              rw [h t ht c hc, Option.some.injEq] at b1
              rcases b2.mp b1.symm with k | ⟨k, hk, hkn, -, a, e, j, q1, q2, q3, q4, q5, -⟩
              · exact Or.inl k
              · exact Or.inr ⟨k, hk, hkn, a, e, j, q1, q2, q3, q4, q5.1, q5.2⟩
            · intro t c k a e i j ht hc hkn hv p1 p2 p3 p4 p5 p6 p7 p8 p9 p10
              obtain ⟨v1, v2⟩ := cornerCheck_range hv (h t ht c hc)
              obtain ⟨b, b1, b2⟩ := cornerCheck_spec hconn hg h0 ht hc hv v1 v2
              rw [h t ht c hc, Option.some.injEq] at b1
              rcases b2.mp b1.symm with k' | ⟨k', hk, -, -, a', e', j', q1, q2, q3, q4, q5, q6⟩
              · omega
              · obtain rfl : k = k' := by omega
                rw [p1, Option.some.injEq] at q1
                rw [p2, Option.some.injEq] at q2
                subst q1 q2
                rw [q6 i p3 p4 ⟨p7, p8⟩, q6 j p5 p6 ⟨p9, p10⟩]
            · intro t c k t' c' ht hc hkn hv hl
              obtain ⟨v1, v2⟩ := cornerCheck_range hv (h t ht c hc)
              obtain ⟨b, b1, b2⟩ := cornerCheck_spec hconn hg h0 ht hc hv v1 v2
              rw [h t ht c hc, Option.some.injEq] at b1
              rcases b2.mp b1.symm with k' | ⟨k', hk, -, q, -⟩
              · omega
              · obtain rfl : k = k' := by omega
                exact q t' c' hl
          · intro h t ht c hc
            obtain ⟨v, hv⟩ := hent h0 t c ht hc
            have hr := h.range h0 t c v ht hc hv
            have hv12 : -1 ≤ v ∧ v < cc.numCorners := by
              rcases hr with k | ⟨k, hk, hkn, -⟩ <;> omega
            obtain ⟨b, b1, b2⟩ := cornerCheck_spec hconn hg h0 ht hc hv hv12.1 hv12.2
            rw [b1, b2.mpr]
            rcases hr with k | ⟨k, rfl, hkn, a, e, j, q1, q2, q3, q4, q5, q6⟩
            · exact Or.inl k
            · exact Or.inr ⟨k, rfl, hkn, fun t' c' hl => h.back t c k t' c' ht hc hkn hv hl, a, e, j, q1, q2, q3, q4, ⟨q5, q6⟩,
                fun i i1 i2 i3 => h.once t c k a e i j ht hc hkn hv q1 q2 i1 i2 q3 q4 i3.1 i3.2 q5 q6⟩
        · intro hall
          refine checkAll_some fun t ht => checkAll_some fun c hc => ?_
          rw [List.mem_range] at ht hc
          obtain ⟨v, hv⟩ := hent h0 t c ht hc
          obtain ⟨v1, v2⟩ := hall v (List.mem_of_getElem? hv)
          obtain ⟨b, b1, -⟩ := cornerCheck_spec hconn hg h0 ht hc hv v1 v2
          exact ⟨b, b1⟩

/-- `p4est_connectivity_new_periodic`, src/p4est_connectivity.c:1704-1733, without the vertices: one square with opposite
sides identified, so that all its corners are the same. -/
def torus : FaceConn := ⟨1, [0, 0, 0, 0], [1, 0, 3, 2]⟩

/-- The corners of `torus`. -/
def torusCorners : CornerConn := ⟨1, [0, 0, 0, 0], [0, 4], [0, 0, 0, 0], [0, 1, 2, 3]⟩

theorem torus_consistent : FaceConsistent 2 torus := by
  rw [← C37_face_checks (by norm_num) _ rfl rfl]
  intro t f ht hf
  have ht : t < 1 := ht
  interval_cases t <;> interval_cases f <;> decide +kernel

theorem torus_arrays : CornerArrays 1 torusCorners := ⟨fun _ => rfl, rfl, rfl, rfl⟩

theorem torus_corners : CornerConsistent 1 torusCorners :=
  (C59_corner_checks_partial torus torus_consistent (by decide) torusCorners torus_arrays).1.mp (by decide +kernel)

/-- The tables of `torus` meet the hypotheses and are accepted; with one corner missing in the list they meet the
hypotheses and are rejected. -/
example : FaceConsistent 2 torus ∧ CornerArrays 1 torusCorners ∧ cornersCheck torus torusCorners = some true ∧
    CornerArrays 1 { torusCorners with cttOffset := [0, 3], cornerToTree := [0, 0, 0], cornerToCorner := [0, 1, 2] } ∧
    cornersCheck torus { torusCorners with cttOffset := [0, 3], cornerToTree := [0, 0, 0], cornerToCorner := [0, 1, 2] } = some false :=
  ⟨torus_consistent, torus_arrays, by decide +kernel, ⟨fun _ => rfl, rfl, rfl, rfl⟩, by decide +kernel⟩

/-- An entry of `tree_to_corner` that is out of range is not rejected: `p4est_connectivity_is_valid` passes the corner to
`p4est_find_corner_transform` before it tests the entry, which reads `ctt_offset` beyond its end. -/
theorem C59_entry_out_of_range :
    FaceConsistent 2 torus ∧ CornerArrays 1 { torusCorners with treeToCorner := [5, 0, 0, 0] } ∧
    cornersCheck torus { torusCorners with treeToCorner := [5, 0, 0, 0] } = none ∧
    CornerArrays 1 { torusCorners with treeToCorner := [-2, 0, 0, 0] } ∧
    cornersCheck torus { torusCorners with treeToCorner := [-2, 0, 0, 0] } = none :=
  ⟨torus_consistent, ⟨fun _ => rfl, rfl, rfl, rfl⟩, by decide +kernel, ⟨fun _ => rfl, rfl, rfl, rfl⟩, by decide +kernel⟩

end P4est
