import Verif.Lemmas.ProfileFace

/-! # C41: union, intersection and balance of the layer profiles of p6est

A column is given by the levels of its layers (`Verif/Spec/Profile.lean`).  All columns of a forest have the same
height `h`, which is at most the height `2 ^ 30` of a layer of level 0.  The code is modelled in
`Verif/Model/Profile.lean`. -/

namespace P4est
open Spec

/-- C41.  The union of two profiles of the same extent is a profile of this extent that has at
every height the finer one of the two layers.  Thus it refines both, and every column that refines both
refines it. -/
theorem C41_union {a b : List ℕ} {z e : ℕ} (ha : Column z a e) (hb : Column z b e) :
    ∃ c, profileUnion a b = some c ∧ Column z c e ∧
      (∀ x, levelAt c x = max (levelAt a x) (levelAt b x)) ∧
      Finer a c ∧ Finer b c ∧ ∀ c', Finer a c' → Finer b c' → Finer c c' := by
  obtain ⟨u, h, hu, hm⟩ := unionLoop_spec a.length (c := []) ha hb (le_refl _)
  refine ⟨u, h, hu, hm, fun x => ?_, fun x => ?_, fun c' h1 h2 x => ?_⟩
  · rw [hm]; exact le_max_left _ _
  · rw [hm]; exact le_max_right _ _
  · rw [hm]; exact max_le (h1 x) (h2 x)

/-- C41.  The intersection of two profiles of the same extent is a profile of this extent that has at
every height the coarser one of the two layers.  Thus it coarsens both, and every column that coarsens both
coarsens it. -/
theorem C41_intersection {a b : List ℕ} {z e : ℕ} (ha : Column z a e) (hb : Column z b e) :
    ∃ c, profileIntersection a b = some c ∧ Column z c e ∧
      (∀ x, levelAt c x = min (levelAt a x) (levelAt b x)) ∧
      Finer c a ∧ Finer c b ∧ ∀ c', Finer c' a → Finer c' b → Finer c' c := by
  obtain ⟨u, h, hu, hm⟩ := intersectionLoop_spec a.length (c := []) ha hb (le_refl _)
  refine ⟨u, h, hu, hm, fun x => ?_, fun x => ?_, fun c' h1 h2 x => ?_⟩
  · rw [hm]; exact min_le_left _ _
  · rw [hm]; exact min_le_right _ _
  · rw [hm]; exact le_min (h1 x) (h2 x)

/-- Meaning of `Finer`: of two columns of the same extent, the second one is nowhere coarser if and only if
every layer of the first one is either kept or replaced by the parts of repeated splits into halves. -/
theorem C41_finer {a c : List ℕ} {z e : ℕ} (ha : Column z a e) (hc : Column z c e) :
    Finer a c ↔ Refines a c :=
  ⟨refines_of_finer ha hc, Refines.finer⟩

/-- C41.  A column is determined by the levels at all heights, so the columns of `C41_union` and the other
theorems are unique. -/
theorem C41_unique {a c : List ℕ} {z e : ℕ} (ha : Column z a e) (hc : Column z c e)
    (h : ∀ x, levelAt a x = levelAt c x) : a = c := by
  have h1 := refines_of_finer ha hc fun x => (h x).le
  have h2 := refines_of_finer hc ha fun x => (h x).ge
  clear h ha hc
  induction h1 with
  | nil => rfl
  | @cons n s a c hs _ ih =>
    cases hs with
    | leaf hn =>
      obtain ⟨s, t, he, hs, ht⟩ := h2.uncons
      cases hs with
      | leaf =>
        simp only [List.cons_append, List.nil_append, List.cons.injEq, true_and] at he
        subst he
        rw [ih ht]; rfl
      | @node _ u v _ h1 h2 =>
        exfalso
        match u, h1.ne_nil, h1 with
        | m :: u, _, h1 =>
          simp only [List.cons_append, List.cons.injEq] at he
          have := h1.bottom
          omega
    | @node _ u v hn h1 h2' =>
      exfalso
      match u, h1.ne_nil, h1 with
      | m :: u, _, h1 =>
        have hb := h1.bottom
        have := h2.finer 0
        simp only [List.cons_append, levelAt_zero] at this
        omega

theorem refines_length {b c : List ℕ} (hr : Refines b c) :
    b.length ≤ c.length ∧ (c.length = b.length ↔ c = b) := by
  have key : b.length ≤ c.length ∧ (c.length = b.length → c = b) := by
    induction hr with
    | nil => simp
    | @cons n s a c hs _ ih =>
      have hp := List.length_pos_iff.2 hs.ne_nil
      simp only [List.length_append, List.length_cons]
      refine ⟨by omega, fun hl => ?_⟩
      rw [ih.2 (by omega)]
      cases hs with
      | leaf => rfl
      | node _ h1 h2 =>
        have h3 := List.length_pos_iff.2 h1.ne_nil
        have h4 := List.length_pos_iff.2 h2.ne_nil
        simp only [List.length_append] at hl
        omega
  exact ⟨key.1, key.2, fun h => by rw [h]⟩

/-- C41.  The test of the callers for a change, whether the union is longer than one of the two profiles, is exact:
the union has at least as many layers, and as many if and only if it is this profile. -/
theorem C41_union_length {a b c : List ℕ} {z e : ℕ} (ha : Column z a e) (hb : Column z b e)
    (h : profileUnion a b = some c) :
    (a.length ≤ c.length ∧ (c.length = a.length ↔ c = a)) ∧
    (b.length ≤ c.length ∧ (c.length = b.length ↔ c = b)) := by
  obtain ⟨c', h', hc, _, hf', hf, _⟩ := C41_union ha hb
  obtain rfl : c = c' := by rw [h] at h'; exact Option.some.inj h'
  exact ⟨refines_length (refines_of_finer ha hc hf'), refines_length (refines_of_finer hb hc hf)⟩

/-- C41.  Balancing a profile in itself yields the coarsest column that refines it and in which the levels of
layers on top of each other differ by at most one. -/
theorem C41_balance_self {a : List ℕ} {z e : ℕ} (ha : Column z a e) (h : z < e) :
    ∃ c, balanceSelf a = some c ∧ Column z c e ∧ Finer a c ∧ Graded c ∧
      ∀ c', Column z c' e → Finer a c' → Graded c' → Finer c c' := by
  obtain ⟨c, hc, h1, h2, h3⟩ := balanceSelf_refines (column_ne_nil ha h) (column_all ha)
  exact ⟨c, hc, h1.column ha, h1.finer, h2,
    fun c' h4 h5 h6 => (h3 c' (refines_of_finer ha h4 h5) h6).finer⟩

/-- C41.  The profile that a column demands of the columns at its faces is the coarsest column that
is balanced in itself and nowhere more than one level coarser. -/
theorem C41_balance_face {a : List ℕ} {h : ℕ} (ha : Column 0 a h) (h0 : 0 < h) (h1 : h ≤ 2 ^ 30) :
    ∃ b, balanceFace a (2 ^ 30 - h) = some b ∧ Column 0 b h ∧ Graded b ∧ FaceBalanced a b ∧
      ∀ b', Column 0 b' h → Graded b' → FaceBalanced a b' → Finer b b' :=
  balanceFace_spec ha h0 h1

/-- The levels at neighboring heights in a graded column differ by at most one. -/
theorem graded_at : ∀ {a : List ℕ}, Graded a → ∀ x, x + 1 < tall a →
    levelAt a x ≤ levelAt a (x + 1) + 1 ∧ levelAt a (x + 1) ≤ levelAt a x + 1
  | [], _, x, hx => by simp [tall] at hx
  | [n], _, x, hx => by
    rw [tall_one] at hx
    rw [levelAt_one (by omega), levelAt_one (by omega)]
    omega
  | n :: m :: a, hg, x, hx => by
    have hg' := List.isChain_cons_cons.1 hg
    have ih := graded_at hg'.2
    have hpos := len_pos n
    have hpos' := len_pos m
    rw [tall_cons] at hx
    have e1 : ∀ y, levelAt (n :: m :: a) y =
        if y < 2 ^ (30 - n) then n else levelAt (m :: a) (y - 2 ^ (30 - n)) := fun _ => rfl
    rw [e1, e1]
    by_cases h1 : x + 1 < 2 ^ (30 - n)
    · rw [if_pos (by omega), if_pos h1]; omega
    · rw [if_neg h1]
      by_cases h2 : x < 2 ^ (30 - n)
      · rw [if_pos h2, show x + 1 - 2 ^ (30 - n) = 0 by omega, levelAt_zero]
        exact hg'.1
      · rw [if_neg h2, show x + 1 - 2 ^ (30 - n) = x - 2 ^ (30 - n) + 1 by omega]
        exact ih _ (by omega)

/-- And conversely. -/
theorem graded_of_at : ∀ {a : List ℕ}, (∀ x, x + 1 < tall a →
    levelAt a x ≤ levelAt a (x + 1) + 1 ∧ levelAt a (x + 1) ≤ levelAt a x + 1) → Graded a
  | [], _ => by simp [Graded]
  | [n], _ => by simp [Graded]
  | n :: m :: a, h => by
    have hpos := len_pos n
    have hpos' := len_pos m
    have hn := tall_cons n (m :: a)
    have hm := tall_cons m a
    have e1 : ∀ y, levelAt (n :: m :: a) y =
        if y < 2 ^ (30 - n) then n else levelAt (m :: a) (y - 2 ^ (30 - n)) := fun _ => rfl
    refine List.isChain_cons_cons.2 ⟨?_, graded_of_at fun x hx => ?_⟩
    · have := h (2 ^ (30 - n) - 1) (by omega)
      rw [e1, e1, if_pos (by omega), if_neg (by omega),
        show 2 ^ (30 - n) - 1 + 1 - 2 ^ (30 - n) = 0 by omega, levelAt_zero] at this
      exact this
    · have := h (2 ^ (30 - n) + x) (by omega)
      rw [e1, e1, if_neg (by omega), if_neg (by omega),
        show 2 ^ (30 - n) + x - 2 ^ (30 - n) = x by omega,
        show 2 ^ (30 - n) + x + 1 - 2 ^ (30 - n) = x + 1 by omega] at this
      exact this

/-- C41.  The union of profiles that are balanced in themselves is balanced in itself.  Hence the profiles that
are formed while a forest is balanced meet the assumption of `p6est_profile_balance_face` and
`p6est_profile_balance_full`. -/
theorem C41_union_graded {a b c : List ℕ} {z e : ℕ} (ha : Column z a e) (hb : Column z b e)
    (hga : Graded a) (hgb : Graded b) (h : profileUnion a b = some c) : Graded c := by
  obtain ⟨c', h', hc, hm, _, _, _⟩ := C41_union ha hb
  obtain rfl : c = c' := by rw [h] at h'; exact Option.some.inj h'
  have h1 := column_tall ha
  have h2 := column_tall hb
  have h3 := column_tall hc
  refine graded_of_at fun x hx => ?_
  have := graded_at hga x (by omega)
  have := graded_at hgb x (by omega)
  rw [hm, hm]
  omega

/-- C55.  On a profile that is balanced in itself, as the code assumes, the demand for balance across edges is
the demand for balance across faces: the additional condition of `p6est_profile_balance_full` always holds.
This is not what the function is for, see `C55_edges_not_balanced`. -/
theorem C55_full_is_face {a : List ℕ} {diff : ℕ} (h : Graded a) :
    balanceFull a diff = balanceFace a diff := balanceFull_eq h

/-- C55 is false of the balance across edges.  The profiles `a` and `b` below are balanced in themselves and
the code finds nothing to change: `b` is the union of what it was before, `[1, 1]`, with the demand of
`a`, and the demand of `b` changes nothing in `a`.  But a layer of `a` at the middle of the
column is two levels finer than the layer of `b` that ends there. -/
theorem C55_edges_not_balanced :
    ∃ a b demand demand' : List ℕ, Column 0 a (2 ^ 30) ∧ Column 0 b (2 ^ 30) ∧ Graded a ∧ Graded b ∧
      balanceFull a 0 = some demand ∧ profileUnion [1, 1] demand = some b ∧
      balanceFull b 0 = some demand' ∧ profileUnion a demand' = some a ∧ ¬ EdgeBalanced a b := by
  refine ⟨[2, 2, 3, 3, 2], [1, 2, 2], [1, 2, 2], [1, 1], ?_, ?_, ?_, ?_, ?_, ?_, ?_, ?_, ?_⟩
  · simp [Column]
  · simp [Column]
  · simp [Graded]
  · simp [Graded]
  · decide
  · decide
  · decide
  · decide
  · intro h
    have := (h.2 (2 ^ 29 - 1) (by decide)).2
    revert this
    decide

/-! ### Examples -/

example : Column 0 [1, 3, 3, 2] (2 ^ 30) ∧ Column 0 [2, 2, 1] (2 ^ 30) ∧
    profileUnion [1, 3, 3, 2] [2, 2, 1] = some [2, 2, 3, 3, 2] ∧
    profileIntersection [1, 3, 3, 2] [2, 2, 1] = some [1, 1] := by
  refine ⟨by simp [Column], by simp [Column], by decide, by decide⟩

/-- A column over three quarters of the root: the fine layer in the middle splits its neighbors. -/
example : Column 0 [2, 5, 5, 4, 3, 2] (3 * 2 ^ 28) ∧ ¬ Graded [2, 5, 5, 4, 3, 2] ∧
    balanceSelf [2, 5, 5, 4, 3, 2] = some [3, 4, 4, 5, 5, 4, 3, 2] := by
  refine ⟨by simp [Column], by simp [Graded], by decide⟩

example : balanceFace [3, 4, 4, 5, 5, 4, 3, 2] (2 ^ 30 - 3 * 2 ^ 28) = some [3, 3, 4, 4, 3, 2] := by
  decide

end P4est
