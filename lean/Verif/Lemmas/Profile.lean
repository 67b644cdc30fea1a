import Mathlib.Tactic.Linarith
import Mathlib.Tactic.Ring
import Mathlib.Tactic.Push
import Mathlib.Data.Nat.Bitwise
import Mathlib.Algebra.BigOperators.Group.List.Basic
import Verif.Model.Profile
import Verif.Spec.Profile

/-! # Columns of layers and the loops over profiles -/

namespace P4est
open Spec

/-- Height of a list of layers. -/
def tall (ls : List ℕ) : ℕ := (ls.map fun l => 2 ^ (30 - l)).sum

theorem tall_nil : tall [] = 0 := rfl
theorem tall_cons (l : ℕ) (ls : List ℕ) : tall (l :: ls) = 2 ^ (30 - l) + tall ls := by
  simp [tall]
theorem tall_append (a b : List ℕ) : tall (a ++ b) = tall a + tall b := by simp [tall]

theorem len_pos (l : ℕ) : 0 < 2 ^ (30 - l) := by positivity

theorem len_half {n : ℕ} (h : n < 30) : 2 ^ (30 - n) = 2 ^ (30 - (n + 1)) + 2 ^ (30 - (n + 1)) := by
  have : 30 - n = (30 - (n + 1)) + 1 := by omega
  rw [this, pow_succ]; omega

theorem column_append : ∀ {a b : List ℕ} {z e : ℕ}, Column z (a ++ b) e ↔
    Column z a (z + tall a) ∧ Column (z + tall a) b e
  | [], b, z, e => by simp [Column, tall]
  | l :: a, b, z, e => by
    simp only [List.cons_append, Column, tall_cons]
    rw [column_append (a := a)]
    rw [show z + (2 ^ (30 - l) + tall a) = z + 2 ^ (30 - l) + tall a by omega]
    tauto

theorem column_tall : ∀ {a : List ℕ} {z e : ℕ}, Column z a e → e = z + tall a
  | [], z, e, h => by simp [Column, tall] at *; omega
  | l :: a, z, e, h => by
    simp only [Column] at h
    have := column_tall h.2.2
    rw [tall_cons]; omega

theorem levelAt_left : ∀ {a b : List ℕ} {x : ℕ}, x < tall a → levelAt (a ++ b) x = levelAt a x
  | [], b, x, h => by simp [tall] at h
  | l :: a, b, x, h => by
    rw [tall_cons] at h
    simp only [List.cons_append, levelAt]
    split
    · rfl
    · exact levelAt_left (by omega)

theorem levelAt_right : ∀ {a b : List ℕ} {x : ℕ}, levelAt (a ++ b) (tall a + x) = levelAt b x
  | [], b, x => by simp [tall]
  | l :: a, b, x => by
    have := len_pos l
    simp only [List.cons_append, levelAt, tall_cons]
    rw [if_neg (by omega), show 2 ^ (30 - l) + tall a + x - 2 ^ (30 - l) = tall a + x by omega]
    exact levelAt_right

theorem levelAt_above : ∀ {a : List ℕ} {x : ℕ}, tall a ≤ x → levelAt a x = 0
  | [], x, h => rfl
  | l :: a, x, h => by
    rw [tall_cons] at h
    have := len_pos l
    simp only [levelAt]
    rw [if_neg (by omega)]
    exact levelAt_above (by omega)

theorem levelAt_mem : ∀ {a : List ℕ} {x : ℕ}, x < tall a → levelAt a x ∈ a
  | [], x, h => by simp [tall] at h
  | l :: a, x, h => by
    rw [tall_cons] at h
    simp only [levelAt]
    split
    · simp
    · exact List.mem_cons_of_mem _ (levelAt_mem (by omega))

theorem levelAt_zero (l : ℕ) (a : List ℕ) : levelAt (l :: a) 0 = l := by
  simp [levelAt]

/-- A statement about the levels in two lists of the same height holds if it holds for the lower and the upper
parts. -/
theorem at_append {R : ℕ → ℕ → Prop} {a b a' b' : List ℕ} (h : tall a = tall b)
    (h1 : ∀ x < tall a, R (levelAt a x) (levelAt b x)) (h2 : ∀ x, R (levelAt a' x) (levelAt b' x)) :
    ∀ x, R (levelAt (a ++ a') x) (levelAt (b ++ b') x) := by
  intro x
  by_cases hx : x < tall a
  · rw [levelAt_left hx, levelAt_left (h ▸ hx)]; exact h1 x hx
  · obtain ⟨y, rfl⟩ : ∃ y, x = tall a + y := ⟨x - tall a, by omega⟩
    rw [levelAt_right, h, levelAt_right]; exact h2 y

/-- Conversely it holds for the upper parts. -/
theorem at_upper {R : ℕ → ℕ → Prop} {a b a' b' : List ℕ} (h : tall a = tall b)
    (h2 : ∀ x, R (levelAt (a ++ a') x) (levelAt (b ++ b') x)) : ∀ x, R (levelAt a' x) (levelAt b' x) := by
  intro x
  have := h2 (tall a + x)
  rwa [levelAt_right, h, levelAt_right] at this

/-! ### Layers split into halves -/

/-- The list is a layer of level `n` after any number of splits into halves. -/
inductive Splits : ℕ → List ℕ → Prop
  | leaf {n : ℕ} : n ≤ 30 → Splits n [n]
  | node {n : ℕ} {a b : List ℕ} : n < 30 → Splits (n + 1) a → Splits (n + 1) b → Splits n (a ++ b)

theorem Splits.le {n : ℕ} {s : List ℕ} (h : Splits n s) : ∀ l ∈ s, n ≤ l ∧ l ≤ 30 := by
  induction h with
  | leaf h => intro l hl; simp at hl; omega
  | node h _ _ i1 i2 =>
    intro l hl
    rcases List.mem_append.1 hl with hl | hl
    · have := i1 l hl; omega
    · have := i2 l hl; omega

theorem Splits.tall_eq {n : ℕ} {s : List ℕ} (h : Splits n s) : tall s = 2 ^ (30 - n) := by
  induction h with
  | leaf h => simp [tall]
  | node h _ _ i1 i2 => rw [tall_append, i1, i2, len_half h]

theorem Splits.ne_nil {n : ℕ} {s : List ℕ} (h : Splits n s) : s ≠ [] := by
  rintro rfl
  have := h.tall_eq
  rw [tall_nil] at this
  have := len_pos n
  omega

theorem Splits.column {n : ℕ} {s : List ℕ} (h : Splits n s) :
    ∀ {z : ℕ}, 2 ^ (30 - n) ∣ z → Column z s (z + 2 ^ (30 - n)) := by
  induction h with
  | leaf h => intro z hz; simp [Column, h, hz]
  | @node n a b h h1 h2 i1 i2 =>
    intro z hz
    have hd : 2 ^ (30 - (n + 1)) ∣ z := (pow_dvd_pow 2 (by omega)).trans hz
    rw [column_append, h1.tall_eq, len_half h, ← Nat.add_assoc]
    exact ⟨i1 hd, i2 (Nat.dvd_add hd (dvd_refl _))⟩

theorem Splits.bottom {n m : ℕ} {s : List ℕ} (h : Splits n (m :: s)) : n ≤ m ∧ m ≤ 30 :=
  h.le m (by simp)

/-- A column whose first layer is of level at least `n` at a position where a layer of level `n` fits
begins with the parts of such a layer. -/
theorem column_splits : ∀ (k n : ℕ), n + k = 30 → ∀ {z e m : ℕ} {ls : List ℕ}, Column z (m :: ls) e →
    2 ^ (30 - n) ∣ z → z + 2 ^ (30 - n) ≤ e → n ≤ m →
    ∃ s rest, m :: ls = s ++ rest ∧ Splits n s ∧ Column (z + 2 ^ (30 - n)) rest e := by
  intro k
  induction k with
  | zero =>
    intro n hn z e m ls h hz he hm
    have : m = n := by have := h.1; omega
    subst this
    exact ⟨[m], ls, rfl, .leaf h.1, h.2.2⟩
  | succ k ih =>
    intro n hn z e m ls h hz he hm
    rcases Nat.eq_or_lt_of_le hm with rfl | hm
    · exact ⟨[n], ls, rfl, .leaf h.1, h.2.2⟩
    have hl : n < 30 := by omega
    have hlen := len_half hl
    have hd : 2 ^ (30 - (n + 1)) ∣ z := (pow_dvd_pow 2 (by omega)).trans hz
    obtain ⟨s, rest, he1, hs, hr⟩ := ih (n + 1) (by omega) h hd (by omega) hm
    have := len_pos (n + 1)
    match rest, hr with
    | [], hr => simp only [Column] at hr; omega
    | m' :: rest', hr =>
      have hm' : n + 1 ≤ m' := by
        by_contra hc
        have h1 : 2 ^ (30 - n) ∣ z + 2 ^ (30 - (n + 1)) :=
          (pow_dvd_pow 2 (by omega)).trans hr.2.1
        have h2 := (Nat.dvd_add_right hz).1 h1
        have := Nat.le_of_dvd (len_pos _) h2
        omega
      obtain ⟨s', rest', he2, hs', hr'⟩ := ih (n + 1) (by omega) hr (Nat.dvd_add hd (dvd_refl _)) (by omega) hm'
      refine ⟨s ++ s', rest', ?_, .node hl hs hs', ?_⟩
      · rw [he1, he2, List.append_assoc]
      · rwa [hlen, ← Nat.add_assoc]

theorem column_splits' {n z e m : ℕ} {ls : List ℕ} (h : Column z (m :: ls) e)
    (hz : 2 ^ (30 - n) ∣ z) (he : z + 2 ^ (30 - n) ≤ e) (hm : n ≤ m) :
    ∃ s rest, m :: ls = s ++ rest ∧ Splits n s ∧ Column (z + 2 ^ (30 - n)) rest e :=
  column_splits (30 - n) n (by have := h.1; omega) h hz he hm

theorem column_le {z e m : ℕ} {ls : List ℕ} (h : Column z (m :: ls) e) : z + 2 ^ (30 - m) ≤ e := by
  have := column_tall h
  rw [tall_cons] at this
  omega

theorem column_all : ∀ {ls : List ℕ} {z e : ℕ}, Column z ls e → ∀ l ∈ ls, l ≤ 30
  | [], _, _, _, l, hl => by simp at hl
  | m :: ls, z, e, h, l, hl => by
    rcases List.mem_cons.1 hl with rfl | hl
    · exact h.1
    · exact column_all h.2.2 l hl

/-! ### Union and intersection -/

theorem copyFine_eq {S : ℕ} : ∀ (s : List ℕ) {rest c : List ℕ} {f size : ℕ}, s ≠ [] → size + tall s = S →
    copyFine S (s ++ rest) f size c = some (c ++ f :: s, rest)
  | [], _, _, _, _, h, _ => absurd rfl h
  | [l], rest, c, f, size, _, hs => by
    simp only [tall_cons, tall_nil] at hs
    have hL : layerLen l = 2 ^ (30 - l) := rfl
    simp only [List.cons_append, List.nil_append, copyFine]
    rw [if_neg (by omega)]
    simp
  | l :: l' :: s, rest, c, f, size, _, hs => by
    rw [tall_cons] at hs
    have := len_pos l'
    have h2 := tall_cons l' s
    rw [List.cons_append]
    have hL : layerLen l = 2 ^ (30 - l) := rfl
    simp only [copyFine]
    rw [if_pos (by omega), copyFine_eq (l' :: s) (by simp) (by omega)]
    simp

theorem skipFine_eq {S : ℕ} : ∀ (s : List ℕ) {rest : List ℕ} {size : ℕ}, s ≠ [] → size + tall s = S →
    skipFine S (s ++ rest) size = some rest
  | [], _, _, h, _ => absurd rfl h
  | [l], rest, size, _, hs => by
    simp only [tall_cons, tall_nil] at hs
    have hL : layerLen l = 2 ^ (30 - l) := rfl
    simp only [List.cons_append, List.nil_append, skipFine]
    rw [if_neg (by omega)]
  | l :: l' :: s, rest, size, _, hs => by
    rw [tall_cons] at hs
    have := len_pos l'
    have h2 := tall_cons l' s
    rw [List.cons_append]
    have hL : layerLen l = 2 ^ (30 - l) := rfl
    simp only [skipFine]
    rw [if_pos (by omega), skipFine_eq (l' :: s) (by simp) (by omega)]

/-- A column with a finer first layer than another one begins with a split of that layer. -/
theorem fine_prefix {z e m n : ℕ} {a b : List ℕ} (ha : Column z (m :: a) e) (hb : Column z (n :: b) e)
    (h : n < m) : ∃ s rest, s ≠ [] ∧ a = s ++ rest ∧ Splits n (m :: s) ∧
      Column (z + 2 ^ (30 - n)) rest e := by
  obtain ⟨s, rest, he, hs, hr⟩ := column_splits' ha hb.2.1 (column_le hb) h.le
  match s, hs.ne_nil with
  | m' :: s, _ =>
    simp only [List.cons_append, List.cons.injEq] at he
    obtain ⟨rfl, rfl⟩ := he
    refine ⟨s, rest, ?_, rfl, hs, hr⟩
    rintro rfl
    have := hs.tall_eq
    rw [tall_cons, tall_nil] at this
    have := Nat.pow_right_injective (le_refl 2) this
    have := ha.1
    omega

theorem levelAt_one {n x : ℕ} (h : x < 2 ^ (30 - n)) : levelAt [n] x = n := by simp [levelAt, h]

theorem tall_one (n : ℕ) : tall [n] = 2 ^ (30 - n) := by simp [tall]

/-- Lift of `at_append` to three lists. -/
theorem at_append3 {R : ℕ → ℕ → ℕ → Prop} {a b c a' b' c' : List ℕ} (hb : tall a = tall b)
    (hc : tall a = tall c) (h1 : ∀ x < tall a, R (levelAt a x) (levelAt b x) (levelAt c x))
    (h2 : ∀ x, R (levelAt a' x) (levelAt b' x) (levelAt c' x)) :
    ∀ x, R (levelAt (a ++ a') x) (levelAt (b ++ b') x) (levelAt (c ++ c') x) := by
  intro x
  by_cases hx : x < tall a
  · rw [levelAt_left hx, levelAt_left (hb ▸ hx), levelAt_left (hc ▸ hx)]; exact h1 x hx
  · obtain ⟨y, rfl⟩ : ∃ y, x = tall a + y := ⟨x - tall a, by omega⟩
    rw [levelAt_right]
    rw [show levelAt (b ++ b') (tall a + y) = levelAt b' y by rw [hb, levelAt_right],
      show levelAt (c ++ c') (tall a + y) = levelAt c' y by rw [hc, levelAt_right]]
    exact h2 y

theorem Splits.at {n m : ℕ} {s : List ℕ} (h : Splits n (m :: s)) : ∀ x < 2 ^ (30 - n),
    n ≤ levelAt (m :: s) x := by
  intro x hx
  exact (h.le _ (levelAt_mem (by rwa [h.tall_eq]))).1

theorem unionLoop_spec : ∀ (k : ℕ) {a b c : List ℕ} {z e : ℕ}, Column z a e → Column z b e → a.length ≤ k →
    ∃ u, unionLoop k a b c = some (c ++ u) ∧ Column z u e ∧
      ∀ x, levelAt u x = max (levelAt a x) (levelAt b x) := by
  intro k
  induction k with
  | zero =>
    intro a b c z e ha hb hk
    obtain rfl : a = [] := List.length_eq_zero_iff.1 (by omega)
    have hz : z = e := ha
    have hb' := column_tall hb
    refine ⟨[], by simp [unionLoop], ha, fun x => ?_⟩
    rw [levelAt_above (a := b) (by omega)]
    simp [levelAt]
  | succ k ih =>
    intro a b c z e ha hb hk
    match a, b, ha, hb with
    | [], b, ha, hb =>
      have hz : z = e := ha
      have hb' := column_tall hb
      refine ⟨[], by simp [unionLoop], ha, fun x => ?_⟩
      rw [levelAt_above (a := b) (by omega)]
      simp [levelAt]
    | al :: a, [], ha, hb =>
      have := column_le ha
      have hz : z = e := hb
      have := len_pos al
      omega
    | al :: a, bl :: b, ha, hb =>
      simp only [List.length_cons] at hk
      simp only [unionLoop]
      by_cases h1 : al = bl
      · subst h1
        obtain ⟨u, h, hu, hm⟩ := ih (c := c ++ [al]) ha.2.2 hb.2.2 (by omega)
        refine ⟨al :: u, by simp [h], ⟨ha.1, ha.2.1, hu⟩, ?_⟩
        exact at_append3 (a := [al]) (b := [al]) (c := [al]) (R := fun u x y => u = max x y)
          rfl rfl (by simp) hm
      · rw [if_neg h1]
        by_cases h2 : al > bl
        · rw [if_pos h2]
          obtain ⟨s, rest, hn, rfl, hs, hr⟩ := fine_prefix ha hb h2
          have ht := hs.tall_eq
          rw [tall_cons] at ht
          rw [copyFine_eq s hn (by simpa [layerLen] using ht)]
          simp only [List.length_append] at hk
          obtain ⟨u, h, hu, hm⟩ := ih (c := c ++ al :: s) hr hb.2.2 (by omega)
          refine ⟨(al :: s) ++ u, by simp [h], ?_, ?_⟩
          · rw [column_append, hs.tall_eq]
            exact ⟨hs.column hb.2.1, hu⟩
          · refine at_append3 (a := al :: s) (b := al :: s) (c := [bl]) (R := fun u x y => u = max x y)
              rfl (by rw [hs.tall_eq, tall_one]) (fun x hx => ?_) hm
            rw [hs.tall_eq] at hx
            rw [levelAt_one hx]
            have := hs.at x hx
            omega
        · rw [if_neg h2]
          obtain ⟨s, rest, hn, rfl, hs, hr⟩ := fine_prefix hb ha (by omega)
          have ht := hs.tall_eq
          rw [tall_cons] at ht
          rw [copyFine_eq s hn (by simpa [layerLen] using ht)]
          obtain ⟨u, h, hu, hm⟩ := ih (c := c ++ bl :: s) ha.2.2 hr (by omega)
          refine ⟨(bl :: s) ++ u, by simp [h], ?_, ?_⟩
          · rw [column_append, hs.tall_eq]
            exact ⟨hs.column ha.2.1, hu⟩
          · refine at_append3 (a := bl :: s) (b := [al]) (c := bl :: s) (R := fun u x y => u = max x y)
              (by rw [hs.tall_eq, tall_one]) rfl (fun x hx => ?_) hm
            rw [hs.tall_eq] at hx
            rw [levelAt_one hx]
            have := hs.at x hx
            omega

theorem intersectionLoop_spec : ∀ (k : ℕ) {a b c : List ℕ} {z e : ℕ}, Column z a e → Column z b e →
    a.length ≤ k → ∃ u, intersectionLoop k a b c = some (c ++ u) ∧ Column z u e ∧
      ∀ x, levelAt u x = min (levelAt a x) (levelAt b x) := by
  intro k
  induction k with
  | zero =>
    intro a b c z e ha hb hk
    obtain rfl : a = [] := List.length_eq_zero_iff.1 (by omega)
    exact ⟨[], by simp [intersectionLoop], ha, fun x => by simp [levelAt]⟩
  | succ k ih =>
    intro a b c z e ha hb hk
    match a, b, ha, hb with
    | [], b, ha, hb => exact ⟨[], by simp [intersectionLoop], ha, fun x => by simp [levelAt]⟩
    | al :: a, [], ha, hb =>
      have := column_le ha
      have hz : z = e := hb
      have := len_pos al
      omega
    | al :: a, bl :: b, ha, hb =>
      simp only [List.length_cons] at hk
      simp only [intersectionLoop]
      by_cases h1 : al = bl
      · subst h1
        obtain ⟨u, h, hu, hm⟩ := ih (c := c ++ [al]) ha.2.2 hb.2.2 (by omega)
        refine ⟨al :: u, by simp [h], ⟨ha.1, ha.2.1, hu⟩, ?_⟩
        exact at_append3 (a := [al]) (b := [al]) (c := [al]) (R := fun u x y => u = min x y)
          rfl rfl (by simp) hm
      · rw [if_neg h1]
        by_cases h2 : al > bl
        · rw [if_pos h2]
          obtain ⟨s, rest, hn, rfl, hs, hr⟩ := fine_prefix ha hb h2
          have ht := hs.tall_eq
          rw [tall_cons] at ht
          rw [skipFine_eq s hn (by simpa [layerLen] using ht)]
          simp only [List.length_append] at hk
          obtain ⟨u, h, hu, hm⟩ := ih (c := c ++ [bl]) hr hb.2.2 (by omega)
          refine ⟨bl :: u, by simp [h], ⟨hb.1, hb.2.1, hu⟩, ?_⟩
          refine at_append3 (a := [bl]) (b := al :: s) (c := [bl]) (R := fun u x y => u = min x y)
              (by rw [hs.tall_eq, tall_one]) rfl (fun x hx => ?_) hm
          rw [tall_one] at hx
          rw [levelAt_one hx]
          have := hs.at x hx
          omega
        · rw [if_neg h2]
          obtain ⟨s, rest, hn, rfl, hs, hr⟩ := fine_prefix hb ha (by omega)
          have ht := hs.tall_eq
          rw [tall_cons] at ht
          rw [skipFine_eq s hn (by simpa [layerLen] using ht)]
          obtain ⟨u, h, hu, hm⟩ := ih (c := c ++ [al]) ha.2.2 hr (by omega)
          refine ⟨al :: u, by simp [h], ⟨ha.1, ha.2.1, hu⟩, ?_⟩
          refine at_append3 (a := [al]) (b := [al]) (c := bl :: s) (R := fun u x y => u = min x y)
              rfl (by rw [hs.tall_eq, tall_one]) (fun x hx => ?_) hm
          rw [tall_one] at hx
          rw [levelAt_one hx]
          have := hs.at x hx
          omega

end P4est
