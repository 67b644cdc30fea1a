import Verif.Lemmas.Family
import Verif.Model.Linear

namespace P4est
open Spec

variable {d : ℕ}

theorem foldl_or_testBit {α : Type} (l : List α) (f : α → ℕ) (init j : ℕ) :
    (l.foldl (fun id a => id ||| f a) init).testBit j =
      (init.testBit j || l.any (fun a => (f a).testBit j)) := by
  induction l generalizing init with
  | nil => simp
  | cons a l ih => rw [List.foldl_cons, ih, Nat.testBit_or, List.any_cons, Bool.or_assoc]

theorem foldl_or2_testBit {α β : Type} (l : List α) (m : List β) (f : α → β → ℕ) (init j : ℕ) :
    (l.foldl (fun id i => m.foldl (fun id a => id ||| f i a) id) init).testBit j =
      (init.testBit j || l.any (fun i => m.any (fun a => (f i a).testBit j))) := by
  induction l generalizing init with
  | nil => simp
  | cons a l ih => rw [List.foldl_cons, ih, foldl_or_testBit, List.any_cons, Bool.or_assoc]

theorem interleave_testBit (n : ℕ) (c : Fin d → ℕ) (i : ℕ) (a : Fin d) :
    (interleave n c).testBit (d * i + a) = (decide (i < n) && (c a).testBit i) := by
  induction n generalizing c i with
  | zero => simp [interleave]
  | succ n ih =>
    rw [interleave, Nat.testBit_two_pow_mul_add _ (digit_lt c)]
    cases i with
    | zero =>
      rw [if_pos (by simp), show d * 0 + (a:ℕ) = a by simp, digit_testBit, Nat.testBit_zero]
      simp
    | succ i =>
      rw [if_neg (by rw [Nat.mul_succ]; omega),
        show d * (i + 1) + (a:ℕ) - d = d * i + a by rw [Nat.mul_succ]; omega, ih,
        Nat.testBit_succ]
      simp

/-- Every bit position is `d * i + a`. -/
theorem bit_position (hd : 0 < d) (j : ℕ) : ∃ (i : ℕ) (a : Fin d), j = d * i + a :=
  ⟨j / d, ⟨j % d, Nat.mod_lt _ hd⟩, (Nat.div_add_mod j d).symm⟩

theorem bit_position_inj {i i' : ℕ} {a a' : Fin d} (h : d * i + (a:ℕ) = d * i' + a') :
    i = i' ∧ a = a' := by
  obtain ⟨h1, h2⟩ := mul_add_inj a.2 a'.2 h
  exact ⟨h1, Fin.ext h2⟩

theorem interleave_loop (hd : 0 < d) (n : ℕ) (x : Fin d → ℕ) :
    (List.range n).foldl (fun id i => (List.finRange d).foldl (fun id a =>
      id ||| (if (x a).testBit i then 2 ^ (d * i + a) else 0)) id) 0 = interleave n x := by
  apply Nat.eq_of_testBit_eq
  intro j
  obtain ⟨i, a, rfl⟩ := bit_position hd j
  rw [interleave_testBit]
  rw [foldl_or2_testBit (List.range n) (List.finRange d)
    (fun i a => if (x a).testBit i then 2 ^ (d * i + (a:ℕ)) else 0)]
  rw [Nat.zero_testBit, Bool.false_or, Bool.eq_iff_iff]
  simp only [List.any_eq_true, List.mem_range, List.mem_finRange, true_and, Bool.and_eq_true,
    decide_eq_true_eq]
  constructor
  · rintro ⟨i', hi', a', h⟩
    split at h
    · rename_i hb
      rw [Nat.testBit_two_pow] at h
      have h := bit_position_inj (of_decide_eq_true h)
      rw [← h.1, ← h.2]
      exact ⟨hi', hb⟩
    · simp at h
  · rintro ⟨hi, hb⟩
    refine ⟨i, hi, a, ?_⟩
    rw [if_pos hb, Nat.testBit_two_pow]
    simp

theorem foldl_congr_mem {α β : Type} {l : List α} {f g : β → α → β} {b : β}
    (h : ∀ b, ∀ a ∈ l, f b a = g b a) : l.foldl f b = l.foldl g b := by
  induction l generalizing b with
  | nil => rfl
  | cons a l ih =>
    rw [List.foldl_cons, List.foldl_cons, h b a (by simp)]
    exact ih (fun b a ha => h b a (by simp [ha]))

theorem bit_lt_width {W level i : ℕ} (hW : d * (level + 2) ≤ W) (hi : i < level + 2) (a : Fin d) :
    2 ^ (d * i + (a:ℕ)) % 2 ^ W = 2 ^ (d * i + (a:ℕ)) := by
  apply Nat.mod_eq_of_lt
  apply Nat.pow_lt_pow_right (by norm_num)
  have h1 : d * (i + 1) ≤ d * (level + 2) := Nat.mul_le_mul_left d (by omega)
  have := a.2
  rw [Nat.mul_succ] at h1
  omega

theorem linearIdExt_eq (hd : 0 < d) {W level : ℕ} (hW : d * (level + 2) ≤ W) (q : Quad d) :
    linearIdExt W q level = interleave (level + 2) (shifted q level) := by
  unfold linearIdExt
  rw [← interleave_loop hd]
  apply foldl_congr_mem
  intro b i hi
  apply foldl_congr_mem
  intro b a _
  rw [bit_lt_width hW (List.mem_range.mp hi) a, Nat.and_two_pow]
  cases (shifted q level a).testBit i <;> simp

theorem linearId_eq (hd : 0 < d) {level : ℕ} (hW : d * (level + 2) ≤ 64) (q : Quad d) :
    linearId q level = interleave (level + 2) (shifted q level) := by
  unfold linearId
  rw [← interleave_loop hd]
  apply foldl_congr_mem
  intro b i hi
  apply foldl_congr_mem
  intro b a _
  rw [Nat.and_two_pow]
  cases (shifted q level a).testBit i
  · simp
  · have e : 2 ^ i <<< ((d - 1) * i + (a:ℕ)) = 2 ^ (d * i + (a:ℕ)) := by
      rw [Nat.shiftLeft_eq, ← pow_add]
      congr 1
      obtain ⟨e, rfl⟩ : ∃ e, d = e + 1 := ⟨d - 1, by omega⟩
      simp only [Nat.add_sub_cancel]; ring
    simp only [Bool.toNat_true, one_mul, if_true]
    rw [e, bit_lt_width hW (List.mem_range.mp hi) a]

theorem shifted_mod (q : Quad d) {level : ℕ} (hl : level ≤ 30) (a : Fin d) :
    shifted q level a % 2 ^ (level + 2) = (u32 (q.c a) / 2 ^ (30 - level)) % 2 ^ (level + 2) := by
  have h1 : ((shifted q level a : ℕ) : ℤ) = (q.c a / 2 ^ (30 - level)) % 2 ^ 64 := by
    unfold shifted MAXLEVEL
    rw [Int.toNat_of_nonneg (Int.emod_nonneg _ (by norm_num)), Int.shiftRight_eq_div_pow]
    push_cast; rfl
  have h2 : ((shifted q level a % 2 ^ (level + 2) : ℕ) : ℤ) =
      (q.c a / 2 ^ (30 - level)) % 2 ^ (level + 2) := by
    push_cast
    rw [h1, Int.emod_emod_of_dvd _ (pow_dvd_pow _ (by omega))]
  have h3 : (((u32 (q.c a) / 2 ^ (30 - level)) % 2 ^ (level + 2) : ℕ) : ℤ) =
      (q.c a / 2 ^ (30 - level)) % 2 ^ (level + 2) := by
    push_cast
    rw [u32_cast]
    have e := Int.emod_add_mul_ediv (q.c a) (2 ^ 32)
    have e2 : (2:ℤ) ^ 32 = 2 ^ (30 - level) * 2 ^ (level + 2) := by rw [← pow_add]; congr 1; omega
    conv_rhs => rw [← e]
    rw [e2, mul_assoc, Int.add_mul_ediv_left _ _ (by positivity), Int.add_mul_emod_self_left]
  exact_mod_cast h2.trans h3.symm

theorem blockIndex_eq (q : Quad d) {level : ℕ} (hl : level ≤ 30) :
    blockIndex level q.c = interleave (level + 2) (shifted q level) := by
  unfold blockIndex
  rw [curve_div _ _ (by omega), show 32 - (30 - level) = level + 2 by omega]
  apply interleave_congr
  intro a
  exact (shifted_mod q hl a).symm

theorem linearIdExt_blockIndex (hd : 0 < d) {W level : ℕ} (hl : level ≤ 30)
    (hW : d * (level + 2) ≤ W) (q : Quad d) : linearIdExt W q level = blockIndex level q.c := by
  rw [linearIdExt_eq hd hW, blockIndex_eq q hl]

theorem linearId_blockIndex (hd : 0 < d) {level : ℕ} (hl : level ≤ 30)
    (hW : d * (level + 2) ≤ 64) (q : Quad d) : linearId q level = blockIndex level q.c := by
  rw [linearId_eq hd hW, blockIndex_eq q hl]

/-! ### set_morton -/

/-- The coordinate of `set_morton` before the final shift. -/
def deinter (d level id : ℕ) (a : ℕ) : ℕ :=
  (List.range (level + 2)).foldl (fun x i => x ||| (if id.testBit (d * i + a) then 2 ^ i else 0)) 0

theorem deinter_testBit (level id a j : ℕ) :
    (deinter d level id a).testBit j = (decide (j < level + 2) && id.testBit (d * j + a)) := by
  unfold deinter
  rw [foldl_or_testBit, Nat.zero_testBit, Bool.false_or, Bool.eq_iff_iff]
  simp only [List.any_eq_true, List.mem_range, Bool.and_eq_true, decide_eq_true_eq]
  constructor
  · rintro ⟨i, hi, h⟩
    split at h
    · rename_i hb
      rw [Nat.testBit_two_pow] at h
      have h := of_decide_eq_true h
      subst h
      exact ⟨hi, hb⟩
    · simp at h
  · rintro ⟨hi, hb⟩
    refine ⟨j, hi, ?_⟩
    rw [if_pos hb, Nat.testBit_two_pow]; simp

theorem deinter_lt (level id a : ℕ) : deinter d level id a < 2 ^ (level + 2) := by
  apply Nat.lt_pow_two_of_testBit
  intro j hj
  rw [deinter_testBit]
  simp; omega

theorem interleave_deinter (hd : 0 < d) {level id : ℕ} (hid : id < 2 ^ (d * (level + 2))) :
    interleave (level + 2) (fun a : Fin d => deinter d level id a) = id := by
  apply Nat.eq_of_testBit_eq
  intro j
  obtain ⟨i, a, rfl⟩ := bit_position hd j
  rw [interleave_testBit, deinter_testBit]
  by_cases hi : i < level + 2
  · simp [hi]
  · have : id.testBit (d * i + a) = false := by
      apply Nat.testBit_lt_two_pow
      apply lt_of_lt_of_le hid
      apply Nat.pow_le_pow_right (by norm_num)
      have : d * (level + 2) ≤ d * i := Nat.mul_le_mul_left d (by omega)
      omega
    simp [hi, this]

theorem setMortonExt_eq (level id : ℕ) : (setMortonExt level id : Quad d) =
    ⟨fun a => i32 (deinter d level id a * 2 ^ (30 - level)), level⟩ := by
  unfold setMortonExt deinter MAXLEVEL
  congr
  funext a
  congr 2
  apply foldl_congr_mem
  intro b i _
  rw [Nat.and_two_pow]
  cases id.testBit (d * i + (a:ℕ)) <;> simp

theorem setMorton_eq (hd : 0 < d) (level id : ℕ) : (setMorton level id : Quad d) =
    ⟨fun a => i32 (deinter d level id a * 2 ^ (30 - level)), level⟩ := by
  unfold setMorton deinter MAXLEVEL
  congr
  funext a
  congr 2
  apply foldl_congr_mem
  intro b i _
  rw [Nat.and_two_pow]
  cases id.testBit (d * i + (a:ℕ))
  · simp
  · have e : 2 ^ (d * i + (a:ℕ)) >>> ((d - 1) * i + (a:ℕ)) = 2 ^ i := by
      rw [Nat.shiftRight_eq_div_pow]
      obtain ⟨e, rfl⟩ : ∃ e, d = e + 1 := ⟨d - 1, by omega⟩
      simp only [Nat.add_sub_cancel]
      rw [show (e + 1) * i + (a:ℕ) = i + (e * i + (a:ℕ)) by ring, pow_add]
      exact Nat.mul_div_cancel _ (by positivity)
    simp only [Bool.toNat_true, one_mul, if_true]
    rw [e]

theorem u32_i32 (n : ℕ) : u32 (i32 n) = n % 2 ^ 32 := by
  have h := u32_cast (i32 n)
  have h2 : i32 n = ((n % 2 ^ 32 : ℕ) : ℤ) ∨ i32 n = ((n % 2 ^ 32 : ℕ) : ℤ) - 2 ^ 32 := by
    unfold i32; split
    · exact Or.inl rfl
    · exact Or.inr rfl
  omega

theorem i32_range (n : ℕ) : -2 ^ 31 ≤ i32 n ∧ i32 n < 2 ^ 31 := by
  unfold i32; split <;> omega

theorem setMortonExt_int32 (level id : ℕ) : Int32 (setMortonExt level id : Quad d).c := by
  rw [setMortonExt_eq]
  exact fun a => i32_range _

theorem setMortonExt_aligned {level id : ℕ} (hl : level ≤ 30) :
    Aligned (setMortonExt level id : Quad d) := by
  rw [setMortonExt_eq]
  refine ⟨hl, fun a => ?_⟩
  simp only [side]
  have hm := deinter_lt (d := d) level id a
  have e : (2:ℕ) ^ 32 = 2 ^ (level + 2) * 2 ^ (30 - level) := by rw [← pow_add]; congr 1; omega
  have hlt : deinter d level id a * 2 ^ (30 - level) < 2 ^ 32 := by
    rw [e]; exact Nat.mul_lt_mul_of_pos_right hm (by positivity)
  unfold i32
  rw [Nat.mod_eq_of_lt hlt]
  split
  · push_cast; exact Dvd.intro_left _ rfl
  · push_cast
    apply dvd_sub
    · exact Dvd.intro_left _ rfl
    · exact (pow_dvd_pow (2:ℤ) (by omega : 30 - level ≤ 32))

theorem blockIndex_setMortonExt (hd : 0 < d) {level id : ℕ} (hl : level ≤ 30)
    (hid : id < 2 ^ (d * (level + 2))) :
    blockIndex level (setMortonExt level id : Quad d).c = id := by
  unfold blockIndex
  rw [curve_div _ _ (by omega), show 32 - (30 - level) = level + 2 by omega]
  conv_rhs => rw [← interleave_deinter hd hid]
  apply interleave_congr
  intro a
  congr 1
  rw [setMortonExt_eq]
  simp only [u32_i32]
  have hm := deinter_lt (d := d) level id a
  have e : (2:ℕ) ^ 32 = 2 ^ (level + 2) * 2 ^ (30 - level) := by rw [← pow_add]; congr 1; omega
  have hlt : deinter d level id a * 2 ^ (30 - level) < 2 ^ 32 := by
    rw [e]; exact Nat.mul_lt_mul_of_pos_right hm (by positivity)
  rw [Nat.mod_eq_of_lt hlt, Nat.mul_div_cancel _ (by positivity)]

/-- Quadrants of one level are determined by their block index. -/
theorem eq_of_blockIndex {q r : Quad d} (hq : Aligned q) (hr : Aligned r) (hqi : Int32 q.c)
    (hri : Int32 r.c) (hl : q.level = r.level)
    (h : blockIndex q.level q.c = blockIndex q.level r.c) : q = r := by
  apply Quad.ext' _ hl
  intro i
  unfold blockIndex at h
  have := (curve_div_eq_iff hqi hri _ (by omega : 30 - q.level ≤ 31)).mp h i
  rw [hq.c_eq i, hr.c_eq i, ← hl, this]

theorem blockIndex_lt (level : ℕ) (hl : level ≤ 30) (p : Fin d → ℤ) :
    blockIndex level p < 2 ^ (d * (level + 2)) := by
  unfold blockIndex
  rw [curve_div _ _ (by omega), show 32 - (30 - level) = level + 2 by omega]
  exact interleave_lt _ _

theorem start_eq_blockIndex {q : Quad d} (hq : Aligned q) :
    start q = volume q * blockIndex q.level q.c := by
  obtain ⟨a, ha⟩ := volume_dvd_curve hq
  unfold start blockIndex
  change curve q.c = volume q * (curve q.c / volume q)
  rw [ha, Nat.mul_div_cancel_left _ (volume_pos q)]

/-- Quadrants inside the root have small block indices. -/
theorem blockIndex_root {level : ℕ} (hl : level ≤ 30) {p : Fin d → ℤ} (h : ∀ i, 0 ≤ p i ∧ p i < 2 ^ 30) :
    blockIndex level p < 2 ^ (d * level) := by
  unfold blockIndex
  rw [curve_div _ _ (by omega), show 32 - (30 - level) = level + 2 by omega]
  have : interleave (level + 2) (fun i => u32 (p i) / 2 ^ (30 - level)) =
      interleave level (fun i => u32 (p i) / 2 ^ (30 - level)) := by
    rw [show level + 2 = 2 + level by ring, interleave_split]
    have : interleave 2 (fun i => u32 (p i) / 2 ^ (30 - level) / 2 ^ level) = 0 := by
      rw [← interleave_zero (d := d) 2]
      apply interleave_congr
      intro i
      rw [Nat.div_div_eq_div_mul, ← pow_add, show 30 - level + level = 30 by omega]
      have h1 := u32_cast (p i)
      have h2 := h i
      have : u32 (p i) / 2 ^ 30 = 0 := by
        apply Nat.div_eq_of_lt; omega
      rw [this]
    rw [this]; simp
  rw [this]
  exact interleave_lt _ _

end P4est
