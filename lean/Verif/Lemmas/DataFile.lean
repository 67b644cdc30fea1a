import Verif.Spec.DataFile
import Mathlib.Data.Nat.Digits.Lemmas
import Mathlib.Tactic

/-! # Layout of data files -/

namespace P4est

open Spec

/-! ### Padding -/

theorem padding_some {n : ℕ} (h : n % 16 ≠ 15) : padding n = some (padBytes n) ∧ 2 ≤ padBytes n ∧ padBytes n ≤ 16 ∧ (n + padBytes n) % 16 = 0 := by
  unfold padding
  have : 1 < padBytes n ∧ padBytes n ≤ 16 ∧ (n + padBytes n) % 16 = 0 := by
    unfold padBytes
    dsimp only
    split <;> omega
  grind

theorem padding_none {n : ℕ} (h : n % 16 = 15) : padding n = none := by
  unfold padding padBytes
  dsimp only
  rw [if_neg]
  split <;> omega

theorem length_padString {k : ℕ} (h : 2 ≤ k) : (padString k).length = k := by
  simp [padString]; omega

/-! ### Strings -/

theorem length_padRight {w : ℕ} {s : List Byte} (h : s.length ≤ w) : (padRight w s).length = w := by
  simp [padRight]; omega

theorem takeWhile_self {α : Type} {p : α → Bool} {l : List α} (h : ∀ x ∈ l, p x = true) : l.takeWhile p = l := by
  induction l with
  | nil => rfl
  | cons x l ih => rw [List.takeWhile_cons, if_pos (h x (by simp)), ih fun y hy => h y (by simp [hy])]

theorem cstr_eq {s : List Byte} (h : 0 ∉ s) : cstr s = s := by
  unfold cstr
  apply takeWhile_self
  intro x hx
  simp only [decide_eq_true_eq]
  rintro rfl
  exact h hx

theorem zero_padRight {w : ℕ} {s : List Byte} (h : 0 ∉ s) : 0 ∉ padRight w s := by
  simp only [padRight, List.mem_append, List.mem_replicate, not_or]
  exact ⟨h, fun c => absurd c.2 (by decide)⟩

theorem length_digits {w n : ℕ} (h : n < 10 ^ w) : (Nat.digits 10 n).length ≤ w := by
  rwa [Nat.digits_length_le_iff (by norm_num)]

theorem length_decimal {w n : ℕ} (h : n < 10 ^ w) : (decimal w n).length = w := by
  have := length_digits h
  simp [decimal]; omega

theorem digit_decimal {w n : ℕ} {c : Byte} (h : c ∈ decimal w n) : 48 ≤ c ∧ c ≤ 57 := by
  simp only [decimal, List.mem_append, List.mem_replicate, List.mem_map, List.mem_reverse] at h
  rcases h with ⟨_, rfl⟩ | ⟨x, hx, rfl⟩
  · decide
  · have := Nat.digits_lt_base (by norm_num) hx
    interval_cases x <;> decide

theorem zero_decimal {w n : ℕ} : 0 ∉ decimal w n := by
  intro h
  exact absurd (digit_decimal h).1 (by decide)

theorem value_decimal (w n : ℕ) : (decimal w n).foldl (fun v c => 10 * v + (c.val - 48)) 0 = n := by
  unfold decimal
  dsimp only
  rw [List.foldl_append]
  have h0 : ∀ m, (List.replicate m (48 : Byte)).foldl (fun v c => 10 * v + (c.val - 48)) 0 = 0 := by
    intro m
    induction m with
    | zero => rfl
    | succ m ih => simpa [List.replicate_succ] using ih
  rw [h0, List.map_reverse, List.foldl_reverse, List.foldr_map]
  conv_rhs => rw [← Nat.ofDigits_digits 10 n]
  have : ∀ l : List ℕ, (∀ x ∈ l, x < 10) → l.foldr (fun x v => 10 * v + ((Fin.ofNat 256 (48 + x)).val - 48)) 0 = Nat.ofDigits 10 l := by
    intro l hl
    induction l with
    | nil => rfl
    | cons x l ih =>
      have hx := hl x (by simp)
      rw [List.foldr_cons, ih (fun y hy => hl y (by simp [hy])), Nat.ofDigits_cons]
      have : (Fin.ofNat 256 (48 + x)).val = 48 + x := by simp [Fin.ofNat]; omega
      rw [this]
      push_cast
      omega
  exact this _ fun x hx => Nat.digits_lt_base (by norm_num) hx

theorem atol_decimal {w n : ℕ} : atol (decimal w n) = n := by
  have hd : ∀ c ∈ decimal w n, 48 ≤ c ∧ c ≤ 57 := fun c h => digit_decimal h
  have h1 : (decimal w n).dropWhile (fun c => decide (c = 32 ∨ (9 ≤ c ∧ c ≤ 13))) = decimal w n := by
    rcases h : decimal w n with _ | ⟨c, l⟩
    · rfl
    · rw [List.dropWhile_cons, if_neg]
      have := hd c (by simp [h])
      simp only [decide_eq_true_eq]
      exact (by decide +kernel : ∀ c : Byte, 48 ≤ c ∧ c ≤ 57 → ¬(c = 32 ∨ 9 ≤ c ∧ c ≤ 13)) c this
  have h2 : (decimal w n).head? ≠ some 45 ∧ (decimal w n).head? ≠ some 43 := by
    constructor <;>
    · intro h
      have := hd _ (List.mem_of_head? h)
      revert this
      decide
  have h3 : (decimal w n).takeWhile (fun c => decide (48 ≤ c ∧ c ≤ 57)) = decimal w n := by
    apply takeWhile_self
    intro c hc
    simpa using hd c hc
  unfold atol
  simp only [h1, h2.1, h2.2, h3, or_self, if_false, value_decimal, decide_false]
  simp

/-! ### Headers -/

theorem sectionHeader_eq {type : Byte} {size : ℕ} {str : List Byte} (hs : str.length < 48) (hn : size ≤ 9999999999999) :
    sectionHeader type size str = [type, 32] ++ decimal 13 size ++ [10] ++ padRight 47 str ++ [10] := by
  unfold sectionHeader
  have h1 : (decimal 13 size).length = 13 := length_decimal (by omega)
  have h2 : (padRight 47 str).length = 47 := length_padRight (by omega)
  apply List.take_of_length_le
  simp [h1, h2]

/-- What the checks find in the header of a section. -/
structure HeaderFacts (type : Byte) (size : ℕ) (str h : List Byte) : Prop where
  length : h.length = 64
  type : h[0]? = some type
  nl : h[15]? = some 10
  nl' : h[63]? = some 10
  size : (h.drop 2).take 13 = decimal 13 size
  str : (h.drop 16).take 47 = padRight 47 str
  space : h[1]? = some 32
  digit : ∀ i, 2 ≤ i → i < 15 → ∃ c, h[i]? = some c ∧ c ≠ 10

theorem sectionHeader_facts {type : Byte} {size : ℕ} {str : List Byte} (hs : str.length < 48) (hn : size ≤ 9999999999999) :
    HeaderFacts type size str (sectionHeader type size str) := by
  rw [sectionHeader_eq hs hn]
  have h1 : (decimal 13 size).length = 13 := length_decimal (by omega)
  have h2 : (padRight 47 str).length = 47 := length_padRight (by omega)
  have hd : ∀ c ∈ decimal 13 size, c ≠ 10 := by
    rintro c hc rfl
    exact absurd (digit_decimal hc).1 (by decide)
  generalize hD : decimal 13 size = D at *
  generalize hS : padRight 47 str = S at *
  refine ⟨by simp [h1, h2], by simp, ?_, ?_, ?_, ?_, by simp, ?_⟩
  · rw [List.append_assoc, List.append_assoc, List.getElem?_append_right (by simp [h1])]
    simp [h1]
  · rw [List.getElem?_append_right (by simp [h1, h2])]
    simp [h1, h2]
  · rw [List.append_assoc, List.append_assoc, List.append_assoc, List.drop_append_of_le_length (by simp)]
    simp [h1, hD]
  · rw [List.append_assoc, List.drop_left' (by simp [h1]), List.take_left' h2, hS]
  · intro i hi hi'
    rw [List.append_assoc, List.append_assoc, List.append_assoc, List.getElem?_append_right (by simpa using hi),
      List.getElem?_append_left (by simp [h1]; omega)]
    have hl : i - 2 < D.length := by omega
    refine ⟨D[i - 2], by simp [hl], hd _ (List.getElem_mem _)⟩

theorem fileHeader_eq {d : ℕ} {version str : List Byte} {gnq : ℕ} (hv : version.length ≤ 23) (hs : str.length < 48)
    (hn : gnq ≤ 9999999999999999) :
    fileHeader d version str gnq = (dataMagic d ++ [10] ++ padRight 23 version ++ [10] ++ padRight 47 str ++ [10] ++ decimal 16 gnq) ++
      (10 :: (List.replicate 14 32 ++ [10])) := by
  unfold fileHeader
  have h1 : (decimal 16 gnq).length = 16 := length_decimal (by omega)
  have h2 : (padRight 47 str).length = 47 := length_padRight (by omega)
  have h3 : (padRight 23 version).length = 23 := length_padRight hv
  rw [List.take_of_length_le]
  · simp [padRight, dataMagic]
  · simp [h1, padRight, dataMagic]
    omega

theorem checkHeader_eq {d : ℕ} {version str : List Byte} {gnq : ℕ} (hv : version.length ≤ 23) (hv0 : 0 ∉ version) (hs : str.length < 48)
    (hs0 : 0 ∉ str) (hn : gnq ≤ 9999999999999999) :
    checkHeader d (dataMagic d ++ [10] ++ padRight 23 version ++ [10] ++ padRight 47 str ++ [10] ++ decimal 16 gnq) =
      .ok ((padRight 47 str).take 46, gnq) := by
  have h1 : (decimal 16 gnq).length = 16 := length_decimal (by omega)
  have h2 : (padRight 47 str).length = 47 := length_padRight (by omega)
  have h3 : (padRight 23 version).length = 23 := length_padRight hv
  have h4 : (dataMagic d).length = 7 := by simp [dataMagic]
  have z1 : 0 ∉ decimal 16 gnq := zero_decimal
  have z2 : 0 ∉ padRight 47 str := zero_padRight hs0
  have z3 : 0 ∉ padRight 23 version := zero_padRight hv0
  have z4 : 0 ∉ dataMagic d := by unfold dataMagic; split <;> decide
  have ha := atol_decimal (w := 16) (n := gnq)
  unfold checkHeader
  generalize decimal 16 gnq = D at *
  generalize padRight 47 str = S at *
  generalize padRight 23 version = V at *
  generalize hM : dataMagic d = M at *
  have e7 : (M ++ [10] ++ V ++ [10] ++ S ++ [10] ++ D)[7]? = some 10 := by
    simp only [List.append_assoc]
    rw [List.getElem?_append_right (by omega)]
    simp [h4]
  have e31 : (M ++ [10] ++ V ++ [10] ++ S ++ [10] ++ D)[31]? = some 10 := by
    rw [show M ++ [10] ++ V ++ [10] ++ S ++ [10] ++ D = (M ++ [10] ++ V) ++ ([10] ++ S ++ [10] ++ D) by simp only [List.append_assoc],
      List.getElem?_append_right (by simp [h4, h3])]
    simp [h4, h3]
  have e79 : (M ++ [10] ++ V ++ [10] ++ S ++ [10] ++ D)[79]? = some 10 := by
    rw [show M ++ [10] ++ V ++ [10] ++ S ++ [10] ++ D = (M ++ [10] ++ V ++ [10] ++ S) ++ ([10] ++ D) by simp only [List.append_assoc],
      List.getElem?_append_right (by simp [h4, h3, h2])]
    simp [h4, h3, h2]
  have e8 : ((M ++ [10] ++ V ++ [10] ++ S ++ [10] ++ D).drop 8).take 23 = V := by
    rw [show M ++ [10] ++ V ++ [10] ++ S ++ [10] ++ D = (M ++ [10]) ++ (V ++ ([10] ++ S ++ [10] ++ D)) by simp only [List.append_assoc],
      List.drop_left' (by simp [h4]), List.take_left' h3]
  have e80 : (M ++ [10] ++ V ++ [10] ++ S ++ [10] ++ D).drop 80 = D := List.drop_left' (by simp [h4, h3, h2])
  have e0 : (M ++ [10] ++ V ++ [10] ++ S ++ [10] ++ D).take 7 = M := by
    simp only [List.append_assoc]
    exact List.take_left' h4
  have e32 : (M ++ [10] ++ V ++ [10] ++ S ++ [10] ++ D).drop 32 = S ++ [10] ++ D := by
    rw [show M ++ [10] ++ V ++ [10] ++ S ++ [10] ++ D = (M ++ [10] ++ V ++ [10]) ++ (S ++ [10] ++ D) by simp only [List.append_assoc]]
    exact List.drop_left' (by simp [h4, h3])
  rw [e7, e31, e79, e8, e80, e0, e32, cstr_eq z3, cstr_eq z1, cstr_eq z4, ha]
  have z5 : 0 ∉ S ++ [10] ++ D := by
    simp only [List.mem_append, List.mem_singleton, not_or]
    exact ⟨⟨z2, by decide⟩, z1⟩
  rw [cstr_eq z5, List.append_assoc]
  simp [h3, h1, List.take_append, h2]

end P4est
