import Verif.Lemmas.SeedsReach

/-! # The distances that can be made zero, in closed form -/

namespace P4est

/-! ## The sum with one bit less in every place -/

theorem or_half (x y : ℕ) : (x ||| y) / 2 = x / 2 ||| y / 2 := by
  have := Nat.shiftRight_or_distrib (a := x) (b := y) (i := 1)
  simpa [Nat.shiftRight_succ, Nat.shiftRight_zero] using this

theorem or_parity (x y : ℕ) : (x ||| y) % 2 = max (x % 2) (y % 2) := by
  have h := Nat.testBit_or x y 0
  simp only [Nat.testBit_zero] at h
  have h1 : (x ||| y) % 2 = 0 ∨ (x ||| y) % 2 = 1 := by omega
  have h2 : x % 2 = 0 ∨ x % 2 = 1 := by omega
  have h3 : y % 2 = 0 ∨ y % 2 = 1 := by omega
  rcases h1 with h1 | h1 <;> rcases h2 with h2 | h2 <;> rcases h3 with h3 | h3 <;>
    simp_all

theorem or_le_sum : ∀ x y : ℕ, x ||| y ≤ x + y := by
  intro x
  induction x using Nat.strong_induction_on with
  | _ x ih =>
    intro y
    by_cases hx : x = 0
    · subst hx; simp
    · have h1 := ih (x / 2) (by omega) (y / 2)
      rw [← or_half] at h1
      have h2 := or_parity x y
      omega

/-- The sum of three numbers, with one bit less in every place where there is one. -/
def carrySum (x y z : ℕ) : ℕ := x + y + z - (x ||| y ||| z)

theorem carrySum_half (x y z : ℕ) : carrySum x y z =
    2 * carrySum (x / 2) (y / 2) (z / 2) + (x % 2 + y % 2 + z % 2 - max (max (x % 2) (y % 2)) (z % 2)) := by
  unfold carrySum
  have h1 : (x ||| y ||| z) / 2 = x / 2 ||| y / 2 ||| z / 2 := by rw [or_half, or_half]
  have h2 : (x ||| y ||| z) % 2 = max (max (x % 2) (y % 2)) (z % 2) := by rw [or_parity, or_parity]
  have h3 := or_le_sum (x / 2 ||| y / 2) (z / 2)
  have h4 := or_le_sum (x / 2) (y / 2)
  rw [← h1] at h3 ⊢
  omega

/-- The closed form for faces and edges in 3D. -/
def Carry (m x y z : ℕ) : Prop := x < 2 ^ m ∧ y < 2 ^ m ∧ z < 2 ^ m ∧ carrySum x y z < 2 ^ m

theorem carry_zero {x y z : ℕ} : Carry 0 x y z ↔ x = 0 ∧ y = 0 ∧ z = 0 := by
  unfold Carry carrySum
  constructor
  · rintro ⟨h1, h2, h3, _⟩
    simp only [pow_zero] at h1 h2 h3
    omega
  · rintro ⟨rfl, rfl, rfl⟩
    simp

theorem lt_pow_succ {m x : ℕ} : x < 2 ^ (m + 1) ↔ x / 2 < 2 ^ m := by
  rw [pow_succ]; omega

/-- Two halves of an equation about the three numbers on the next finer level. -/
theorem carry_form {m x y z : ℕ} : Carry (m + 1) x y z ↔ (x / 2 < 2 ^ m ∧ y / 2 < 2 ^ m ∧ z / 2 < 2 ^ m ∧
    if x % 2 = 1 ∧ y % 2 = 1 ∧ z % 2 = 1 then carrySum (x / 2) (y / 2) (z / 2) + 1 < 2 ^ m
    else carrySum (x / 2) (y / 2) (z / 2) < 2 ^ m) := by
  unfold Carry
  rw [lt_pow_succ, lt_pow_succ, lt_pow_succ, carrySum_half x y z, pow_succ]
  generalize carrySum (x / 2) (y / 2) (z / 2) = f
  split <;> omega

theorem carry_one_more : ∀ {m x y z : ℕ}, (Carry m (x + 1) y z ∨ Carry m x (y + 1) z ∨ Carry m x y (z + 1)) ↔
    (x < 2 ^ m ∧ y < 2 ^ m ∧ z < 2 ^ m ∧ carrySum x y z + 1 < 2 ^ m)
  | 0, x, y, z => by
    simp only [carry_zero, pow_zero]
    omega
  | m + 1, x, y, z => by
    have ih := @carry_one_more m (x / 2) (y / 2) (z / 2)
    have ex : x % 2 = 0 ∨ x % 2 = 1 := by omega
    have ey : y % 2 = 0 ∨ y % 2 = 1 := by omega
    have ez : z % 2 = 0 ∨ z % 2 = 1 := by omega
    rw [lt_pow_succ, lt_pow_succ, lt_pow_succ, carrySum_half x y z]
    have up1 : ∀ {x : ℕ}, x % 2 = 0 → (x + 1) / 2 = x / 2 ∧ (x + 1) % 2 = 1 := by intro x; omega
    have up2 : ∀ {x : ℕ}, x % 2 = 1 → (x + 1) / 2 = x / 2 + 1 ∧ (x + 1) % 2 = 0 := by intro x; omega
    have key' : ∀ {a b c : ℕ}, a < 2 ^ m ∧ b < 2 ^ m ∧ c < 2 ^ m ∧ carrySum a b c < 2 ^ m ↔ Carry m a b c :=
      Iff.rfl
    rw [carry_form, carry_form, carry_form, pow_succ]
    rcases ex with ex | ex <;> rcases ey with ey | ey <;> rcases ez with ez | ez <;>
      simp only [ex, ey, ez, up1, up2, key', and_true, and_false, if_true, if_false,
        zero_ne_one, and_self] <;>
      (try simp only [Carry] at ih ⊢) <;> omega

theorem carry_rec {m x y z : ℕ} : Carry (m + 1) x y z ↔
    if x % 2 = 1 ∧ y % 2 = 1 ∧ z % 2 = 1 then
      (Carry m (x / 2 + 1) (y / 2) (z / 2) ∨ Carry m (x / 2) (y / 2 + 1) (z / 2) ∨
        Carry m (x / 2) (y / 2) (z / 2 + 1))
    else Carry m (x / 2) (y / 2) (z / 2) := by
  rw [carry_form]
  split
  · rw [carry_one_more]
  · rfl

theorem carry_mono : ∀ {m x y z x' y' z' : ℕ}, Carry m x' y' z' → x ≤ x' → y ≤ y' → z ≤ z' → Carry m x y z
  | 0, x, y, z, x', y', z', h, hx, hy, hz => by
    rw [carry_zero] at *; omega
  | m + 1, x, y, z, x', y', z', h, hx, hy, hz => by
    rw [carry_rec] at *
    split at h <;> rename_i ho'
    · split
      · rcases h with h | h | h
        · exact Or.inl (carry_mono h (by omega) (by omega) (by omega))
        · exact Or.inr (Or.inl (carry_mono h (by omega) (by omega) (by omega)))
        · exact Or.inr (Or.inr (carry_mono h (by omega) (by omega) (by omega)))
      · rcases h with h | h | h <;> exact carry_mono h (by omega) (by omega) (by omega)
    · split <;> rename_i ho
      · by_cases h1 : x' % 2 = 1
        · by_cases h2 : y' % 2 = 1
          · exact Or.inr (Or.inr (carry_mono h (by omega) (by omega) (by omega)))
          · exact Or.inr (Or.inl (carry_mono h (by omega) (by omega) (by omega)))
        · exact Or.inl (carry_mono h (by omega) (by omega) (by omega))
      · exact carry_mono h (by omega) (by omega) (by omega)

/-- One step when not all of the last bits are set. -/
theorem carry_not {m x y z a b c X Y Z : ℕ} (hx : X = 2 * x + a) (hy : Y = 2 * y + b) (hz : Z = 2 * z + c)
    (h : a + b + c < 3) (ha : a < 2) (hb : b < 2) (hc : c < 2) : Carry (m + 1) X Y Z ↔ Carry m x y z := by
  rw [carry_rec, if_neg (by omega), show X / 2 = x by omega, show Y / 2 = y by omega, show Z / 2 = z by omega]

/-- One step when all of the last bits are set. -/
theorem carry_all {m x y z X Y Z : ℕ} (hx : X = 2 * x + 1) (hy : Y = 2 * y + 1) (hz : Z = 2 * z + 1) :
    Carry (m + 1) X Y Z ↔ (Carry m (x + 1) y z ∨ Carry m x (y + 1) z ∨ Carry m x y (z + 1)) := by
  rw [carry_rec, if_pos (by omega), show X / 2 = x by omega, show Y / 2 = y by omega, show Z / 2 = z by omega]

theorem carry_swap {m x y z : ℕ} : Carry m x y z ↔ Carry m y x z := by
  unfold Carry carrySum
  rw [Nat.or_comm x y, Nat.add_comm x y]
  tauto

theorem carry_rot {m x y z : ℕ} : Carry m x y z ↔ Carry m y z x := by
  unfold Carry carrySum
  rw [show x ||| y ||| z = y ||| z ||| x by rw [Nat.or_assoc, Nat.or_comm], show x + y + z = y + z + x by omega]
  tauto

/-- Of the sums of pairs, one more in the third is as good as one more also in one of the others. -/
theorem pairs_one : ∀ {m x y z : ℕ}, Carry m (y + z) (z + x) (x + y + 1) →
    Carry m (y + z + 1) (z + x) (x + y + 1) ∨ Carry m (y + z) (z + x + 1) (x + y + 1)
  | 0, x, y, z, h => by rw [carry_zero] at h; omega
  | m + 1, x, y, z, h => by
    have ih := @pairs_one m (x / 2) (y / 2) (z / 2)
    have ex : x % 2 = 0 ∨ x % 2 = 1 := by omega
    have ey : y % 2 = 0 ∨ y % 2 = 1 := by omega
    have ez : z % 2 = 0 ∨ z % 2 = 1 := by omega
    rcases ex with ex | ex <;> rcases ey with ey | ey <;> rcases ez with ez | ez
    · rw [carry_not (x := y / 2 + z / 2) (y := z / 2 + x / 2) (z := x / 2 + y / 2) (a := 0) (b := 0) (c := 1) (by omega) (by omega) (by omega) (by omega) (by omega) (by omega) (by omega)] at h
      exact Or.inl ((carry_not (x := y / 2 + z / 2) (y := z / 2 + x / 2) (z := x / 2 + y / 2) (a := 1) (b := 0) (c := 1) (by omega) (by omega) (by omega) (by omega) (by omega) (by omega) (by omega)).mpr h)
    · rw [carry_all (x := y / 2 + z / 2) (y := z / 2 + x / 2) (z := x / 2 + y / 2) (by omega) (by omega) (by omega)] at h
      rcases h with h | h | h
      · exact Or.inl ((carry_not (x := y / 2 + z / 2 + 1) (y := z / 2 + x / 2) (z := x / 2 + y / 2) (a := 0) (b := 1) (c := 1) (by omega) (by omega) (by omega) (by omega) (by omega) (by omega) (by omega)).mpr h)
      · exact Or.inr ((carry_not (x := y / 2 + z / 2) (y := z / 2 + x / 2 + 1) (z := x / 2 + y / 2) (a := 1) (b := 0) (c := 1) (by omega) (by omega) (by omega) (by omega) (by omega) (by omega) (by omega)).mpr h)
      · rcases ih (carry_mono h (by omega) (by omega) (by omega)) with h | h
        · exact Or.inl ((carry_not (x := y / 2 + z / 2 + 1) (y := z / 2 + x / 2) (z := x / 2 + y / 2) (a := 0) (b := 1) (c := 1) (by omega) (by omega) (by omega) (by omega) (by omega) (by omega) (by omega)).mpr (carry_mono h (by omega) (by omega) (by omega)))
        · exact Or.inr ((carry_not (x := y / 2 + z / 2) (y := z / 2 + x / 2 + 1) (z := x / 2 + y / 2) (a := 1) (b := 0) (c := 1) (by omega) (by omega) (by omega) (by omega) (by omega) (by omega) (by omega)).mpr (carry_mono h (by omega) (by omega) (by omega)))
    · rw [carry_not (x := y / 2 + z / 2) (y := z / 2 + x / 2) (z := x / 2 + y / 2 + 1) (a := 1) (b := 0) (c := 0) (by omega) (by omega) (by omega) (by omega) (by omega) (by omega) (by omega)] at h
      exact Or.inr ((carry_not (x := y / 2 + z / 2) (y := z / 2 + x / 2) (z := x / 2 + y / 2 + 1) (a := 1) (b := 1) (c := 0) (by omega) (by omega) (by omega) (by omega) (by omega) (by omega) (by omega)).mpr h)
    · rw [carry_not (x := y / 2 + z / 2 + 1) (y := z / 2 + x / 2) (z := x / 2 + y / 2 + 1) (a := 0) (b := 1) (c := 0) (by omega) (by omega) (by omega) (by omega) (by omega) (by omega) (by omega)] at h
      exact Or.inl ((carry_not (x := y / 2 + z / 2 + 1) (y := z / 2 + x / 2) (z := x / 2 + y / 2 + 1) (a := 1) (b := 1) (c := 0) (by omega) (by omega) (by omega) (by omega) (by omega) (by omega) (by omega)).mpr h)
    · rw [carry_not (x := y / 2 + z / 2) (y := z / 2 + x / 2) (z := x / 2 + y / 2 + 1) (a := 0) (b := 1) (c := 0) (by omega) (by omega) (by omega) (by omega) (by omega) (by omega) (by omega)] at h
      exact Or.inl ((carry_not (x := y / 2 + z / 2) (y := z / 2 + x / 2) (z := x / 2 + y / 2 + 1) (a := 1) (b := 1) (c := 0) (by omega) (by omega) (by omega) (by omega) (by omega) (by omega) (by omega)).mpr h)
    · rw [carry_not (x := y / 2 + z / 2) (y := z / 2 + x / 2 + 1) (z := x / 2 + y / 2 + 1) (a := 1) (b := 0) (c := 0) (by omega) (by omega) (by omega) (by omega) (by omega) (by omega) (by omega)] at h
      exact Or.inr ((carry_not (x := y / 2 + z / 2) (y := z / 2 + x / 2 + 1) (z := x / 2 + y / 2 + 1) (a := 1) (b := 1) (c := 0) (by omega) (by omega) (by omega) (by omega) (by omega) (by omega) (by omega)).mpr h)
    · rw [carry_all (x := y / 2 + z / 2) (y := z / 2 + x / 2) (z := x / 2 + y / 2 + 1) (by omega) (by omega) (by omega)] at h
      rcases h with h | h | h
      · exact Or.inl ((carry_not (x := y / 2 + z / 2 + 1) (y := z / 2 + x / 2) (z := x / 2 + y / 2 + 1) (a := 0) (b := 1) (c := 1) (by omega) (by omega) (by omega) (by omega) (by omega) (by omega) (by omega)).mpr h)
      · exact Or.inr ((carry_not (x := y / 2 + z / 2) (y := z / 2 + x / 2 + 1) (z := x / 2 + y / 2 + 1) (a := 1) (b := 0) (c := 1) (by omega) (by omega) (by omega) (by omega) (by omega) (by omega) (by omega)).mpr h)
      · rcases ih (carry_mono h (by omega) (by omega) (by omega)) with h | h
        · exact Or.inl ((carry_not (x := y / 2 + z / 2 + 1) (y := z / 2 + x / 2) (z := x / 2 + y / 2 + 1) (a := 0) (b := 1) (c := 1) (by omega) (by omega) (by omega) (by omega) (by omega) (by omega) (by omega)).mpr (carry_mono h (by omega) (by omega) (by omega)))
        · exact Or.inr ((carry_not (x := y / 2 + z / 2) (y := z / 2 + x / 2 + 1) (z := x / 2 + y / 2 + 1) (a := 1) (b := 0) (c := 1) (by omega) (by omega) (by omega) (by omega) (by omega) (by omega) (by omega)).mpr (carry_mono h (by omega) (by omega) (by omega)))
    · rw [carry_not (x := y / 2 + z / 2 + 1) (y := z / 2 + x / 2 + 1) (z := x / 2 + y / 2 + 1) (a := 0) (b := 0) (c := 1) (by omega) (by omega) (by omega) (by omega) (by omega) (by omega) (by omega)] at h
      exact Or.inl ((carry_not (x := y / 2 + z / 2 + 1) (y := z / 2 + x / 2 + 1) (z := x / 2 + y / 2 + 1) (a := 1) (b := 0) (c := 1) (by omega) (by omega) (by omega) (by omega) (by omega) (by omega) (by omega)).mpr h)

/-- One more in all of the sums of pairs is as good as still one more in one of them. -/
theorem pairs_all : ∀ {m x y z : ℕ}, Carry m (y + z + 1) (z + x + 1) (x + y + 1) →
    Carry m (y + z + 2) (z + x + 1) (x + y + 1) ∨ Carry m (y + z + 1) (z + x + 2) (x + y + 1) ∨
      Carry m (y + z + 1) (z + x + 1) (x + y + 2)
  | 0, x, y, z, h => by rw [carry_zero] at h; omega
  | m + 1, x, y, z, h => by
    have ex : x % 2 = 0 ∨ x % 2 = 1 := by omega
    have ey : y % 2 = 0 ∨ y % 2 = 1 := by omega
    have ez : z % 2 = 0 ∨ z % 2 = 1 := by omega
    rcases ex with ex | ex <;> rcases ey with ey | ey <;> rcases ez with ez | ez
    · rw [carry_all (x := y / 2 + z / 2) (y := z / 2 + x / 2) (z := x / 2 + y / 2) (by omega) (by omega) (by omega)] at h
      rcases h with h | h | h
      · exact Or.inl ((carry_not (x := y / 2 + z / 2 + 1) (y := z / 2 + x / 2) (z := x / 2 + y / 2) (a := 0) (b := 1) (c := 1) (by omega) (by omega) (by omega) (by omega) (by omega) (by omega) (by omega)).mpr h)
      · exact Or.inr (Or.inl ((carry_not (x := y / 2 + z / 2) (y := z / 2 + x / 2 + 1) (z := x / 2 + y / 2) (a := 1) (b := 0) (c := 1) (by omega) (by omega) (by omega) (by omega) (by omega) (by omega) (by omega)).mpr h))
      · exact Or.inr (Or.inr ((carry_not (x := y / 2 + z / 2) (y := z / 2 + x / 2) (z := x / 2 + y / 2 + 1) (a := 1) (b := 1) (c := 0) (by omega) (by omega) (by omega) (by omega) (by omega) (by omega) (by omega)).mpr h))
    · rw [carry_not (x := y / 2 + z / 2 + 1) (y := z / 2 + x / 2 + 1) (z := x / 2 + y / 2) (a := 0) (b := 0) (c := 1) (by omega) (by omega) (by omega) (by omega) (by omega) (by omega) (by omega)] at h
      exact Or.inl ((carry_not (x := y / 2 + z / 2 + 1) (y := z / 2 + x / 2 + 1) (z := x / 2 + y / 2) (a := 1) (b := 0) (c := 1) (by omega) (by omega) (by omega) (by omega) (by omega) (by omega) (by omega)).mpr h)
    · rw [carry_not (x := y / 2 + z / 2 + 1) (y := z / 2 + x / 2) (z := x / 2 + y / 2 + 1) (a := 0) (b := 1) (c := 0) (by omega) (by omega) (by omega) (by omega) (by omega) (by omega) (by omega)] at h
      exact Or.inl ((carry_not (x := y / 2 + z / 2 + 1) (y := z / 2 + x / 2) (z := x / 2 + y / 2 + 1) (a := 1) (b := 1) (c := 0) (by omega) (by omega) (by omega) (by omega) (by omega) (by omega) (by omega)).mpr h)
    · rw [carry_not (x := y / 2 + z / 2 + 1) (y := z / 2 + x / 2 + 1) (z := x / 2 + y / 2 + 1) (a := 1) (b := 0) (c := 0) (by omega) (by omega) (by omega) (by omega) (by omega) (by omega) (by omega)] at h
      exact Or.inr (Or.inl ((carry_not (x := y / 2 + z / 2 + 1) (y := z / 2 + x / 2 + 1) (z := x / 2 + y / 2 + 1) (a := 1) (b := 1) (c := 0) (by omega) (by omega) (by omega) (by omega) (by omega) (by omega) (by omega)).mpr h))
    · rw [carry_not (x := y / 2 + z / 2) (y := z / 2 + x / 2 + 1) (z := x / 2 + y / 2 + 1) (a := 1) (b := 0) (c := 0) (by omega) (by omega) (by omega) (by omega) (by omega) (by omega) (by omega)] at h
      exact Or.inr (Or.inl ((carry_not (x := y / 2 + z / 2) (y := z / 2 + x / 2 + 1) (z := x / 2 + y / 2 + 1) (a := 1) (b := 1) (c := 0) (by omega) (by omega) (by omega) (by omega) (by omega) (by omega) (by omega)).mpr h))
    · rw [carry_not (x := y / 2 + z / 2 + 1) (y := z / 2 + x / 2 + 1) (z := x / 2 + y / 2 + 1) (a := 0) (b := 1) (c := 0) (by omega) (by omega) (by omega) (by omega) (by omega) (by omega) (by omega)] at h
      exact Or.inl ((carry_not (x := y / 2 + z / 2 + 1) (y := z / 2 + x / 2 + 1) (z := x / 2 + y / 2 + 1) (a := 1) (b := 1) (c := 0) (by omega) (by omega) (by omega) (by omega) (by omega) (by omega) (by omega)).mpr h)
    · rw [carry_not (x := y / 2 + z / 2 + 1) (y := z / 2 + x / 2 + 1) (z := x / 2 + y / 2 + 1) (a := 0) (b := 0) (c := 1) (by omega) (by omega) (by omega) (by omega) (by omega) (by omega) (by omega)] at h
      exact Or.inl ((carry_not (x := y / 2 + z / 2 + 1) (y := z / 2 + x / 2 + 1) (z := x / 2 + y / 2 + 1) (a := 1) (b := 0) (c := 1) (by omega) (by omega) (by omega) (by omega) (by omega) (by omega) (by omega)).mpr h)
    · rw [carry_all (x := y / 2 + z / 2 + 1) (y := z / 2 + x / 2 + 1) (z := x / 2 + y / 2 + 1) (by omega) (by omega) (by omega)] at h
      rcases h with h | h | h
      · exact Or.inl ((carry_not (x := y / 2 + z / 2 + 2) (y := z / 2 + x / 2 + 1) (z := x / 2 + y / 2 + 1) (a := 0) (b := 1) (c := 1) (by omega) (by omega) (by omega) (by omega) (by omega) (by omega) (by omega)).mpr h)
      · exact Or.inr (Or.inl ((carry_not (x := y / 2 + z / 2 + 1) (y := z / 2 + x / 2 + 2) (z := x / 2 + y / 2 + 1) (a := 1) (b := 0) (c := 1) (by omega) (by omega) (by omega) (by omega) (by omega) (by omega) (by omega)).mpr h))
      · exact Or.inr (Or.inr ((carry_not (x := y / 2 + z / 2 + 1) (y := z / 2 + x / 2 + 1) (z := x / 2 + y / 2 + 2) (a := 1) (b := 1) (c := 0) (by omega) (by omega) (by omega) (by omega) (by omega) (by omega) (by omega)).mpr h))

/-! ## The closed forms -/

variable {d : ℕ} {k : ℕ}

theorem CanReach.lt : ∀ {m : ℕ} {e : Fin d → ℕ}, CanReach k m e → ∀ i, e i < 2 ^ m
  | 0, e, h, i => by rw [h i]; simp
  | m + 1, e, ⟨A, _, _, h⟩, i => by
    have h1 := h.lt i
    rw [lt_pow_succ]
    split at h1 <;> omega

theorem reach_full (hk : d ≤ k) : ∀ {m : ℕ} {e : Fin d → ℕ}, CanReach k m e ↔ ∀ i, e i < 2 ^ m
  | 0, e => by simp [CanReach]
  | m + 1, e => by
    refine ⟨fun h => h.lt, fun h => ⟨Finset.univ.filter fun i => e i % 2 = 1, ?_, ?_, ?_⟩⟩
    · refine (Finset.card_le_univ _).trans ?_
      simpa using hk
    · intro i hi
      exact (Finset.mem_filter.mp hi).2
    · rw [reach_full hk]
      intro i
      have h1 := lt_pow_succ.mp (h i)
      simp only [Finset.mem_filter, Finset.mem_univ, true_and]
      split <;> omega

theorem card_two : ∀ A : Finset (Fin 2), A.card ≤ 1 → ¬ (0 ∈ A ∧ 1 ∈ A) := by decide

theorem reach_sum : ∀ {m : ℕ} {e : Fin 2 → ℕ}, CanReach 1 m e ↔ e 0 + e 1 < 2 ^ m
  | 0, e => by
    simp only [CanReach, Fin.forall_fin_two, pow_zero]
    omega
  | m + 1, e => by
    constructor
    · rintro ⟨A, hA, hodd, h⟩
      rw [reach_sum] at h
      have h2 := card_two A hA
      have h0 := hodd 0
      have h1 := hodd 1
      rw [pow_succ]
      by_cases m0 : (0 : Fin 2) ∈ A <;> by_cases m1 : (1 : Fin 2) ∈ A
      · exact absurd ⟨m0, m1⟩ h2
      · have := h0 m0; simp only [m0, m1, if_true, if_false] at h; omega
      · have := h1 m1; simp only [m0, m1, if_true, if_false] at h; omega
      · simp only [m0, m1, if_false] at h; omega
    · intro h
      rw [pow_succ] at h
      by_cases h0 : e 0 % 2 = 1
      · refine ⟨{0}, by simp, by simpa using h0, ?_⟩
        rw [reach_sum]
        simp
        omega
      · by_cases h1 : e 1 % 2 = 1
        · refine ⟨{1}, by simp, by simpa using h1, ?_⟩
          rw [reach_sum]
          simp
          omega
        · refine ⟨∅, by simp, by simp, ?_⟩
          rw [reach_sum]
          simp
          omega

theorem card_three : ∀ A : Finset (Fin 3), A.card ≤ 2 → ¬ (0 ∈ A ∧ 1 ∈ A ∧ 2 ∈ A) := by decide

theorem card_three_one : ∀ A : Finset (Fin 3), A.card ≤ 1 →
    ¬ (0 ∈ A ∧ 1 ∈ A) ∧ ¬ (1 ∈ A ∧ 2 ∈ A) ∧ ¬ (0 ∈ A ∧ 2 ∈ A) := by decide

theorem forall_three {P : Fin 3 → Prop} : (∀ i, P i) ↔ P 0 ∧ P 1 ∧ P 2 := by
  constructor
  · intro h; exact ⟨h 0, h 1, h 2⟩
  · rintro ⟨h0, h1, h2⟩ i
    fin_cases i
    · exact h0
    · exact h1
    · exact h2

theorem reach_carry : ∀ {m : ℕ} {e : Fin 3 → ℕ}, CanReach 2 m e ↔ Carry m (e 0) (e 1) (e 2)
  | 0, e => by
    rw [carry_zero]
    exact forall_three
  | m + 1, e => by
    constructor
    · rintro ⟨A, hA, hodd, h⟩
      rw [reach_carry] at h
      have h3 := card_three A hA
      rw [carry_rec]
      split
      · by_cases m0 : (0 : Fin 3) ∈ A
        · by_cases m1 : (1 : Fin 3) ∈ A
          · have m2 : (2 : Fin 3) ∉ A := fun m2 => h3 ⟨m0, m1, m2⟩
            refine Or.inr (Or.inr (carry_mono h ?_ ?_ ?_)) <;> simp only [m0, m1, m2, if_true, if_false] <;> omega
          · refine Or.inr (Or.inl (carry_mono h ?_ ?_ ?_)) <;> (try simp only [m1, if_false]) <;> (try split) <;> omega
        · refine Or.inl (carry_mono h ?_ ?_ ?_) <;> (try simp only [m0, if_false]) <;> (try split) <;> omega
      · refine carry_mono h ?_ ?_ ?_ <;> split <;> omega
    · intro h
      rw [carry_rec] at h
      split at h <;> rename_i ho
      · rcases h with h | h | h
        · refine ⟨{1, 2}, by decide, by simp [ho], ?_⟩
          rw [reach_carry]
          refine carry_mono h ?_ ?_ ?_ <;> simp <;> omega
        · refine ⟨{0, 2}, by decide, by simp [ho], ?_⟩
          rw [reach_carry]
          refine carry_mono h ?_ ?_ ?_ <;> simp <;> omega
        · refine ⟨{0, 1}, by decide, by simp [ho], ?_⟩
          rw [reach_carry]
          refine carry_mono h ?_ ?_ ?_ <;> simp <;> omega
      · refine ⟨Finset.univ.filter fun i => e i % 2 = 1, ?_, fun i hi => (Finset.mem_filter.mp hi).2, ?_⟩
        · by_contra hc
          have h4 : ∀ B : Finset (Fin 3), ¬ B.card ≤ 2 → 0 ∈ B ∧ 1 ∈ B ∧ 2 ∈ B := by decide
          have := h4 _ hc
          simp only [Finset.mem_filter, Finset.mem_univ, true_and] at this
          exact ho this
        · rw [reach_carry]
          refine carry_mono h ?_ ?_ ?_ <;> simp only [Finset.mem_filter, Finset.mem_univ, true_and] <;>
            split <;> omega

theorem reach_pairs : ∀ {m : ℕ} {e : Fin 3 → ℕ},
    CanReach 1 m e ↔ Carry m (e 1 + e 2) (e 2 + e 0) (e 0 + e 1)
  | 0, e => by
    rw [carry_zero]
    refine forall_three.trans ?_
    omega
  | m + 1, e => by
    have ex : e 0 % 2 = 0 ∨ e 0 % 2 = 1 := by omega
    have ey : e 1 % 2 = 0 ∨ e 1 % 2 = 1 := by omega
    have ez : e 2 % 2 = 0 ∨ e 2 % 2 = 1 := by omega
    constructor
    · rintro ⟨A, hA, hodd, h⟩
      rw [reach_pairs] at h
      obtain ⟨h01, h12, h02⟩ := card_three_one A hA
      have ge : ∀ i, e i / 2 ≤ (if i ∈ A then e i / 2 else (e i + 1) / 2) := by
        intro i; split <;> omega
      have two : ∀ i j, ¬ (i ∈ A ∧ j ∈ A) → e i % 2 = 1 → e j % 2 = 1 → e i / 2 + e j / 2 + 1 ≤
          (if i ∈ A then e i / 2 else (e i + 1) / 2) + (if j ∈ A then e j / 2 else (e j + 1) / 2) := by
        intro i j hij hi hj
        by_cases mi : i ∈ A
        · have mj : j ∉ A := fun mj => hij ⟨mi, mj⟩
          rw [if_pos mi, if_neg mj]; omega
        · rw [if_neg mi]
          split <;> omega
      have g0 := ge 0
      have g1 := ge 1
      have g2 := ge 2
      have t01 := two 0 1 h01
      have t12 := two 1 2 h12
      have t02 := two 0 2 h02
      generalize (if (0 : Fin 3) ∈ A then e 0 / 2 else (e 0 + 1) / 2) = v0 at *
      generalize (if (1 : Fin 3) ∈ A then e 1 / 2 else (e 1 + 1) / 2) = v1 at *
      generalize (if (2 : Fin 3) ∈ A then e 2 / 2 else (e 2 + 1) / 2) = v2 at *
      rcases ex with ex | ex <;> rcases ey with ey | ey <;> rcases ez with ez | ez
      · exact (carry_not (x := e 1 / 2 + e 2 / 2) (y := e 2 / 2 + e 0 / 2) (z := e 0 / 2 + e 1 / 2) (a := 0) (b := 0) (c := 0) (by omega) (by omega) (by omega) (by omega) (by omega) (by omega) (by omega)).mpr (carry_mono h (by omega) (by omega) (by omega))
      · exact (carry_not (x := e 1 / 2 + e 2 / 2) (y := e 2 / 2 + e 0 / 2) (z := e 0 / 2 + e 1 / 2) (a := 1) (b := 1) (c := 0) (by omega) (by omega) (by omega) (by omega) (by omega) (by omega) (by omega)).mpr (carry_mono h (by omega) (by omega) (by omega))
      · exact (carry_not (x := e 1 / 2 + e 2 / 2) (y := e 2 / 2 + e 0 / 2) (z := e 0 / 2 + e 1 / 2) (a := 1) (b := 0) (c := 1) (by omega) (by omega) (by omega) (by omega) (by omega) (by omega) (by omega)).mpr (carry_mono h (by omega) (by omega) (by omega))
      · exact (carry_not (x := e 1 / 2 + e 2 / 2 + 1) (y := e 2 / 2 + e 0 / 2) (z := e 0 / 2 + e 1 / 2) (a := 0) (b := 1) (c := 1) (by omega) (by omega) (by omega) (by omega) (by omega) (by omega) (by omega)).mpr (carry_mono h (by omega) (by omega) (by omega))
      · exact (carry_not (x := e 1 / 2 + e 2 / 2) (y := e 2 / 2 + e 0 / 2) (z := e 0 / 2 + e 1 / 2) (a := 0) (b := 1) (c := 1) (by omega) (by omega) (by omega) (by omega) (by omega) (by omega) (by omega)).mpr (carry_mono h (by omega) (by omega) (by omega))
      · exact (carry_not (x := e 1 / 2 + e 2 / 2) (y := e 2 / 2 + e 0 / 2 + 1) (z := e 0 / 2 + e 1 / 2) (a := 1) (b := 0) (c := 1) (by omega) (by omega) (by omega) (by omega) (by omega) (by omega) (by omega)).mpr (carry_mono h (by omega) (by omega) (by omega))
      · exact (carry_not (x := e 1 / 2 + e 2 / 2) (y := e 2 / 2 + e 0 / 2) (z := e 0 / 2 + e 1 / 2 + 1) (a := 1) (b := 1) (c := 0) (by omega) (by omega) (by omega) (by omega) (by omega) (by omega) (by omega)).mpr (carry_mono h (by omega) (by omega) (by omega))
      · exact (carry_not (x := e 1 / 2 + e 2 / 2 + 1) (y := e 2 / 2 + e 0 / 2 + 1) (z := e 0 / 2 + e 1 / 2 + 1) (a := 0) (b := 0) (c := 0) (by omega) (by omega) (by omega) (by omega) (by omega) (by omega) (by omega)).mpr (carry_mono h (by omega) (by omega) (by omega))
    · intro h
      have close : ∀ A : Finset (Fin 3), A.card ≤ 1 → (∀ i ∈ A, e i % 2 = 1) → ∀ a b c : ℕ,
          Carry m a b c → (if (1 : Fin 3) ∈ A then e 1 / 2 else (e 1 + 1) / 2) +
            (if (2 : Fin 3) ∈ A then e 2 / 2 else (e 2 + 1) / 2) ≤ a →
          (if (2 : Fin 3) ∈ A then e 2 / 2 else (e 2 + 1) / 2) +
            (if (0 : Fin 3) ∈ A then e 0 / 2 else (e 0 + 1) / 2) ≤ b →
          (if (0 : Fin 3) ∈ A then e 0 / 2 else (e 0 + 1) / 2) +
            (if (1 : Fin 3) ∈ A then e 1 / 2 else (e 1 + 1) / 2) ≤ c → CanReach 1 (m + 1) e := by
        intro A hA ho a b c hc h1 h2 h3
        refine ⟨A, hA, ho, ?_⟩
        rw [reach_pairs]
        exact carry_mono hc h1 h2 h3
      have none := close ∅ (by simp) (by simp)
      have at0 := close {0} (by simp)
      have at1 := close {1} (by simp)
      have at2 := close {2} (by simp)
      simp at none at0 at1 at2
      rcases ex with ex | ex <;> rcases ey with ey | ey <;> rcases ez with ez | ez
      · rw [carry_not (x := e 1 / 2 + e 2 / 2) (y := e 2 / 2 + e 0 / 2) (z := e 0 / 2 + e 1 / 2) (a := 0) (b := 0) (c := 0) (by omega) (by omega) (by omega) (by omega) (by omega) (by omega) (by omega)] at h
        exact none _ _ _ h (by omega) (by omega) (by omega)
      · rw [carry_not (x := e 1 / 2 + e 2 / 2) (y := e 2 / 2 + e 0 / 2) (z := e 0 / 2 + e 1 / 2) (a := 1) (b := 1) (c := 0) (by omega) (by omega) (by omega) (by omega) (by omega) (by omega) (by omega)] at h
        exact at2 (by omega) _ _ _ h (by omega) (by omega) (by omega)
      · rw [carry_not (x := e 1 / 2 + e 2 / 2) (y := e 2 / 2 + e 0 / 2) (z := e 0 / 2 + e 1 / 2) (a := 1) (b := 0) (c := 1) (by omega) (by omega) (by omega) (by omega) (by omega) (by omega) (by omega)] at h
        exact at1 (by omega) _ _ _ h (by omega) (by omega) (by omega)
      · rw [carry_not (x := e 1 / 2 + e 2 / 2 + 1) (y := e 2 / 2 + e 0 / 2) (z := e 0 / 2 + e 1 / 2) (a := 0) (b := 1) (c := 1) (by omega) (by omega) (by omega) (by omega) (by omega) (by omega) (by omega)] at h
        rw [carry_rot] at h
        rcases pairs_one (x := e 1 / 2) (y := e 2 / 2) (z := e 0 / 2) h with h | h <;> rw [← carry_rot] at h
        · exact at1 (by omega) _ _ _ h (by omega) (by omega) (by omega)
        · exact at2 (by omega) _ _ _ h (by omega) (by omega) (by omega)
      · rw [carry_not (x := e 1 / 2 + e 2 / 2) (y := e 2 / 2 + e 0 / 2) (z := e 0 / 2 + e 1 / 2) (a := 0) (b := 1) (c := 1) (by omega) (by omega) (by omega) (by omega) (by omega) (by omega) (by omega)] at h
        exact at0 (by omega) _ _ _ h (by omega) (by omega) (by omega)
      · rw [carry_not (x := e 1 / 2 + e 2 / 2) (y := e 2 / 2 + e 0 / 2 + 1) (z := e 0 / 2 + e 1 / 2) (a := 1) (b := 0) (c := 1) (by omega) (by omega) (by omega) (by omega) (by omega) (by omega) (by omega)] at h
        rw [← carry_rot] at h
        rcases pairs_one (x := e 2 / 2) (y := e 0 / 2) (z := e 1 / 2) h with h | h <;> rw [carry_rot] at h
        · exact at2 (by omega) _ _ _ h (by omega) (by omega) (by omega)
        · exact at0 (by omega) _ _ _ h (by omega) (by omega) (by omega)
      · rw [carry_not (x := e 1 / 2 + e 2 / 2) (y := e 2 / 2 + e 0 / 2) (z := e 0 / 2 + e 1 / 2 + 1) (a := 1) (b := 1) (c := 0) (by omega) (by omega) (by omega) (by omega) (by omega) (by omega) (by omega)] at h
        rcases pairs_one h with h | h
        · exact at0 (by omega) _ _ _ h (by omega) (by omega) (by omega)
        · exact at1 (by omega) _ _ _ h (by omega) (by omega) (by omega)
      · rw [carry_not (x := e 1 / 2 + e 2 / 2 + 1) (y := e 2 / 2 + e 0 / 2 + 1) (z := e 0 / 2 + e 1 / 2 + 1) (a := 0) (b := 0) (c := 0) (by omega) (by omega) (by omega) (by omega) (by omega) (by omega) (by omega)] at h
        rcases pairs_all h with h | h | h
        · exact at0 (by omega) _ _ _ h (by omega) (by omega) (by omega)
        · exact at1 (by omega) _ _ _ h (by omega) (by omega) (by omega)
        · exact at2 (by omega) _ _ _ h (by omega) (by omega) (by omega)

end P4est
