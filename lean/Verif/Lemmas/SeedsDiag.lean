import Verif.Lemmas.SeedsCover

/-! # The conditions for seeds to suffice -/

namespace P4est
open Spec

variable {d : ℕ} {k : ℕ}

theorem lowered_few {m j : ℕ} {ins : Fin d → Prop} {E E' : Fin d → ℕ} (h : Lowered m j ins E E')
    (hk : (Finset.univ.filter fun i => E' i ≠ 0).card ≤ k) : CanReach k m E' := by
  rw [reach_few hk]
  intro i
  have hM : 0 < 2 ^ m := by positivity
  rcases h i with ⟨_, h1, h2⟩ | ⟨_, h1⟩ | ⟨_, y, h1, h2, h3, h4⟩ <;> omega

theorem carry_down {u v w m : ℕ} (hu : 0 < u) (hu' : u ≤ 2 ^ m) (hv : 0 < v) (hv' : v ≤ 2 ^ m) (hw : w < 2 ^ m) :
    ∀ {j : ℕ}, Carry (m + j) (2 ^ (m + j) - u) (2 ^ (m + j) - v) w → Carry m (2 ^ m - u) (2 ^ m - v) w
  | 0, h => h
  | j + 1, h => by
    have h1 : 2 ^ m ≤ 2 ^ (m + j) := Nat.pow_le_pow_right (by norm_num) (by omega)
    have e : 2 ^ (m + (j + 1)) = 2 ^ (m + j) + 2 ^ (m + j) := by rw [← Nat.add_assoc, pow_succ]; ring
    refine carry_down hu hu' hv hv' hw (j := j) (carry_shift (by omega) (by omega) (by omega) ?_)
    rw [e] at h
    rw [show 2 ^ (m + j) + (2 ^ (m + j) - u) = 2 ^ (m + j) + 2 ^ (m + j) - u by omega,
      show 2 ^ (m + j) + (2 ^ (m + j) - v) = 2 ^ (m + j) + 2 ^ (m + j) - v by omega]
    exact h

/-- 3D, in the order of an axis and the two others. -/
theorem reach_carry_at (f : Fin 3) {m : ℕ} {e : Fin 3 → ℕ} :
    CanReach 2 m e ↔ Carry m (e (tan0 f)) (e (tan1 f)) (e f) := by
  rw [reach_carry]
  obtain rfl | rfl | rfl : f = 0 ∨ f = 1 ∨ f = 2 := (by decide : ∀ z : Fin 3, z = 0 ∨ z = 1 ∨ z = 2) f
  · exact carry_rot
  · show Carry m (e 0) (e 1) (e 2) ↔ Carry m (e 0) (e 2) (e 1)
    rw [carry_rot, carry_swap, ← carry_rot, carry_rot, ← carry_rot, carry_swap, carry_rot]
  · exact Iff.rfl

theorem reach_pairs_at (f : Fin 3) {m : ℕ} {e : Fin 3 → ℕ} : CanReach 1 m e ↔
    Carry m (e (tan1 f) + e f) (e f + e (tan0 f)) (e (tan0 f) + e (tan1 f)) := by
  rw [reach_pairs]
  obtain rfl | rfl | rfl : f = 0 ∨ f = 1 ∨ f = 2 := (by decide : ∀ z : Fin 3, z = 0 ∨ z = 1 ∨ z = 2) f
  · show Carry m (e 1 + e 2) (e 2 + e 0) (e 0 + e 1) ↔ Carry m (e 2 + e 0) (e 0 + e 1) (e 1 + e 2)
    exact carry_rot
  · show Carry m (e 1 + e 2) (e 2 + e 0) (e 0 + e 1) ↔ Carry m (e 2 + e 1) (e 1 + e 0) (e 0 + e 2)
    rw [Nat.add_comm (e 2) (e 1), Nat.add_comm (e 1) (e 0), Nat.add_comm (e 0) (e 2)]
    rw [carry_swap, carry_rot, carry_swap]
  · exact Iff.rfl

theorem lowered_2d {m j k : ℕ} (hk : 1 ≤ k) {ins : Fin 2 → Prop} {E E' : Fin 2 → ℕ} (h : Lowered m j ins E E')
    {f : Fin 2} (hf : ¬ ins f) (hi : ∀ i, i ≠ f → ins i) (hr : CanReach k (m + j) E) : CanReach k m E' := by
  by_cases hk2 : 2 ≤ k
  · refine lowered_few h ((Finset.card_le_univ _).trans (by simpa using hk2))
  obtain rfl : k = 1 := by omega
  rw [reach_sum] at hr ⊢
  have hM : 0 < 2 ^ m := by positivity
  have h0 := h 0
  have h1 := h 1
  obtain rfl | rfl : f = 0 ∨ f = 1 := (by decide : ∀ z : Fin 2, z = 0 ∨ z = 1) f
  · have i1 := hi 1 (by decide)
    rcases h0 with ⟨_, a1, a2⟩ | ⟨a, _⟩ | ⟨a, _⟩
    · rcases h1 with ⟨a, _⟩ | ⟨_, b1⟩ | ⟨_, y, b1, b2, b3, b4⟩
      · exact absurd i1 a
      · omega
      · omega
    · exact absurd a hf
    · exact absurd a hf
  · have i0 := hi 0 (by decide)
    rcases h1 with ⟨_, a1, a2⟩ | ⟨a, _⟩ | ⟨a, _⟩
    · rcases h0 with ⟨a, _⟩ | ⟨_, b1⟩ | ⟨_, y, b1, b2, b3, b4⟩
      · exact absurd i0 a
      · omega
      · omega
    · exact absurd a hf
    · exact absurd a hf

theorem card_two_of {e : Fin 3 → ℕ} {x : Fin 3} (h : e x = 0) : (Finset.univ.filter fun i => e i ≠ 0).card ≤ 2 := by
  have : (Finset.univ.filter fun i => e i ≠ 0) ⊆ Finset.univ.erase x := by
    intro i hi
    rw [Finset.mem_erase]
    refine ⟨fun hc => ?_, Finset.mem_univ _⟩
    subst hc
    exact (Finset.mem_filter.mp hi).2 h
  refine (Finset.card_le_card this).trans ?_
  rw [Finset.card_erase_of_mem (Finset.mem_univ _)]
  simp

theorem lowered_face3 {m j k : ℕ} (hk : 2 ≤ k) {ins : Fin 3 → Prop} {E E' : Fin 3 → ℕ} (h : Lowered m j ins E E')
    {f : Fin 3} (hf : ¬ ins f) (hi : ∀ i, i ≠ f → ins i) (hr : CanReach k (m + j) E) : CanReach k m E' := by
  by_cases hk2 : 3 ≤ k
  · refine lowered_few h ((Finset.card_le_univ _).trans (by simpa using hk2))
  obtain rfl : k = 2 := by omega
  obtain ⟨-, -, -, tz0, tz1, -⟩ := tan_facts f
  have hf' := h f
  have h0 := h (tan0 f)
  have h1 := h (tan1 f)
  have i0 := hi _ tz0
  have i1 := hi _ tz1
  rcases hf' with ⟨_, a1, a2⟩ | ⟨a, _⟩ | ⟨a, _⟩
  · rcases h0 with ⟨a, _⟩ | ⟨_, b1⟩ | ⟨_, y, b1, b2, b3, b4⟩
    · exact absurd i0 a
    · exact lowered_few h (card_two_of b1)
    · rcases h1 with ⟨a, _⟩ | ⟨_, c1⟩ | ⟨_, z, c1, c2, c3, c4⟩
      · exact absurd i1 a
      · exact lowered_few h (card_two_of c1)
      · rw [reach_carry_at f] at hr ⊢
        rw [show E (tan0 f) = 2 ^ (m + j) - y by omega, show E (tan1 f) = 2 ^ (m + j) - z by omega] at hr
        rw [show E' (tan0 f) = 2 ^ m - y by omega, show E' (tan1 f) = 2 ^ m - z by omega, a1]
        exact carry_down b1 b2 c1 c2 a2 hr
  · exact absurd a hf
  · exact absurd a hf

theorem lowered_edge {m j k : ℕ} (hk : k = 1 ∨ k = 3) {ins : Fin 3 → Prop} {E E' : Fin 3 → ℕ}
    (h : Lowered m j ins E E') {z : Fin 3} (hz : ins z) (hi : ∀ i, i ≠ z → ¬ ins i)
    (hb : ∀ e : Fin 3 → ℕ, (∀ i, ins i → e i = 0) → (∀ i, ¬ ins i → e i = E i) → CanReach k m e)
    (hr : CanReach k (m + j) E) : CanReach k m E' := by
  rcases hk with rfl | rfl
  swap
  · refine lowered_few h ((Finset.card_le_univ _).trans (by simp))
  obtain ⟨-, -, tne, tz0, tz1, tall⟩ := tan_facts z
  have hz' := h z
  have h0 := h (tan0 z)
  have h1 := h (tan1 z)
  rcases h0 with ⟨_, a1, a2⟩ | ⟨a, _⟩ | ⟨a, _⟩
  rotate_left
  · exact absurd a (hi _ tz0)
  · exact absurd a (hi _ tz0)
  rcases h1 with ⟨_, c1, c2⟩ | ⟨a, _⟩ | ⟨a, _⟩
  rotate_left
  · exact absurd a (hi _ tz1)
  · exact absurd a (hi _ tz1)
  rcases hz' with ⟨a, _⟩ | ⟨_, b1⟩ | ⟨_, y, b1, b2, b3, b4⟩
  · exact absurd hz a
  · refine hb E' ?_ ?_
    · intro i hii
      by_cases hiz : i = z
      · rw [hiz]; exact b1
      · exact absurd hii (hi i hiz)
    · intro i hii
      by_cases hx : i = tan0 z
      · rw [hx]; exact a1
      · by_cases hy : i = tan1 z
        · rw [hy]; exact c1
        · exact absurd hz (by rw [← tall i hx hy]; exact hii)
  · have hs := hb (fun i => if i = z then 0 else E i) (fun i hii => by
      by_cases hiz : i = z
      · simp [hiz]
      · exact absurd hii (hi i hiz)) (fun i hii => by
      have : i ≠ z := fun hc => hii (hc ▸ hz)
      simp [this])
    rw [reach_two tne (fun x hx hy => by rw [tall x hx hy]; simp)] at hs
    simp only [tz0, tz1, if_false] at hs
    rw [reach_pairs_at z] at hr ⊢
    have r1 := hr.1
    have r2 := hr.2.1
    rw [show E (tan1 z) + E z = 2 ^ (m + j) - (y - E (tan1 z)) by omega,
      show E z + E (tan0 z) = 2 ^ (m + j) - (y - E (tan0 z)) by omega] at hr
    rw [a1, c1, show E (tan1 z) + E' z = 2 ^ m - (y - E (tan1 z)) by omega,
      show E' z + E (tan0 z) = 2 ^ m - (y - E (tan0 z)) by omega]
    exact carry_down (by omega) (by omega) (by omega) (by omega) hs hr

end P4est
