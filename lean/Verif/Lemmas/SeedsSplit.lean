import Verif.Lemmas.BalanceGeom
import Verif.Spec.BalanceSeeds

/-! # Which quadrants are divided in every balanced mesh -/

namespace P4est
open Spec

variable {d : ℕ}

/-- The quadrant of a level with given numbers along the axes. -/
def qat (l : ℕ) (n : Fin d → ℤ) : Quad d := ⟨fun i => 2 ^ (30 - l) * n i, l⟩

/-- The numbers of a quadrant along the axes, on a level. -/
def numAt (q : Quad d) (l : ℕ) : Fin d → ℤ := fun i => q.c i / 2 ^ (30 - l)

@[simp] theorem qat_level (l : ℕ) (n : Fin d → ℤ) : (qat l n).level = l := rfl

theorem qat_aligned {l : ℕ} (hl : l ≤ 30) (n : Fin d → ℤ) : Aligned (qat l n) :=
  ⟨hl, fun i => Dvd.intro _ rfl⟩

theorem qat_num {q : Quad d} (h : Aligned q) : qat q.level (numAt q q.level) = q :=
  Quad.ext' (fun i => (h.c_eq i).symm) rfl

theorem mem_qat {l : ℕ} (hl : l ≤ 30) {n x : Fin d → ℤ} :
    x ∈ Cells (qat l n) ↔ ∀ i, x i / 2 ^ (30 - l) = n i := by
  rw [mem_cells (qat_aligned hl n)]
  apply forall_congr'
  intro i
  show x i / 2 ^ (30 - l) = 2 ^ (30 - l) * n i / 2 ^ (30 - l) ↔ _
  rw [Int.mul_ediv_cancel_left _ (by positivity)]

theorem qat_inj_mem {l : ℕ} (hl : l ≤ 30) {n n' x : Fin d → ℤ} (h : x ∈ Cells (qat l n))
    (h' : x ∈ Cells (qat l n')) : n = n' := by
  funext i
  rw [← (mem_qat hl).mp h i, ← (mem_qat hl).mp h' i]

theorem cells_sub_box {q : Quad d} {lo hi : Fin d → ℤ} :
    Cells q ⊆ BoxOf lo hi ↔ ∀ i, lo i ≤ q.c i ∧ q.c i + side q ≤ hi i := by
  have hp := side_pos q
  constructor
  · intro h i
    have h1 := h (corner_mem q) i
    have h2 := h (show (fun j => q.c j + side q - 1) ∈ Cells q from
      fun j => ⟨by dsimp only; linarith, by dsimp only; linarith⟩) i
    exact ⟨h1.1, by linarith [h2.2]⟩
  · intro h x hx i
    have h1 := h i
    have h2 := hx i
    exact ⟨by linarith, by linarith⟩

theorem cells_ext {q r : Quad d} (h : Cells q ⊆ Cells r) (i : Fin d) :
    r.c i ≤ q.c i ∧ q.c i + side q ≤ r.c i + side r :=
  (cells_sub_box (lo := r.c) (hi := fun i => r.c i + side r)).mp h i

theorem qat_sub_box {l : ℕ} {n lo hi : Fin d → ℤ} : Cells (qat l n) ⊆ BoxOf lo hi ↔
    ∀ i, lo i ≤ 2 ^ (30 - l) * n i ∧ 2 ^ (30 - l) * n i + 2 ^ (30 - l) ≤ hi i := cells_sub_box

/-- A box that is made of whole quadrants of the level `l0` and contains no coarser one. -/
structure Dom (l0 : ℕ) (lo hi : Fin d → ℤ) : Prop where
  low : l0 ≤ 29
  dlo : ∀ i, (2 : ℤ) ^ (30 - l0) ∣ lo i
  dhi : ∀ i, (2 : ℤ) ^ (30 - l0) ∣ hi i
  fit : ∀ u : Quad d, Cells u ⊆ BoxOf lo hi → l0 ≤ u.level

/-- The quadrants that are divided because of `S`: the parents of `S`, and with a quadrant its coarser
neighbors on the side of its own position in its parent. -/
inductive SplitAt (l0 : ℕ) (lo hi : Fin d → ℤ) (k : ℕ) (S : Set (Quad d)) : ℕ → (Fin d → ℤ) → Prop
  | base {s : Quad d} {l : ℕ} {n : Fin d → ℤ} : s ∈ S → s.level = l + 1 → n = numAt s l →
      SplitAt l0 lo hi k S l n
  | step {l : ℕ} {n n' : Fin d → ℤ} (A : Finset (Fin d)) : SplitAt l0 lo hi k S (l + 1) n → l0 ≤ l →
      A.card ≤ k → (∀ i, n' i = n i / 2 + if i ∈ A then (if n i % 2 = 1 then 1 else -1) else 0) →
      Cells (qat l n') ⊆ BoxOf lo hi → SplitAt l0 lo hi k S l n'

/-- What is required of the quadrants that cause the division. -/
structure SplitSource (l0 : ℕ) (lo hi : Fin d → ℤ) (s : Quad d) : Prop where
  al : Aligned s
  fine : s.level ≤ 29
  lt : s.level ≠ 0 → l0 < s.level
  sub : Cells s ⊆ BoxOf lo hi

variable {l0 : ℕ} {lo hi : Fin d → ℤ} {k : ℕ} {S : Set (Quad d)}

theorem half_pow {l : ℕ} (hl : l + 1 ≤ 30) : (2 : ℤ) ^ (30 - l) = 2 * 2 ^ (30 - (l + 1)) := pow_split hl

/-- The parent of a quadrant in the box is in the box. -/
theorem up_sub (hD : Dom l0 lo hi) {l : ℕ} (hl : l + 1 ≤ 30) (h0 : l0 ≤ l) {n : Fin d → ℤ}
    (h : Cells (qat (l + 1) n) ⊆ BoxOf lo hi) : Cells (qat l (fun i => n i / 2)) ⊆ BoxOf lo hi := by
  rw [qat_sub_box] at *
  intro i
  have h1 := h i
  have hp : (0 : ℤ) < 2 ^ (30 - (l + 1)) := by positivity
  have hd : (2 : ℤ) ^ (30 - l) ∣ 2 ^ (30 - l0) := pow_dvd_pow 2 (by omega)
  obtain ⟨a, ha⟩ := hd.trans (hD.dlo i)
  obtain ⟨b, hb⟩ := hd.trans (hD.dhi i)
  rw [half_pow hl] at ha hb ⊢
  clear hd h
  generalize (2 : ℤ) ^ (30 - (l + 1)) = h at *
  rw [ha, hb] at h1 ⊢
  have h2 : 2 * a ≤ n i := by
    by_contra hc
    nlinarith [show n i + 1 ≤ 2 * a by omega]
  have h3 : n i + 1 ≤ 2 * b := by
    by_contra hc
    nlinarith [show 2 * b + 1 ≤ n i + 1 by omega]
  have h4 : a ≤ n i / 2 := by omega
  have h5 : n i / 2 + 1 ≤ b := by omega
  constructor <;> nlinarith

theorem num_half {s : Quad d} {l : ℕ} (hl : l + 1 ≤ 30) :
    numAt s l = fun i => numAt s (l + 1) i / 2 := by
  funext i
  show s.c i / 2 ^ (30 - l) = s.c i / 2 ^ (30 - (l + 1)) / 2
  rw [Int.ediv_ediv_of_nonneg (by positivity), half_pow hl, mul_comm]

theorem SplitAt.inv (hD : Dom l0 lo hi) (hS : ∀ s ∈ S, SplitSource l0 lo hi s) {l : ℕ} {n : Fin d → ℤ}
    (h : SplitAt l0 lo hi k S l n) : l + 1 ≤ 29 ∧ l0 ≤ l ∧ Cells (qat l n) ⊆ BoxOf lo hi := by
  induction h with
  | @base s l n hs hl hn =>
    have h1 := hS s hs
    have h2 := h1.fine
    have h3 := h1.lt (by omega)
    refine ⟨by omega, by omega, ?_⟩
    rw [hn, num_half (by omega)]
    apply up_sub hD (by omega) (by omega)
    rw [← hl, qat_num h1.al]
    exact h1.sub
  | step A _ h0 _ _ hsub ih => exact ⟨by omega, h0, hsub⟩

theorem SplitAt.up (hD : Dom l0 lo hi) (hS : ∀ s ∈ S, SplitSource l0 lo hi s) {l : ℕ} {n : Fin d → ℤ}
    (h : SplitAt l0 lo hi k S (l + 1) n) (h0 : l0 ≤ l) :
    SplitAt l0 lo hi k S l (fun i => n i / 2) := by
  obtain ⟨h1, _, h3⟩ := h.inv hD hS
  exact SplitAt.step ∅ h h0 (by simp) (by simp) (up_sub hD (by omega) h0 h3)

/-- A quadrant that is divided because of `S` is divided in every balanced mesh. -/
theorem SplitAt.divides (hd : 0 < d) (hD : Dom l0 lo hi) (hS : ∀ s ∈ S, SplitSource l0 lo hi s)
    {U : Set (Quad d)} (hU : Paves (BoxOf lo hi) U) (hG : GradedBy k U)
    (hf : ∀ s ∈ S, ∀ u ∈ U, ¬ Cells s ⊂ Cells u) {l : ℕ} {n : Fin d → ℤ}
    (h : SplitAt l0 lo hi k S l n) : ∀ u ∈ U, ¬ Cells (qat l n) ⊆ Cells u := by
  have h' := h
  induction h with
  | @base s l n hs hl hn =>
    intro u hu hsub
    apply hf s hs u hu
    have h1 := hS s hs
    have hq := qat_aligned (show l ≤ 30 by have := h1.fine; omega) n
    have hsq : Cells s ⊂ Cells (qat l n) := by
      rw [← isAncestor_iff hd hq h1.al, isAncestor_iff_div]
      refine ⟨by rw [qat_level]; omega, fun i => ?_⟩
      rw [hn]
      show _ = 2 ^ (30 - l) * (s.c i / 2 ^ (30 - l)) / 2 ^ (30 - l)
      rw [Int.mul_ediv_cancel_left _ (by positivity)]
      rfl
    exact lt_of_lt_of_le hsq hsub
  | @step l n n' A hs h0 hA hn hbox ih =>
    intro u hu hsub
    have ih := ih hs
    obtain ⟨hl29, -, hNbox⟩ := hs.inv hD hS
    have hua := (hU.legal u hu).1
    have hNal := qat_aligned (show l + 1 ≤ 30 by omega) n
    have hN'al := qat_aligned (show l ≤ 30 by omega) n'
    have hul : u.level ≤ l := ((cells_subset_iff hd hua hN'al).mp hsub).1
    have hp : (0 : ℤ) < 2 ^ (30 - (l + 1)) := by positivity
    have hsd := half_pow (show l + 1 ≤ 30 by omega)
    obtain ⟨x, hx⟩ : ∃ x : Fin d → ℤ, ∀ i, x i = 2 ^ (30 - (l + 1)) * n i +
        (if n i % 2 = 1 then 2 ^ (30 - (l + 1)) - 1 else 0) := ⟨_, fun i => rfl⟩
    have hxN : x ∈ Cells (qat (l + 1) n) := by
      intro i
      show 2 ^ (30 - (l + 1)) * n i ≤ x i ∧ x i < 2 ^ (30 - (l + 1)) * n i + 2 ^ (30 - (l + 1))
      rw [hx]
      split <;> constructor <;> linarith
    obtain ⟨v, hv, hxv⟩ := (hU.cover x).mp (hNbox hxN)
    have hva := (hU.legal v hv).1
    have hvN : Cells v ⊆ Cells (qat (l + 1) n) := by
      rcases laminar hva hNal ⟨x, hxv, hxN⟩ with h1 | h1
      · exact absurd h1 (ih v hv)
      · exact h1
    have hvl : l + 2 ≤ v.level := by
      have h1 := ((cells_subset_iff hd hNal hva).mp hvN).1
      rw [qat_level] at h1
      by_contra hc
      apply ih v hv
      apply cells_subset hva hNal (by rw [qat_level]; omega)
      have hv2 := hvN (corner_mem v)
      rw [mem_qat (by omega)] at hv2
      rw [mem_cells hva, show v.level = l + 1 by omega]
      intro i
      rw [hv2 i]
      exact Int.mul_ediv_cancel_left _ hp.ne'
    have extN : ∀ i, 2 ^ (30 - (l + 1)) * n i ≤ v.c i ∧
        v.c i + side v ≤ 2 ^ (30 - (l + 1)) * n i + 2 ^ (30 - (l + 1)) := fun i => cells_ext hvN i
    have extN' : ∀ i, u.c i ≤ 2 ^ (30 - l) * n' i ∧
        2 ^ (30 - l) * n' i + 2 ^ (30 - l) ≤ u.c i + side u := fun i => cells_ext hsub i
    have sv := side_pos v
    have su := side_pos u
    have main : ∀ i, OverlapOn v u i ∨ (MeetOn v u i ∧ i ∈ A) := by
      intro i
      have h1 := extN i
      have h2 := extN' i
      have h3 := hn i
      have h5 := hxv i
      rw [hx i] at h5
      unfold OverlapOn MeetOn
      rw [hsd] at h2
      generalize (2 : ℤ) ^ (30 - (l + 1)) = h at *
      have h6 := Int.mul_ediv_add_emod (n i) 2
      have h7 : h * n i = 2 * h * (n i / 2) + h * (n i % 2) := by
        conv_lhs => rw [← h6]
        ring
      rcases Int.emod_two_eq_zero_or_one (n i) with hm | hm
      · rw [hm, mul_zero, add_zero] at h7
        rw [hm] at h3 h5
        rw [if_neg (show ¬ (0 : ℤ) = 1 by norm_num)] at h3 h5
        by_cases hA' : i ∈ A
        · rw [if_pos hA'] at h3
          rw [h3] at h2
          have e1 : 2 * h * (n i / 2 + -1) = h * n i - 2 * h := by rw [h7]; ring
          rw [e1] at h2
          rcases eq_or_lt_of_le h2.2 with h8 | h8
          · exact Or.inr ⟨Or.inr (by linarith), hA'⟩
          · exact Or.inl ⟨by linarith, by linarith⟩
        · rw [if_neg hA', add_zero] at h3
          rw [h3, ← h7] at h2
          exact Or.inl ⟨by linarith, by linarith⟩
      · rw [hm, mul_one] at h7
        rw [hm, if_pos rfl] at h3 h5
        by_cases hA' : i ∈ A
        · rw [if_pos hA'] at h3
          rw [h3] at h2
          have e1 : 2 * h * (n i / 2 + 1) = h * n i + h := by rw [h7]; ring
          rw [e1] at h2
          rcases eq_or_lt_of_le h2.1 with h8 | h8
          · exact Or.inr ⟨Or.inl (by linarith), hA'⟩
          · exact Or.inl ⟨by linarith, by linarith⟩
        · rw [if_neg hA', add_zero] at h3
          rw [h3, show 2 * h * (n i / 2) = h * n i - h by rw [h7]; ring] at h2
          exact Or.inl ⟨by linarith, by linarith⟩
    classical
    by_cases hall : ∀ i, OverlapOn v u i
    · have := hU.disjoint v hv u hu (overlap_all hall)
      rw [this] at hvl
      omega
    · push Not at hall
      obtain ⟨i, hi⟩ := hall
      have ht : Touch k v u := by
        refine ⟨Finset.univ.filter fun j => ¬ OverlapOn v u j, ?_, ?_, ?_, ?_⟩
        · exact Finset.card_pos.mpr ⟨i, by simp [hi]⟩
        · refine le_trans (Finset.card_le_card ?_) hA
          intro j hj
          rw [Finset.mem_filter] at hj
          exact ((main j).resolve_left hj.2).2
        · intro j hj
          rw [Finset.mem_filter] at hj
          exact ((main j).resolve_left hj.2).1
        · intro j hj
          by_contra hc
          exact hj (by simp [hc])
      have := hG v hv u hu ht
      omega

/-- The coarsest mesh: the quadrants that are not divided, all of whose ancestors are. -/
def coarsest (l0 : ℕ) (lo hi : Fin d → ℤ) (k : ℕ) (S : Set (Quad d)) : Set (Quad d) :=
  {u | Aligned u ∧ u.level ≤ 29 ∧ l0 ≤ u.level ∧ Cells u ⊆ BoxOf lo hi ∧
    ¬ SplitAt l0 lo hi k S u.level (numAt u u.level) ∧
    ∀ l, l0 ≤ l → l < u.level → SplitAt l0 lo hi k S l (numAt u l)}

theorem num_of_mem {u : Quad d} (hu : Aligned u) {x : Fin d → ℤ} (hx : x ∈ Cells u) {l : ℕ}
    (hl : l ≤ u.level) : numAt u l = fun i => x i / 2 ^ (30 - l) := by
  have hul := hu.1
  funext i
  have h1 := (mem_cells hu).mp hx i
  show u.c i / 2 ^ (30 - l) = _
  rw [show 30 - l = (30 - u.level) + (u.level - l) by omega, pow_add,
    ← Int.ediv_ediv_of_nonneg (by positivity), ← Int.ediv_ediv_of_nonneg (by positivity), h1]

/-- The finest undivided quadrant around a point. -/
theorem coarsest_cover (hD : Dom l0 lo hi) (hS : ∀ s ∈ S, SplitSource l0 lo hi s) {x : Fin d → ℤ}
    (hx : x ∈ BoxOf lo hi) {b : ℕ} (hb0 : l0 ≤ b) (hb1 : b ≤ 29)
    (hb : ¬ SplitAt l0 lo hi k S b (fun i => x i / 2 ^ (30 - b))) :
    ∃ u ∈ coarsest l0 lo hi k S, x ∈ Cells u ∧ u.level ≤ b := by
  classical
  have hex : ∃ l, l0 ≤ l ∧ ¬ SplitAt l0 lo hi k S l (fun i => x i / 2 ^ (30 - l)) := ⟨b, hb0, hb⟩
  obtain ⟨m, hm⟩ : ∃ m, m = Nat.find hex := ⟨_, rfl⟩
  have hm1 := Nat.find_spec hex
  rw [← hm] at hm1
  have hmb : m ≤ b := by rw [hm]; exact Nat.find_min' hex ⟨hb0, hb⟩
  have hxm : x ∈ Cells (qat m (fun i => x i / 2 ^ (30 - m))) := by rw [mem_qat (by omega)]; intro i; rfl
  have hal := qat_aligned (show m ≤ 30 by omega) (fun i => x i / 2 ^ (30 - m))
  have hnum : ∀ l, l ≤ m → numAt (qat m (fun i => x i / 2 ^ (30 - m))) l = fun i => x i / 2 ^ (30 - l) :=
    fun l hl => num_of_mem hal hxm hl
  refine ⟨_, ⟨hal, by rw [qat_level]; omega, hm1.1, ?_, ?_, ?_⟩, hxm, hmb⟩
  · rw [qat_sub_box]
    intro i
    have hdv : (2 : ℤ) ^ (30 - m) ∣ 2 ^ (30 - l0) := pow_dvd_pow 2 (by omega)
    obtain ⟨a, ha⟩ := hdv.trans (hD.dlo i)
    obtain ⟨b, hb⟩ := hdv.trans (hD.dhi i)
    have h1 := hx i
    have hp : (0 : ℤ) < 2 ^ (30 - m) := by positivity
    have h2 := Int.mul_ediv_add_emod (x i) (2 ^ (30 - m))
    have h3 := Int.emod_nonneg (x i) hp.ne'
    have h4 := Int.emod_lt_of_pos (x i) hp
    clear hdv
    generalize (2 : ℤ) ^ (30 - m) = h at *
    rw [ha, hb] at h1 ⊢
    have h5 : a ≤ x i / h := by rw [Int.le_ediv_iff_mul_le hp]; linarith
    have h6 : x i / h < b := by rw [Int.ediv_lt_iff_lt_mul hp]; linarith
    constructor <;> nlinarith
  · rw [qat_level, hnum m (le_refl m)]; exact hm1.2
  · intro l h1 h2
    rw [qat_level] at h2
    rw [hnum l (by omega)]
    by_contra hc
    exact absurd (Nat.find_min' hex ⟨h1, hc⟩) (by omega)

theorem coarsest_paves (hd : 0 < d) (hD : Dom l0 lo hi) (hS : ∀ s ∈ S, SplitSource l0 lo hi s) :
    Paves (BoxOf lo hi) (coarsest l0 lo hi k S) where
  legal u hu := ⟨hu.1, hu.2.1⟩
  disjoint u hu v hv ho := by
    obtain ⟨x, hxu, hxv⟩ := ho
    have key : ∀ {u v : Quad d}, u ∈ coarsest l0 lo hi k S → v ∈ coarsest l0 lo hi k S → x ∈ Cells u →
        x ∈ Cells v → ¬ u.level < v.level := by
      intro u v hu hv hxu hxv hlt
      have h1 := hv.2.2.2.2.2 u.level hu.2.2.1 hlt
      apply hu.2.2.2.2.1
      rw [num_of_mem hu.1 hxu (le_refl _)]
      rwa [num_of_mem hv.1 hxv (by omega)] at h1
    have h1 := key hu hv hxu hxv
    have h2 := key hv hu hxv hxu
    have hl : u.level = v.level := by omega
    rw [← qat_num hu.1, ← qat_num hv.1, num_of_mem hu.1 hxu (le_refl _), num_of_mem hv.1 hxv (le_refl _), hl]
  cover x := by
    constructor
    · intro hx
      obtain ⟨u, hu, hxu, -⟩ := coarsest_cover (k := k) hD hS hx (b := 29) hD.low (le_refl _) (by
        intro h
        have := (h.inv hD hS).1
        omega)
      exact ⟨u, hu, hxu⟩
    · rintro ⟨u, hu, hxu⟩
      exact hu.2.2.2.1 hxu

theorem coarsest_graded (hd : 0 < d) (hD : Dom l0 lo hi) (hS : ∀ s ∈ S, SplitSource l0 lo hi s) :
    GradedBy k (coarsest l0 lo hi k S) := by
  intro u hu v hv ht
  by_contra hc
  obtain ⟨A, hA1, hA2, hA3, hA4⟩ := ht
  have hu29 := hu.2.1
  have hv0 := hv.2.2.1
  obtain ⟨l, hl⟩ : ∃ l, l = v.level := ⟨_, rfl⟩
  have hs := hu.2.2.2.2.2 (l + 1) (by omega) (by omega)
  apply hv.2.2.2.2.1
  have hva := hv.1
  have hua := hu.1
  have hPal := qat_aligned (show l + 1 ≤ 30 by omega) (numAt u (l + 1))
  have huP : Cells u ⊆ Cells (qat (l + 1) (numAt u (l + 1))) := by
    apply cells_subset hPal hua (by rw [qat_level]; omega)
    rw [mem_qat (by omega)]
    intro i; rfl
  rw [← hl]
  refine SplitAt.step A hs (by omega) hA2 (fun i => ?_) ?_
  · have h1 := cells_ext huP i
    have h0 := side_pos u
    have hs2 : side (qat (l + 1) (numAt u (l + 1))) = 2 ^ (30 - (l + 1)) := rfl
    have hsv : side v = 2 * 2 ^ (30 - (l + 1)) := by unfold side; rw [← hl, half_pow (by omega)]
    have hc1 : (qat (l + 1) (numAt u (l + 1))).c i = 2 ^ (30 - (l + 1)) * numAt u (l + 1) i := rfl
    have hvc : v.c i = 2 * 2 ^ (30 - (l + 1)) * numAt v l i := by
      rw [← half_pow (by omega), hl]; exact hva.c_eq i
    have hp : (0 : ℤ) < 2 ^ (30 - (l + 1)) := by positivity
    rw [hs2, hc1] at h1
    generalize (2 : ℤ) ^ (30 - (l + 1)) = h at *
    generalize numAt u (l + 1) i = n at *
    generalize numAt v l i = m at *
    by_cases hi : i ∈ A
    · rw [if_pos hi]
      rcases hA3 i hi with h3 | h3
      · -- u ends where v begins
        rw [hvc] at h3
        have h4 : n < 2 * m := by
          by_contra hcc
          nlinarith [show 2 * m ≤ n by omega]
        have h5 : 2 * m ≤ n + 1 := by
          by_contra hcc
          nlinarith [show n + 2 ≤ 2 * m by omega]
        have h6 : n % 2 = 1 := by omega
        rw [if_pos h6]
        omega
      · rw [hvc, hsv] at h3
        have h4 : 2 * m + 2 ≤ n := by
          by_contra hcc
          nlinarith [show n + 1 ≤ 2 * m + 2 by omega]
        have h5 : n < 2 * m + 3 := by
          by_contra hcc
          nlinarith [show 2 * m + 3 ≤ n by omega]
        have h6 : ¬ n % 2 = 1 := by omega
        rw [if_neg h6]
        omega
    · rw [if_neg hi]
      have h3 := hA4 i hi
      unfold OverlapOn at h3
      rw [hvc, hsv] at h3
      have h4 : n < 2 * m + 2 := by
        by_contra hcc
        nlinarith [show 2 * m + 2 ≤ n by omega]
      have h5 : 2 * m < n + 1 := by
        by_contra hcc
        nlinarith [show n + 1 ≤ 2 * m by omega]
      omega
  · rw [hl, qat_num hva]
    exact hv.2.2.2.1

theorem coarsest_fine (hd : 0 < d) (hD : Dom l0 lo hi) (hS : ∀ s ∈ S, SplitSource l0 lo hi s) :
    ∀ s ∈ S, ∀ u ∈ coarsest l0 lo hi k S, ¬ Cells s ⊂ Cells u := by
  intro s hs u hu hsub
  have h1 := hS s hs
  have hua := hu.1
  have h2 := (isAncestor_iff_div.mp ((isAncestor_iff hd hua h1.al).mpr hsub))
  apply hu.2.2.2.2.1
  have hu0 := hu.2.2.1
  have h29 := h1.fine
  have key : ∀ m, u.level + 1 + m ≤ s.level →
      SplitAt l0 lo hi k S (s.level - 1 - m) (numAt s (s.level - 1 - m)) := by
    intro m
    induction m with
    | zero =>
      intro hm
      exact SplitAt.base hs (by omega) (by congr)
    | succ m ih =>
      intro hm
      have h3 := ih (by omega)
      rw [show s.level - 1 - m = (s.level - 1 - (m + 1)) + 1 by omega] at h3
      have h4 := h3.up hD hS (by omega)
      rwa [← num_half (by omega)] at h4
  have h3 := key (s.level - 1 - u.level) (by omega)
  rw [show s.level - 1 - (s.level - 1 - u.level) = u.level by omega] at h3
  have h4 : numAt u u.level = numAt s u.level := by
    funext i; exact (h2.2 i).symm
  rwa [h4]

/-- A quadrant is divided in every balanced mesh exactly if it is reached from `S`. -/
theorem divides_iff (hd : 0 < d) (hD : Dom l0 lo hi) (hS : ∀ s ∈ S, SplitSource l0 lo hi s) {r : Quad d}
    (hr : Aligned r) (hr29 : r.level ≤ 29) (hrb : Cells r ⊆ BoxOf lo hi) :
    Divides (BoxOf lo hi) k S r ↔ SplitAt l0 lo hi k S r.level (numAt r r.level) := by
  constructor
  · intro h
    by_contra hc
    obtain ⟨u, hu, hru, hul⟩ := coarsest_cover (k := k) hD hS (hrb (corner_mem r)) (hD.fit r hrb) hr29 hc
    refine h _ (coarsest_paves hd hD hS) (coarsest_graded hd hD hS) (coarsest_fine hd hD hS) u hu ?_
    exact cells_subset hu.1 hr hul hru
  · intro h U hU hG hf u hu
    have := h.divides hd hD hS hU hG hf u hu
    rwa [qat_num hr] at this

/-- What several quadrants divide is divided by one of them. -/
theorem split_exists {l : ℕ} {n : Fin d → ℤ} (h : SplitAt l0 lo hi k S l n) :
    ∃ s ∈ S, SplitAt l0 lo hi k {s} l n := by
  induction h with
  | base hs hl hn => exact ⟨_, hs, SplitAt.base rfl hl hn⟩
  | step A _ h0 hA hn hb ih =>
    obtain ⟨s, hs, h⟩ := ih
    exact ⟨s, hs, SplitAt.step A h h0 hA hn hb⟩

theorem split_mono {T : Set (Quad d)} (hST : S ⊆ T) {l : ℕ} {n : Fin d → ℤ}
    (h : SplitAt l0 lo hi k S l n) : SplitAt l0 lo hi k T l n := by
  induction h with
  | base hs hl hn => exact SplitAt.base (hST hs) hl hn
  | step A _ h0 hA hn hb ih => exact SplitAt.step A ih h0 hA hn hb

end P4est
