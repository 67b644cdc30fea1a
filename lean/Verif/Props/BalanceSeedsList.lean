import Verif.Lemmas.SeedsAll
import Verif.Props.BalanceSeeds

/-! # C91: the seeds -/

namespace P4est
open Spec

variable {d : ℕ}

theorem type_axes {q p : Quad d} (hall : ∀ i, outsideAt q p i ≠ none) :
    outsideType (outs q p) = axesOutside q p := by
  unfold outsideType axesOutside
  congr 1
  ext i
  simp only [Finset.mem_filter, Finset.mem_univ, true_and]
  have h := hall i
  have e : ∀ s : Quad d, qlen s.level = side s := fun _ => rfl
  unfold outs
  unfold outsideAt at h ⊢
  simp only [e] at h ⊢
  split at h
  · split at h
    · exact absurd rfl h
    · rename_i h1 h2
      rw [if_pos h1, if_neg h2]
      simp
      omega
  · split at h
    · exact absurd rfl h
    · rename_i h1 h2
      rw [if_neg h1, if_neg h2]
      split
      · simp; omega
      · simp; omega

/-- What is divided inside is divided. -/
theorem divides_outer {k : ℕ} {D : Set (Fin d → ℤ)} {S : Set (Quad d)} {r p : Quad d} (hr : Cells r ⊆ Cells p)
    (h : Divides D k S r) : Divides D k S p :=
  fun U h1 h2 h3 u hu hc => h U h1 h2 h3 u hu (hr.trans hc)

/-- The seeds and what is divided by them. -/
theorem seeds_facts (hdim : d = 2 ∨ d = 3) {k : ℕ} (hk1 : 1 ≤ k) (hkd : k ≤ d)
    {lo hi : Fin d → ℤ} (hw : WholeTrees lo hi) {q p : Quad d}
    (hq : Aligned q) (hq29 : q.level ≤ 29) (hqb : Cells q ⊆ BoxOf lo hi)
    (hp : Aligned p) (hp29 : p.level ≤ 29) (hpb : Cells p ⊆ BoxOf lo hi)
    {b : Bool} {ss : List (Quad d)} (h : balanceSeeds q p k true = some (b, ss)) :
    (∀ s ∈ ss, Aligned s ∧ s.level ≤ q.level ∧ p.level < s.level ∧ Cells s ⊆ Cells p) ∧
    (∀ r, Aligned r → r.level ≤ 29 → Cells r ⊆ Cells p → Divides (Cells p) k {s | s ∈ ss} r →
      Divides (BoxOf lo hi) k {q} r) ∧
    (¬ (Cells q ⊆ Cells p ∧ q.level = p.level + 1) → ¬ (d = 3 ∧ k = 2 ∧ axesOutside q p = 2) →
      ∀ r, Aligned r → r.level ≤ 29 → Cells r ⊆ Cells p →
      Divides (BoxOf lo hi) k {q} r → Divides (Cells p) k {s | s ∈ ss} r) := by
  have hd : 0 < d := by omega
  have hempty : b = false → ss = [] → (∀ s ∈ ss, Aligned s ∧ s.level ≤ q.level ∧ p.level < s.level ∧ Cells s ⊆ Cells p) ∧
    (∀ r, Aligned r → r.level ≤ 29 → Cells r ⊆ Cells p → Divides (Cells p) k {s | s ∈ ss} r →
      Divides (BoxOf lo hi) k {q} r) ∧
    (¬ (Cells q ⊆ Cells p ∧ q.level = p.level + 1) → ¬ (d = 3 ∧ k = 2 ∧ axesOutside q p = 2) →
      ∀ r, Aligned r → r.level ≤ 29 → Cells r ⊆ Cells p →
      Divides (BoxOf lo hi) k {q} r → Divides (Cells p) k {s | s ∈ ss} r) := by
    rintro rfl rfl
    refine ⟨by simp, ?_, ?_⟩
    · intro r hr hr29 hrp hdv
      rw [divides_inside hd hp hp29 (by simp) hr hr29 hrp] at hdv
      obtain ⟨s, hs, -⟩ := hdv
      simp at hs
    · intro hchild _ r hr hr29 hrp hdv
      have := (C90_test_partial hdim hk1 hkd hw hq hq29 hqb hp hp29 hpb hchild h).mpr (divides_outer hrp hdv)
      cases this
  have h0 := h
  rw [balanceSeeds_eq] at h
  split at h
  · injection h with h
    injection h with h1 h2
    exact hempty h1.symm h2.symm
  rename_i hl
  split at h
  · injection h with h
    injection h with h1 h2
    exact hempty h1.symm h2.symm
  rename_i hall
  push Not at hall
  split at h
  · rename_i ht
    simp only [if_true] at h
    injection h with h
    injection h with h1 h2
    subst h1; subst h2
    have hqp : Cells q ⊆ Cells p := by
      rw [← halfDist_zero_iff hq hp (by omega)]
      exact fun i => halfDist_eq_zero.mpr ((outs_zero_iff hq hp (by omega) (hall i)).mp (type_zero.mp ht i))
    have hS : ∀ s ∈ {s | s ∈ [q]}, Aligned s ∧ s.level ≤ 29 ∧ p.level < s.level ∧ Cells s ⊆ Cells p := by
      intro s hs
      have : s = q := by simpa using hs
      subst this
      exact ⟨hq, hq29, by omega, hqp⟩
    have key : ∀ r, Aligned r → r.level ≤ 29 → Cells r ⊆ Cells p →
        (Divides (Cells p) k {s | s ∈ [q]} r ↔ Divides (BoxOf lo hi) k {q} r) := by
      intro r hr hr29 hrp
      rw [divides_inside hd hp hp29 hS hr hr29 hrp, divides_trees hd hw hq hq29 hqb hr hr29 (hrp.trans hpb)]
      simp
    refine ⟨?_, fun r h1 h2 h3 => (key r h1 h2 h3).mp, fun _ _ r h1 h2 h3 => (key r h1 h2 h3).mpr⟩
    intro s hs
    have : s = q := by simpa using hs
    subst this
    exact ⟨hq, le_rfl, by omega, hqp⟩
  rename_i ht
  simp only [if_true] at h
  injection h with h
  injection h with h1 h2
  cases b with
  | false =>
    refine hempty rfl ?_
    rw [← h2]
    unfold seedsOutside at h1 ⊢
    unfold seedsFace seedsCorner seedsEdge at h1 ⊢
    dsimp only at h1 ⊢
    split_ifs at h1 ⊢ <;> simp_all
  | true =>
    have hfit := seedsOutside_fit hdim hk1 hkd hq hq29 hp hp29 (by omega) hall ht h1
    rw [h2, type_axes hall] at hfit
    have hall' : ∀ s ∈ ss, Aligned s ∧ s.level < q.level ∧ p.level < s.level ∧ Cells s ⊆ Cells p ∧ Forces k q (upOf s) := by
      intro s hs
      obtain ⟨t, ht, htp, hl1, hl2, hne, hso⟩ := hfit.sound s hs
      have h3 := hso.fine hl2 hne
      have h4 := hso.level
      exact ⟨hso.aligned (by omega), h3, by omega, (hso.sub hq ht h3.le).trans htp, hso.forced hq h3⟩
    have hS : ∀ s ∈ {s | s ∈ ss}, Aligned s ∧ s.level ≤ 29 ∧ p.level < s.level ∧ Cells s ⊆ Cells p := by
      intro s hs
      obtain ⟨a1, a2, a3, a4, -⟩ := hall' s hs
      exact ⟨a1, by omega, a3, a4⟩
    refine ⟨fun s hs => ?_, ?_, ?_⟩
    · obtain ⟨a1, a2, a3, a4, -⟩ := hall' s hs
      exact ⟨a1, a2.le, a3, a4⟩
    · intro r hr hr29 hrp
      rw [divides_inside hd hp hp29 hS hr hr29 hrp, divides_trees hd hw hq hq29 hqb hr hr29 (hrp.trans hpb)]
      rintro ⟨s, hs, hf⟩
      obtain ⟨a1, a2, a3, a4, a5⟩ := hall' s hs
      exact forces_trans hd hw hq hq29 hqb hp hp29 hpb a1 (by omega) a3 a4 hr hrp a5 hf
    · intro _ hexc r hr hr29 hrp
      rw [divides_inside hd hp hp29 hS hr hr29 hrp, divides_trees hd hw hq hq29 hqb hr hr29 (hrp.trans hpb)]
      exact hfit.complete hexc r hr hrp

/-- **C91.** `p4est_balance_seeds` returns quadrants inside `p` (aligned, finer than `p`, not finer than
`q`) that can replace `q`: a quadrant `r` of `p` is divided in every balanced mesh of `p` that is at least
as fine as the seeds exactly if it is divided in every balanced mesh of the trees that is at least as fine
as `q`.  Not covered: `q` a child of `p` (`C90_child_missed`) and edge balance for a `q` outside along two
axes (`C91_edge_incomplete`). -/
theorem C91_seeds_partial (hdim : d = 2 ∨ d = 3) {k : ℕ} (hk1 : 1 ≤ k) (hkd : k ≤ d)
    {lo hi : Fin d → ℤ} (hw : WholeTrees lo hi) {q p : Quad d}
    (hq : Aligned q) (hq29 : q.level ≤ 29) (hqb : Cells q ⊆ BoxOf lo hi)
    (hp : Aligned p) (hp29 : p.level ≤ 29) (hpb : Cells p ⊆ BoxOf lo hi)
    (hchild : ¬ (Cells q ⊆ Cells p ∧ q.level = p.level + 1))
    (hedge : ¬ (d = 3 ∧ k = 2 ∧ axesOutside q p = 2))
    {b : Bool} {ss : List (Quad d)} (h : balanceSeeds q p k true = some (b, ss)) :
    (∀ s ∈ ss, Aligned s ∧ s.level ≤ q.level ∧ p.level < s.level ∧ Cells s ⊆ Cells p) ∧
    ∀ r, Aligned r → r.level ≤ 29 → Cells r ⊆ Cells p →
      (Divides (Cells p) k {s | s ∈ ss} r ↔ Divides (BoxOf lo hi) k {q} r) := by
  obtain ⟨h1, h2, h3⟩ := seeds_facts hdim hk1 hkd hw hq hq29 hqb hp hp29 hpb h
  exact ⟨h1, fun r a1 a2 a3 => ⟨h2 r a1 a2 a3, h3 hchild hedge r a1 a2 a3⟩⟩

/-- In all cases the seeds are inside `p` and divide nothing that `q` does not divide. -/
theorem C91_no_more (hdim : d = 2 ∨ d = 3) {k : ℕ} (hk1 : 1 ≤ k) (hkd : k ≤ d)
    {lo hi : Fin d → ℤ} (hw : WholeTrees lo hi) {q p : Quad d}
    (hq : Aligned q) (hq29 : q.level ≤ 29) (hqb : Cells q ⊆ BoxOf lo hi)
    (hp : Aligned p) (hp29 : p.level ≤ 29) (hpb : Cells p ⊆ BoxOf lo hi)
    {b : Bool} {ss : List (Quad d)} (h : balanceSeeds q p k true = some (b, ss)) :
    (∀ s ∈ ss, Aligned s ∧ s.level ≤ q.level ∧ p.level < s.level ∧ Cells s ⊆ Cells p) ∧
    ∀ r, Aligned r → r.level ≤ 29 → Cells r ⊆ Cells p → Divides (Cells p) k {s | s ∈ ss} r →
      Divides (BoxOf lo hi) k {q} r := by
  obtain ⟨h1, h2, h3⟩ := seeds_facts hdim hk1 hkd hw hq hq29 hqb hp hp29 hpb h
  exact ⟨h1, h2⟩

/-- Beside C91: a quadrant of level 7 next to a face in 3D; there are three seeds. -/
def facePair : Quad 3 × Quad 3 :=
  (⟨![256 * 2 ^ 21, 316 * 2 ^ 21, 316 * 2 ^ 21], 7⟩, ⟨![128 * 2 ^ 21, 256 * 2 ^ 21, 256 * 2 ^ 21], 2⟩)

example : ∃ ss, balanceSeeds facePair.1 facePair.2 2 true = some (true, ss) ∧ ss.length = 3 ∧
    Aligned facePair.1 ∧ Aligned facePair.2 ∧ WholeTrees (d := 3) (fun _ => 0) (fun _ => 2 ^ 30) ∧
    Cells facePair.1 ⊆ BoxOf (fun _ => 0) (fun _ => 2 ^ 30) ∧
    Cells facePair.2 ⊆ BoxOf (fun _ => 0) (fun _ => 2 ^ 30) ∧
    ¬ (Cells facePair.1 ⊆ Cells facePair.2 ∧ facePair.1.level = facePair.2.level + 1) ∧
    axesOutside facePair.1 facePair.2 = 1 := by
  refine ⟨((balanceSeeds facePair.1 facePair.2 2 true).getD (false, [])).2, by decide +kernel, by decide +kernel,
    ⟨by decide, by decide +kernel⟩, ⟨by decide, by decide +kernel⟩, ?_, ?_, ?_, fun h => absurd h.2 (by decide),
    by decide +kernel⟩
  · intro i; simp
  · rw [cells_sub_box]; decide +kernel
  · rw [cells_sub_box]; decide +kernel

/-- The quadrants of `C91_edge_incomplete`. -/
def edgeQuad (x y z : ℤ) (l : ℕ) : Quad 3 := ⟨![x * 2 ^ 21, y * 2 ^ 21, z * 2 ^ 21], l⟩

/-- With edge balance and `q` outside along two axes the seeds are not enough: `q` divides `r`, a
quadrant of `p`, and the seeds do not. -/
theorem C91_edge_incomplete : ∃ q p r : Quad 3, ∃ ss, Aligned q ∧ Aligned p ∧ Aligned r ∧
    q.level ≤ 29 ∧ p.level ≤ 29 ∧ r.level ≤ 29 ∧
    Cells q ⊆ BoxOf (fun _ => 0) (fun _ => 2 ^ 30) ∧ Cells p ⊆ BoxOf (fun _ => 0) (fun _ => 2 ^ 30) ∧
    Cells r ⊆ Cells p ∧ axesOutside q p = 2 ∧
    balanceSeeds q p 2 true = some (true, ss) ∧
    Divides (BoxOf (fun _ => 0) (fun _ => 2 ^ 30)) 2 {q} r ∧ ¬ Divides (Cells p) 2 {s | s ∈ ss} r := by
  have hw : WholeTrees (d := 3) (fun _ => 0) (fun _ => 2 ^ 30) := by intro i; simp
  have hq : Aligned (edgeQuad 256 308 384 7) := ⟨by decide, by decide +kernel⟩
  have hp : Aligned (edgeQuad 128 256 256 2) := ⟨by decide, by decide +kernel⟩
  have hr : Aligned (edgeQuad 224 256 352 4) := ⟨by decide, by decide +kernel⟩
  have hs : Aligned (edgeQuad 248 304 376 6) := ⟨by decide, by decide +kernel⟩
  have hqb : Cells (edgeQuad 256 308 384 7) ⊆ BoxOf (fun _ => 0) (fun _ => 2 ^ 30) := by
    rw [cells_sub_box]; decide +kernel
  have hpb : Cells (edgeQuad 128 256 256 2) ⊆ BoxOf (fun _ => 0) (fun _ => 2 ^ 30) := by
    rw [cells_sub_box]; decide +kernel
  have hrp : Cells (edgeQuad 224 256 352 4) ⊆ Cells (edgeQuad 128 256 256 2) := by
    refine cells_sub_box.mpr ?_; decide +kernel
  have hsp : Cells (edgeQuad 248 304 376 6) ⊆ Cells (edgeQuad 128 256 256 2) := by
    refine cells_sub_box.mpr ?_; decide +kernel
  refine ⟨_, _, edgeQuad 224 256 352 4, [edgeQuad 248 304 376 6], hq, hp, hr, by decide, by decide, by decide, hqb, hpb, hrp,
    by decide +kernel, by decide +kernel, ?_, ?_⟩
  · exact (C90_test_partial (withSeeds := true) (b := true)
      (ss := ((balanceSeeds (edgeQuad 256 308 384 7) (edgeQuad 224 256 352 4) 2 true).getD (false, [])).2)
      (.inr rfl) (by norm_num) (by norm_num) hw hq (by decide) hqb hr (by decide) (hrp.trans hpb)
      (fun h => absurd h.2 (by decide)) (by decide +kernel)).mp rfl
  · rw [divides_inside (by norm_num) hp (by decide) ?_ hr (by decide) hrp]
    · rintro ⟨s, h1, h2⟩
      have : s = edgeQuad 248 304 376 6 := by simpa using h1
      subst this
      have h3 := (C90_test_partial (withSeeds := true) (b := false) (ss := [])
        (.inr rfl) (by norm_num) (by norm_num) hw hs (by decide) (hsp.trans hpb) hr (by decide) (hrp.trans hpb)
        (fun h => absurd h.2 (by decide)) (by decide +kernel)).mpr
        ((divides_trees (by norm_num) hw hs (by decide) (hsp.trans hpb) hr (by decide) (hrp.trans hpb)).mpr h2)
      cases h3
    · intro s h1
      have : s = edgeQuad 248 304 376 6 := by simpa using h1
      subst this
      exact ⟨hs, by decide, by decide, hsp⟩

end P4est
