import Verif.Lemmas.SeedsSide

/-! # The list of seeds -/

namespace P4est
open Spec

variable {d : ℕ} {k : ℕ} {ok : Prop}

/-- The seeds are in `p`, are forced by `q`, and, if `ok`, force all that `q` forces in `p`. -/
structure SeedsFit (k : ℕ) (ok : Prop) (q p : Quad d) (S : Set (Quad d)) : Prop where
  sound : ∀ s ∈ S, ∃ t, Aligned t ∧ Cells t ⊆ Cells p ∧ p.level ≤ t.level ∧ t.level < q.level ∧
    (∃ i, outNum q t i ≠ 0) ∧ SeedOf k q t s
  complete : ok → ∀ r, Aligned r → Cells r ⊆ Cells p → Forces k q r → ∃ s ∈ S, Forces k s r

theorem mem_toList {E : Extra d} {n : ℕ} {s : Quad d} : s ∈ E.toList n ↔ ∃ i < n, E i = some s := by
  unfold Extra.toList
  simp [List.mem_filterMap]

/-- What is put at an index. -/
def entryOf (lv : Bool) (r : Bool × Quad d) : Option (Quad d) := if lv then none else if r.1 then none else some r.2

theorem cell_facts {q t u p : Quad d} (ht : Aligned t) (hp : Aligned p) (hl : p.level ≤ t.level) {r : Bool × Quad d}
    (hs : ConSpec k q u r) :
    (∀ s, entryOf (leaves t p) r = some s → Cells t ⊆ Cells p ∧ SeedOf k q u s) ∧
    (Cells t ⊆ Cells p → Forces k q u → ∃ s, entryOf (leaves t p) r = some s ∧ SeedOf k q u s) := by
  have hlv := code_leaves ht hp hl
  unfold entryOf
  constructor
  · intro s h
    split at h
    · cases h
    · rename_i h1
      split at h
      · cases h
      · rename_i h2
        injection h with h
        subst h
        refine ⟨hlv.mp (by simpa using h1), ?_⟩
        rcases hs.seed with h3 | h3
        · exact absurd h3 h2
        · exact h3
  · intro h1 h2
    obtain ⟨h3, h4⟩ := hs.forces h2
    exact ⟨r.2, by rw [hlv.mpr h1, h3]; rfl, h4⟩

/-- The two neighbors along a line. -/
theorem put_two (s0 : Quad d) (lv : ℤ → Bool) (r : ℤ → Bool × Quad d) (n : ℕ) :
    ([(-1 : ℤ), 1].foldl (fun add i => if lv i then add else Extra.put add (1 + i) (r i))
      (fun n => if n = 1 then some s0 else none)) n =
    if n = 0 then entryOf (lv (-1)) (r (-1)) else if n = 1 then some s0
    else if n = 2 then entryOf (lv 1) (r 1) else none := by
  simp only [List.foldl_cons, List.foldl_nil]
  unfold Extra.put entryOf
  by_cases h0 : n = 0
  · subst h0
    cases lv (-1) <;> cases lv 1 <;> cases (r (-1)).1 <;> cases (r 1).1 <;> simp
  by_cases h1 : n = 1
  · subst h1
    cases lv (-1) <;> cases lv 1 <;> cases (r (-1)).1 <;> cases (r 1).1 <;> simp
  by_cases h2 : n = 2
  · subst h2
    cases lv (-1) <;> cases lv 1 <;> cases (r (-1)).1 <;> cases (r 1).1 <;> simp
  have e1 : ¬ ((n : ℤ) = 1 + -1) := by omega
  have e2 : ¬ ((n : ℤ) = 1 + 1) := by omega
  cases lv (-1) <;> cases lv 1 <;> cases (r (-1)).1 <;> cases (r 1).1 <;> simp [e1, e2, h0, h1, h2] <;> omega

theorem along_eq {d : ℕ} (x : Fin d) (up : Bool) :
    (fun y : Fin d => (if (y : ℕ) = x then sgn up else 0) + (if (y : ℕ) = d then (0 : ℤ) else 0)) = along x up := by
  funext y
  simp only [along, Fin.ext_iff, ite_self, add_zero]

theorem along_ne {x i : Fin d} {up : Bool} (h : i ≠ x) : along x up i = 0 := by simp [along, h]

theorem along_self {x : Fin d} {up : Bool} : along x up x = sgn up := by simp [along]

/-- The seeds along a line: at a face in 2D and at an edge. -/
theorem line_fit (hdim : d = 2 ∨ d = 3) (hk1 : 1 ≤ k) (hkd : k ≤ d) {q p s0 : Quad d} (hq : Aligned q)
    (hq29 : q.level ≤ 29) (hp : Aligned p) (hp29 : p.level ≤ 29) (hpq : p.level < q.level) {x : Fin d}
    (hx : outNum q p x = 0) (hout : ∀ i, i ≠ x → outNum q p i ≠ 0) {bit : Fin d → Bool}
    (hbit : ∀ i, i ≠ x → conDist q p (bit i) i = qlen q.level * outNum q p i) {corner : ℤ → ℕ}
    (hcorner : ∀ up i, (corner (sgn up)).testBit (i : Fin d) = if i = x then !up else bit i)
    (h0 : SeedOf k q p s0)
    (htr : ok → ∀ m j E E', Lowered m j (fun i => outNum q p i = 0) E E' →
      (∀ e : Fin d → ℕ, (∀ i, outNum q p i = 0 → e i = 0) → (∀ i, outNum q p i ≠ 0 → e i = E i) → CanReach k m e) →
      CanReach k (m + j) E → CanReach k m E') {E : Extra d}
    (hE : E = [(-1 : ℤ), 1].foldl (fun add i =>
        if leaves (shiftBy (maskTo s0.c (s0.level - 1)) x d i 0) p then add
        else Extra.put add (1 + i) (cornerCon q (shiftBy (maskTo s0.c (s0.level - 1)) x d i 0) (corner i) (ibalance d k)))
      (fun n => if n = 1 then some s0 else none)) :
    SeedsFit k ok q p {s | s ∈ E.toList 3} := by
  have hd : 0 < d := by omega
  have hL := hq.1
  obtain ⟨y, hy⟩ : ∃ y : Fin d, y ≠ x := by
    rcases hdim with rfl | rfl
    · exact (by decide : ∀ x : Fin 2, ∃ y, y ≠ x) x
    · exact (by decide : ∀ x : Fin 3, ∃ y, y ≠ x) x
  have hb := h0.fine hpq ⟨y, hout y hy⟩
  have hlt := h0.level
  have htemp : ∀ up, shiftBy (nearest q p (s0.level - 1)) x d (sgn up) 0 = besides q p (s0.level - 1) (along x up) := by
    intro up
    rw [code_temp, along_eq]
  have hcell : ∀ n, E n = if n = 0 then entryOf (leaves (besides q p (s0.level - 1) (along x false)) p)
      (cornerCon q (besides q p (s0.level - 1) (along x false)) (corner (sgn false)) (ibalance d k))
      else if n = 1 then some s0 else if n = 2 then entryOf (leaves (besides q p (s0.level - 1) (along x true)) p)
      (cornerCon q (besides q p (s0.level - 1) (along x true)) (corner (sgn true)) (ibalance d k)) else none := by
    intro n
    rw [hE, code_a hq h0 hb.le, put_two s0 (fun i => leaves (shiftBy (nearest q p (s0.level - 1)) x d i 0) p)
      (fun i => cornerCon q (shiftBy (nearest q p (s0.level - 1)) x d i 0) (corner i) (ibalance d k)) n,
      ← htemp, ← htemp]
    rfl
  have hyo : ∀ up, outNum q (besides q p (s0.level - 1) (along x up)) y ≠ 0 := fun up => by
    rw [besides_out (by omega) (by omega) (along_ne hy)]; exact hout y hy
  have hfacts : ∀ up, _ := fun up => cell_facts (k := k) (q := q) (t := besides q p (s0.level - 1) (along x up))
    (u := besides q p (s0.level - 1) (along x up)) (p := p) (qat_aligned (by omega) _) hp
    (show p.level ≤ s0.level - 1 by omega)
    (r := cornerCon q (besides q p (s0.level - 1) (along x up)) (corner (sgn up)) (ibalance d k))
    (cornerCon_spec hdim hk1 hkd hq (qat_aligned (by omega) _) (show s0.level - 1 < q.level by omega) (by
      intro i
      rw [hcorner]
      split
      · rename_i h; subst h
        exact con_shift hq (by omega) along_self hx
      · rename_i h
        exact con_same hq hp (by omega) (by omega) (along_ne h) (hbit i h)) ⟨y, hyo up⟩)
  have hmem : ∀ s, s ∈ E.toList 3 ↔ s = s0 ∨ ∃ up, entryOf (leaves (besides q p (s0.level - 1) (along x up)) p)
      (cornerCon q (besides q p (s0.level - 1) (along x up)) (corner (sgn up)) (ibalance d k)) = some s := by
    intro s
    rw [mem_toList]
    constructor
    · rintro ⟨n, hn, h⟩
      rw [hcell] at h
      obtain rfl | rfl | rfl : n = 0 ∨ n = 1 ∨ n = 2 := by omega
      · right
        refine ⟨false, ?_⟩
        rw [if_pos rfl] at h
        exact h
      · left
        simp at h
        exact h.symm
      · right
        refine ⟨true, ?_⟩
        rw [if_neg (by omega), if_neg (by omega), if_pos rfl] at h
        exact h
    · rintro (rfl | ⟨up, h⟩)
      · exact ⟨1, by omega, by rw [hcell]; simp⟩
      · cases up
        · exact ⟨0, by omega, by rw [hcell, if_pos rfl]; exact h⟩
        · exact ⟨2, by omega, by rw [hcell, if_neg (by omega), if_neg (by omega), if_pos rfl]; exact h⟩
  constructor
  · intro s hs
    rcases (hmem s).mp hs with rfl | ⟨up, h⟩
    · exact ⟨p, hp, subset_rfl, le_rfl, hpq, ⟨y, hout y hy⟩, h0⟩
    · obtain ⟨h1, h2⟩ := (hfacts up).1 s h
      exact ⟨_, qat_aligned (by omega) _, h1, show p.level ≤ s0.level - 1 by omega, show s0.level - 1 < q.level by omega,
        ⟨y, hyo up⟩, h2⟩
  · intro hok r hr hrp hf
    refine complete_few hd hq hq29 hp hp29 hpq ⟨y, hout y hy⟩ ((hmem s0).mpr (.inl rfl)) h0 ?_ ?_ (htr hok) hr hrp hf
    · intro δ hδ hδ0 hδn hsub hF
      have hδx : ∃ up, δ = along x up := by
        obtain ⟨i, hi⟩ := hδn
        have hix : i = x := by
          by_contra hc
          exact hi (hδ0 i (hout i hc))
        subst hix
        rcases hδ i with h | ⟨up, h⟩
        · exact absurd h hi
        · refine ⟨up, ?_⟩
          funext j
          by_cases hj : j = i
          · rw [hj, along_self, h]
          · rw [along_ne hj, hδ0 j (hout j hj)]
      obtain ⟨up, rfl⟩ := hδx
      obtain ⟨s, h1, h2⟩ := (hfacts up).2 hsub hF
      exact ⟨s, (hmem s).mpr (.inr ⟨up, h1⟩), h2⟩
    · have : (Finset.univ.filter fun i => outNum q p i = 0) = {x} := by
        ext i
        simp only [Finset.mem_filter, Finset.mem_univ, true_and, Finset.mem_singleton]
        constructor
        · intro h
          by_contra hc
          exact hout i hc h
        · rintro rfl
          exact hx
      rw [this]
      simpa using hk1

/-- The seed at a corner. -/
theorem corner_fit (hd : 0 < d) {q p s0 : Quad d} (hq : Aligned q)
    (hq29 : q.level ≤ 29) (hp : Aligned p) (hp29 : p.level ≤ 29) (hpq : p.level < q.level)
    (hout : ∀ i, outNum q p i ≠ 0) (h0 : SeedOf k q p s0) : SeedsFit k ok q p {s | s ∈ [s0]} := by
  constructor
  · intro s hs
    have : s = s0 := by simpa using hs
    subst this
    exact ⟨p, hp, subset_rfl, le_rfl, hpq, ⟨⟨0, hd⟩, hout _⟩, h0⟩
  · intro hok r hr hrp hf
    refine complete_few hd hq hq29 hp hp29 hpq ⟨⟨0, hd⟩, hout _⟩ (by simp) h0 ?_ ?_ ?_ hr hrp hf
    · intro δ _ hδ0 ⟨i, hi⟩
      exact absurd (hδ0 i (hout i)) hi
    · have : (Finset.univ.filter fun i => outNum q p i = 0) = ∅ := by
        ext i
        simp [hout i]
      rw [this]
      simp
    · intro m j E E' h hb _
      refine hb E' (fun i hi => absurd hi (hout i)) (fun i _ => ?_)
      rcases h i with h1 | h1 | h1
      · exact h1.2.1
      · exact absurd h1.1 (hout i)
      · exact absurd h1.1 (hout i)

end P4est
