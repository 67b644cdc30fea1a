import Verif.Lemmas.GhostGeom
import Verif.Model.Ghost
import Verif.Props.RangeBoundaries

/-! # The ranks that own cells at a face of a quadrant -/

namespace P4est
open Spec

variable {d : ℕ}

theorem filterM_some {β : Type} (f : β → Option Bool) (g : β → Bool) :
    ∀ l : List β, (∀ x ∈ l, f x = some (g x)) → l.filterM f = some (l.filter g) := by
  have key : ∀ (l acc : List β), (∀ x ∈ l, f x = some (g x)) →
      List.filterAuxM f l acc = some ((l.filter g).reverse ++ acc) := by
    intro l
    induction l with
    | nil => intro acc _; rfl
    | cons x l ih =>
      intro acc h
      unfold List.filterAuxM
      rw [h x (by simp)]
      simp only [Option.bind_eq_bind, Option.bind_some]
      rw [ih _ fun y hy => h y (by simp [hy])]
      cases hg : g x <;> simp [List.filter_cons, hg]
  intro l h
  unfold List.filterM
  rw [key l [] h]
  simp

theorem dvd_step {D a b : ℕ} (ha : D ∣ a) (hb : D ∣ b) (h : a < b) : a + D ≤ b := by
  obtain ⟨x, rfl⟩ := ha
  obtain ⟨y, rfl⟩ := hb
  have := Nat.lt_of_mul_lt_mul_left h
  calc D * x + D = D * (x + 1) := by ring
    _ ≤ _ := Nat.mul_le_mul_left _ this

theorem dvd_back {D a b : ℕ} (ha : D ∣ a) (hb : D ∣ b) (h : a < b + D) : a ≤ b := by
  by_contra hc
  have := dvd_step hb ha (by omega)
  omega

/-- The smallest quadrant that contains a unit cell. -/
def cellOf (b : Fin d → ℤ) : Quad d := ⟨fun i => b i - b i % 2, 29⟩

theorem side_cellOf (b : Fin d → ℤ) : side (cellOf b) = 2 := by unfold side cellOf; norm_num

theorem cellOf_mem (b : Fin d → ℤ) : b ∈ Cells (cellOf b) := by
  intro i
  rw [side_cellOf]
  show b i - b i % 2 ≤ b i ∧ b i < b i - b i % 2 + 2
  omega

theorem cellOf_cell {b : Fin d → ℤ} (h : InTree b) : IsCell (cellOf b) := by
  refine ⟨⟨le_rfl, ⟨show 29 ≤ 30 by norm_num, fun i => ?_⟩, fun i => ?_⟩, rfl⟩
  · rw [side_cellOf]
    show (2:ℤ) ∣ b i - b i % 2
    omega
  · have := h i
    show 0 ≤ b i - b i % 2 ∧ b i - b i % 2 < 2 ^ 30
    omega

theorem cell_volume {u : Quad d} (h : IsCell u) : volume u = 2 ^ d := by
  unfold volume; rw [h.2]; simp

theorem cell_stop {u : Quad d} (h : IsCell u) : stop u = start u + 2 ^ d := by
  rw [stop_eq, cell_volume h]

theorem cell_dvd {u : Quad d} (h : IsCell u) : 2 ^ d ∣ start u := by
  have := volume_dvd_start h.1.aligned
  rwa [cell_volume h] at this

theorem valid_dvd {q : Quad d} (h : Valid q) : 2 ^ d ∣ start q ∧ 2 ^ d ∣ stop q := by
  have hv : 2 ^ d ∣ volume q := by
    unfold volume
    refine Nat.pow_dvd_pow 2 ?_
    have := h.1
    exact Nat.le_mul_of_pos_right d (by omega)
  have h1 := hv.trans (volume_dvd_start h.aligned)
  exact ⟨h1, by rw [stop_eq]; exact Nat.dvd_add h1 hv⟩

/-- A position divisible by the size of a smallest quadrant is the beginning of one. -/
theorem cell_of_dvd {c : Fin d → ℤ} (hc : InTree c) (h : 2 ^ d ∣ curve c) : IsCell (⟨c, 29⟩ : Quad d) := by
  have hk := cellOf_cell hc
  have h1 := (mem_iff_pos hk.1.aligned hk.1.int32 hc.int32).mp (cellOf_mem c)
  rw [cell_stop hk] at h1
  have h2 := dvd_back h (cell_dvd hk) h1.2
  have h3 : curve c = curve (cellOf c).c := le_antisymm h2 h1.1
  have := curve_inj hc.int32 hk.1.int32 h3
  have e : (⟨c, 29⟩ : Quad d) = cellOf c := congrArg (fun c => (⟨c, 29⟩ : Quad d)) this
  rw [e]; exact hk

theorem tree_dvd (hd : 0 < d) (t : ℕ) : 2 ^ d ∣ t * 2 ^ (d * 30) :=
  Dvd.dvd.mul_left (Nat.pow_dvd_pow 2 (by omega)) _

/-- A rank with a single smallest cell has a single leaf of the smallest size. -/
theorem single_leaf (hd : 0 < d) {a : ℕ} : ∀ {ls : List (ℕ × Quad d)}, (∀ x ∈ ls, Valid x.2) → GPath a ls (a + 2 ^ d) →
    ∃ x, ls = [x] ∧ x.2.level = 29 := by
  intro ls hv h
  have hpos : 0 < 2 ^ d := by positivity
  cases ls with
  | nil => have : a = a + 2 ^ d := h; omega
  | cons x ls =>
    obtain ⟨h1, h2⟩ := h
    have hle := GPath.le h2
    have hxv := hv x (by simp)
    have hvol : 2 ^ d ≤ volume x.2 := by
      unfold volume
      refine Nat.pow_le_pow_right (by norm_num) ?_
      have := hxv.1
      exact Nat.le_mul_of_pos_right d (by omega)
    have hst := stop_eq x.2
    unfold gstop at hle h2
    unfold gstart at h1
    have hveq : volume x.2 = 2 ^ d := by omega
    refine ⟨x, ?_, ?_⟩
    · cases ls with
      | nil => rfl
      | cons y ls =>
        exfalso
        have := GPath.lt h2 (by simp)
        omega
    · unfold volume at hveq
      have := Nat.pow_right_injective le_rfl hveq
      have h29 := hxv.1
      have : d * (30 - x.2.level) = d * 1 := by simpa using this
      have := Nat.eq_of_mul_eq_mul_left hd this
      omega

theorem shift_and_ne_zero (a n : ℕ) : (a &&& (1 <<< n)) ≠ 0 ↔ a.testBit n = true := by
  rw [Nat.one_shiftLeft, Nat.and_two_pow]
  cases a.testBit n <;> simp

/-- A cell of the face layer, seen from the smallest quadrants. -/
theorem touches_layer {a u : Quad d} (ha : Valid a) (hl : a.level ≤ 29) (hu : IsCell u) (hua : Cells u ⊆ Cells a) {nf : ℕ}
    (hnf : nf < 2 * d) : TouchesPart a (boundaryPart d nf) u ↔ ∃ b ∈ Cells u, Layer nf a b := by
  have hs : side u = 2 := by unfold side; rw [hu.2]; norm_num
  have hpart : ∀ i : Fin d, boundaryPart d nf i = if (i : ℕ) = nf / 2 then some (nf.testBit 0) else none := by
    intro i; unfold boundaryPart; rw [if_pos hnf]
  have hbit : nf.testBit 0 = decide (nf % 2 = 1) := by simp
  have h2a : ∀ i, (2:ℤ) ∣ a.c i ∧ (2:ℤ) ∣ side a := by
    intro i
    have : (2:ℤ) ∣ side a := by
      unfold side
      exact dvd_pow_self 2 (by omega)
    exact ⟨this.trans (ha.2.1.2 i), this⟩
  have h2u : ∀ i, (2:ℤ) ∣ u.c i := by
    intro i
    have := hu.1.2.1.2 i
    rwa [hs] at this
  constructor
  · intro h
    refine ⟨fun i => if (i : ℕ) = nf / 2 ∧ nf % 2 = 1 then u.c i + 1 else u.c i, ?_, hua ?_, fun i hi => ?_⟩
    · intro i; rw [hs]; dsimp only; split <;> omega
    · intro i; rw [hs]; dsimp only; split <;> omega
    · have h1 := h i
      rw [hpart, if_pos hi, hbit] at h1
      dsimp only
      by_cases c : nf % 2 = 1
      · simp only [c, decide_true] at h1
        rw [if_pos c, if_pos ⟨hi, c⟩]; omega
      · simp only [c, decide_false] at h1
        rw [if_neg c, if_neg (fun k => c k.2)]; exact h1
  · rintro ⟨b, hb, hba, hl⟩ i
    rw [hpart]
    by_cases hi : (i : ℕ) = nf / 2
    · rw [if_pos hi, hbit]
      have h1 := hl i hi
      have h2 := hb i
      have h3 := h2a i
      have h4 := h2u i
      rw [hs] at h2
      by_cases c : nf % 2 = 1
      · rw [if_pos c] at h1
        simp only [c, decide_true]
        rw [hs]
        omega
      · rw [if_neg c] at h1
        simp only [c, decide_false]
        omega
    · rw [if_neg hi]; trivial

theorem layer_nonempty (a : Quad d) (nf : ℕ) : ∃ b, Layer nf a b := by
  have hs := side_pos a
  refine ⟨fun i => if nf % 2 = 1 then a.c i + side a - 1 else a.c i, fun i => ?_, fun i hi => ?_⟩
  · dsimp only; split <;> omega
  · dsimp only; split <;> omega

/-- The ranks for which a leaf is added: exactly those other ranks that own a cell of the face layer of its
neighbor. -/
theorem testAdd_spec (hd : d = 2 ∨ d = 3) {trees : List (List (Quad d))} {P : ℕ} {leaves : ℕ → List (ℕ × Quad d)}
    (h : Distributed trees P leaves) (hone : ∀ p < P, ∀ x, leaves p = [x] → x.2.level ≠ 29) {r : ℕ} (hr : r < P)
    {nt : ℕ} (ht : nt < trees.length) {nq : Quad d} (hq : Valid nq) {nf : ℕ} (hnf : nf < 2 * d) :
    ∃ ps, testAdd (globalPartition leaves P trees.length) P nq.level nq nt (1 <<< nf) r = some ps ∧
      ∀ p, p ∈ ps ↔ p < P ∧ p ≠ r ∧ ∃ b, Layer nf nq b ∧ ∃ x ∈ leaves p, x.1 = nt ∧ b ∈ Cells x.2 := by
  have hd0 : 0 < d := by omega
  obtain ⟨s, hs⟩ := h.segments hd0
  have hD : 0 < 2 ^ d := by positivity
  set B := nt * 2 ^ (d * 30) with hB
  have hBd : 2 ^ d ∣ B := tree_dvd hd0 nt
  obtain ⟨hsd, hpd⟩ := valid_dvd hq
  have hss := start_lt_stop nq
  have hpos : ∀ b ∈ Cells nq, start nq ≤ curve b ∧ curve b < stop nq := fun b hb =>
    (mem_iff_pos hq.aligned hq.int32 (valid_cells_inTree hq hb).int32).mp hb
  -- owners of single cells
  have hown : ∀ p < P, ∀ b, Layer nf nq b → ((∃ x ∈ leaves p, x.1 = nt ∧ b ∈ Cells x.2) ↔
      s p ≤ B + curve b ∧ B + curve b < s (p + 1)) := fun p hp b hb =>
    hs.mem_iff hd0 nt p hp (layer_inTree hq hb)
  have huniq : ∀ {p p' n : ℕ}, p < P → p' < P → s p ≤ n → n < s (p + 1) → s p' ≤ n → n < s (p' + 1) → p = p' := by
    intro p p' n hp hp' h1 h2 h3 h4
    rcases Nat.lt_trichotomy p p' with c | c | c
    · have := hs.mono (show p + 1 ≤ p' by omega) (by omega); omega
    · exact c
    · have := hs.mono (show p' + 1 ≤ p by omega) (by omega); omega
  obtain ⟨n0, hn0, hx0, -, ho0, -⟩ := C27_find_owner hd0 trees P leaves h nt ht nq (valid_inTree hq) r hr
  have b0 := (hs.mem_iff hd0 nt n0 hn0 (valid_inTree hq)).mp hx0
  rw [← hB] at b0
  change s n0 ≤ B + start nq ∧ B + start nq < s (n0 + 1) at b0
  -- the result if all cells belong to one rank
  have hsame : stop nq ≤ s (n0 + 1) - B → ∀ p, p ∈ (if (n0 : ℤ) ≠ (r : ℤ) then [(n0 : ℤ).toNat] else []) ↔
      p < P ∧ p ≠ r ∧ ∃ b, Layer nf nq b ∧ ∃ x ∈ leaves p, x.1 = nt ∧ b ∈ Cells x.2 := by
    intro hle p
    have hall : ∀ b, Layer nf nq b → s n0 ≤ B + curve b ∧ B + curve b < s (n0 + 1) := by
      intro b hb
      have := hpos b hb.1
      omega
    constructor
    · intro hp
      split at hp
      · rename_i hne
        simp only [Int.toNat_natCast, List.mem_singleton] at hp
        subst hp
        obtain ⟨b, hb⟩ := layer_nonempty nq nf
        exact ⟨hn0, by exact_mod_cast hne, b, hb, (hown p hn0 b hb).mpr (hall b hb)⟩
      · simp at hp
    · rintro ⟨hp, hpr, b, hb, hx⟩
      have h1 := (hown p hp b hb).mp hx
      have h2 := hall b hb
      have := huniq hp hn0 h1.1 h1.2 h2.1 h2.2
      subst this
      rw [if_pos (by exact_mod_cast hpr)]
      simp
  unfold testAdd
  rw [ho0]
  simp only [Option.bind_eq_bind, Option.bind_some]
  by_cases h29 : nq.level = 29
  · rw [if_pos (show nq.level = QMAXLEVEL from h29)]
    refine ⟨_, rfl, hsame ?_⟩
    have h1 := hs.dvd hd0 (n0 + 1) hn0
    have h2 := dvd_step (Nat.dvd_add hBd hsd) h1 b0.2
    rw [cell_stop ⟨hq, h29⟩]
    omega
  rw [if_neg (show ¬ nq.level = QMAXLEVEL from h29)]
  have hlv : Valid (lastDesc nq 29) :=
    ((C10_descendants_bound hd0 nq hq.extended 29 hq.1 le_rfl).2.2.1 hq).2
  have hlc : IsCell (lastDesc nq 29) := ⟨hlv, rfl⟩
  have hstopl : stop (lastDesc nq 29) = stop nq := stop_lastDesc hq.aligned hq.int32 hq.1 (by norm_num)
  rw [cell_stop hlc] at hstopl
  obtain ⟨n1, hn1, hx1, -, ho1, -⟩ := C27_find_owner hd0 trees P leaves h nt ht (lastDesc nq 29) (valid_inTree hlv) n0 hn0
  have b1 := (hs.mem_iff hd0 nt n1 hn1 (valid_inTree hlv)).mp hx1
  rw [← hB] at b1
  change s n1 ≤ B + start (lastDesc nq 29) ∧ B + start (lastDesc nq 29) < s (n1 + 1) at b1
  have b1' : B + stop nq ≤ s (n1 + 1) := by
    have := dvd_step (Nat.dvd_add hBd (cell_dvd hlc)) (hs.dvd hd0 (n1 + 1) hn1) b1.2
    omega
  rw [show lastDesc nq QMAXLEVEL = lastDesc nq 29 from rfl, ho1]
  simp only [Option.bind_some]
  by_cases h01 : n0 = n1
  · subst h01
    rw [if_pos rfl]
    exact ⟨_, rfl, hsame (by omega)⟩
  rw [if_neg (by exact_mod_cast h01)]
  have hlt01 : n0 < n1 := by
    by_contra hc
    have := hs.mono (show n1 + 1 ≤ n0 by omega) (by omega)
    have := hs.mono (show n1 ≤ n1 + 1 by omega) (by omega)
    have hcd := cell_dvd hlc
    omega
  simp only [Int.toNat_natCast]
  -- one turn of the loop
  have hturn : ∀ p, n0 ≤ p → p ≤ n1 → ∃ v, testProc (globalPartition leaves P trees.length) n0 n1 nq.level (1 <<< nf) r p = some v ∧
      (v = true ↔ p ≠ r ∧ ∃ b, Layer nf nq b ∧ ∃ x ∈ leaves p, x.1 = nt ∧ b ∈ Cells x.2) := by
    intro p hp0 hp1
    have hpP : p < P := by omega
    unfold testProc
    by_cases hpr : p = r
    · rw [if_pos hpr]; exact ⟨false, rfl, by simp [hpr]⟩
    rw [if_neg hpr]
    obtain ⟨g, e1, a1⟩ := globalPartition_at hd0 hs p hpP.le
    obtain ⟨g', e2, a2⟩ := globalPartition_at hd0 hs (p + 1) hpP
    rw [e1, e2]
    simp only [Option.bind_eq_bind, Option.bind_some]
    by_cases hgg : g = g'
    · rw [if_pos hgg]
      refine ⟨false, rfl, iff_of_false (by simp) ?_⟩
      rintro ⟨-, b, hb, hx⟩
      have h1 := (hown p hpP b hb).mp hx
      have := (At.eq_iff a1 a2).mp hgg
      omega
    rw [if_neg hgg]
    have hsne : s p ≠ s (p + 1) := fun c => hgg ((At.eq_iff a1 a2).mpr c)
    have hsp : s p < s (p + 1) := lt_of_le_of_ne (hs.mono (by omega) (by omega)) hsne
    have hV := valid_stop_le hd0 hq
    have hm1 := hs.mono (show p ≤ n1 from hp1) hn1.le
    have hdp := hs.dvd hd0 p hpP.le
    have hdp1 := hs.dvd hd0 (p + 1) hpP
    -- a position inside the quadrant
    have hgpos : ∀ {g : GPos d} {n : ℕ}, At g n → 2 ^ d ∣ n → B + start nq < n → n + 2 ^ d ≤ B + stop nq →
        IsCell g.quad ∧ Cells g.quad ⊆ Cells nq ∧ B + start g.quad = n := by
      rintro g n ⟨u, k1, k2, k3⟩ hdn h1 h2
      have hcv := curve_lt_of_inTree k2
      have hu : u = nt := by
        rcases Nat.lt_trichotomy u nt with c | c | c
        · have : (u + 1) * 2 ^ (d * 30) ≤ nt * 2 ^ (d * 30) := Nat.mul_le_mul_right _ (by omega)
          rw [Nat.add_one_mul] at this
          omega
        · exact c
        · have : (nt + 1) * 2 ^ (d * 30) ≤ u * 2 ^ (d * 30) := Nat.mul_le_mul_right _ (by omega)
          rw [Nat.add_one_mul] at this
          omega
      subst hu
      have hdc : 2 ^ d ∣ curve g.c := by
        have := (Nat.dvd_add_right hBd).mp (show 2 ^ d ∣ B + curve g.c by rw [hB, k3]; exact hdn)
        exact this
      have hc : IsCell g.quad := cell_of_dvd k2 hdc
      have hst : start g.quad = curve g.c := rfl
      refine ⟨hc, ?_, by rw [hst]; exact k3⟩
      rw [valid_subset_iff hd0 hq hc.1, cell_stop hc, hst]
      omega
    -- the ends of the range
    obtain ⟨l, hl, hl2, hl3⟩ : ∃ l : Option (Quad d), (if p = n0 then none else some g.quad) = l ∧
        (∀ q, l = some q → IsCell q ∧ Cells q ⊆ Cells nq) ∧
        (∀ u, IsCell u → Cells u ⊆ Cells nq → ((∀ q, l = some q → start q ≤ start u) ↔ s p ≤ B + start u)) := by
      by_cases c : p = n0
      · refine ⟨none, if_pos c, by simp, fun u hu hua => iff_of_true (by simp) ?_⟩
        have := (valid_subset_iff hd0 hq hu.1).mp hua
        rw [c]; omega
      · have hm := hs.mono (show n0 + 1 ≤ p by omega) hpP.le
        obtain ⟨k1, k2, k3⟩ := hgpos a1 hdp (by omega) (by omega)
        refine ⟨some g.quad, if_neg c, ?_, fun u hu hua => ?_⟩
        · rintro q ⟨⟩; exact ⟨k1, k2⟩
        · simp only [Option.some.injEq, forall_eq']; omega
    obtain ⟨w, hw, hw2, hw3, hw4⟩ : ∃ w : Option (Quad d),
        (if p = n1 then some none else (predecessor g'.quad).map some) = some w ∧
        (∀ q, w = some q → IsCell q ∧ Cells q ⊆ Cells nq) ∧
        (∀ u, IsCell u → Cells u ⊆ Cells nq → ((∀ q, w = some q → start u ≤ start q) ↔ B + stop u ≤ s (p + 1))) ∧
        (∀ q, w = some q → B + stop q = s (p + 1)) := by
      by_cases c : p = n1
      · refine ⟨none, if_pos c, by simp, fun u hu hua => iff_of_true (by simp) ?_, by simp⟩
        have := (valid_subset_iff hd0 hq hu.1).mp hua
        rw [c]; omega
      · have hm := hs.mono (show n0 + 1 ≤ p + 1 by omega) hpP
        have hm' := hs.mono (show p + 1 ≤ n1 by omega) hn1.le
        obtain ⟨k1, k2, k3⟩ := hgpos a2 hdp1 (by omega) (by omega)
        obtain ⟨c1, c2⟩ := C12_predecessor hd0 (by omega) g'.quad k1.1
        have hk := (valid_subset_iff hd0 hq k1.1).mp k2
        cases hpre : predecessor g'.quad with
        | none => exfalso; have := c2.mp hpre; omega
        | some w =>
          obtain ⟨w1, w2, w3, -⟩ := c1 w hpre
          have hwc : IsCell w := ⟨w1, w2.trans k1.2⟩
          have hws := cell_stop hwc
          have hin : start nq ≤ start w := by
            have := dvd_step hsd (cell_dvd k1) (by omega)
            omega
          refine ⟨some w, ?_, ?_, fun u hu hua => ?_, ?_⟩
          · rw [if_neg c]; rfl
          · rintro q ⟨⟩
            refine ⟨hwc, (valid_subset_iff hd0 hq w1).mpr ⟨hin, ?_⟩⟩
            have := start_lt_stop g'.quad
            omega
          · have hus := cell_stop hu
            simp only [Option.some.injEq, forall_eq']; omega
          · rintro q ⟨⟩; omega
    rw [hl, hw]
    simp only [Option.bind_some]
    refine ⟨_, rfl, ?_⟩
    simp only [decide_eq_true_eq]
    rw [shift_and_ne_zero, C56_range_boundaries_partial hd nq hq l w hl2 hw2 ?_ nf]
    · have hbp : nf < boundaryParts d := by
        unfold boundaryParts
        rcases hd with rfl | rfl
        · rw [if_neg (by norm_num)]; omega
        · rw [if_pos rfl]; omega
      unfold RangeTouches
      constructor
      · rintro ⟨-, u, hu, hua, h1, h2, h3⟩
        obtain ⟨b, hbu, hb⟩ := (touches_layer hq hq.1 hu hua hnf).mp h3
        refine ⟨hpr, b, hb, (hown p hpP b hb).mpr ?_⟩
        have h4 := (hl3 u hu hua).mp h1
        have h5 := (hw3 u hu hua).mp h2
        have h6 := (mem_iff_pos hu.1.aligned hu.1.int32 (layer_inTree hq hb).int32).mp hbu
        omega
      · rintro ⟨-, b, hb, hx⟩
        have h1 := (hown p hpP b hb).mp hx
        have hbt := layer_inTree hq hb
        have hu := cellOf_cell hbt
        have h6 := (mem_iff_pos hu.1.aligned hu.1.int32 hbt.int32).mp (cellOf_mem b)
        have h7 := hpos b hb.1
        have hus := cell_stop hu
        have hud := cell_dvd hu
        have e1 := dvd_back hsd hud (by omega)
        have e2 := dvd_step hud hpd (by omega)
        have hua : Cells (cellOf b) ⊆ Cells nq := (valid_subset_iff hd0 hq hu.1).mpr ⟨e1, by omega⟩
        have e3 := dvd_back hdp (Nat.dvd_add hBd hud) (by omega)
        have e4 := dvd_step (Nat.dvd_add hBd hud) hdp1 (by omega)
        refine ⟨hbp, cellOf b, hu, hua, (hl3 _ hu hua).mpr e3, (hw3 _ hu hua).mpr (by omega), ?_⟩
        exact (touches_layer hq hq.1 hu hua hnf).mpr ⟨b, cellOf_mem b, hb⟩
    · intro q1 q2 k1 k2
      right
      obtain ⟨c1, c2⟩ := hl2 q1 k1
      obtain ⟨c3, c4⟩ := hw2 q2 k2
      have c5 := hw4 q2 k2
      rw [cell_stop c3] at c5
      have c6 : B + start q1 = s p := by
        by_cases c : p = n0
        · rw [if_pos c] at hl; rw [← hl] at k1; cases k1
        · have hm := hs.mono (show n0 + 1 ≤ p by omega) hpP.le
          rw [if_neg c] at hl
          rw [← hl] at k1
          cases k1
          exact (hgpos a1 hdp (by omega) (by omega)).2.2
      by_contra hc
      have := dvd_step hdp hdp1 hsp
      have hpath := hs.path p hpP
      rw [show s (p + 1) = s p + 2 ^ d by omega] at hpath
      obtain ⟨x, hx1, hx2⟩ := single_leaf hd0 (fun x hx => (hs.leaf p hpP x hx).2) hpath
      exact hone p hpP x hx1 hx2
  choose! v hv1 hv2 using hturn
  refine ⟨_, filterM_some _ v _ fun p hp => ?_, fun p => ?_⟩
  · rw [List.mem_range'_1] at hp
    exact hv1 p (by omega) (by omega)
  · rw [List.mem_filter, List.mem_range'_1]
    constructor
    · rintro ⟨hp, hvp⟩
      exact ⟨by omega, (hv2 p (by omega) (by omega)).mp hvp⟩
    · rintro ⟨hp, hpr, b, hb, hx⟩
      have h1 := (hown p hp b hb).mp hx
      have h2 := hpos b hb.1
      have hp0 : n0 ≤ p := by
        by_contra hc
        have := hs.mono (show p + 1 ≤ n0 by omega) (by omega)
        omega
      have hp1 : p ≤ n1 := by
        by_contra hc
        have := hs.mono (show n1 + 1 ≤ p by omega) (by omega)
        omega
      exact ⟨by omega, (hv2 p hp0 hp1).mpr ⟨hpr, b, hb, hx⟩⟩

end P4est
