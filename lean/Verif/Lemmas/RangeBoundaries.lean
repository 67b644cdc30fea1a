import Verif.Model.RangeBoundaries
import Verif.Spec.RangeBoundaries
import Verif.Lemmas.SearchLocal
import Verif.Lemmas.Step
import Verif.Lemmas.BalanceGeom
import Verif.Props.Curve

/-! # Lemmas on the boundary search of a range of cells -/

namespace P4est
open Spec

variable {d : ℕ}

/-! ## Tables -/

/-- The child number `k` lies at the boundary part `b`. -/
def OnPart (d : ℕ) (b : ℕ → Option Bool) (k : ℕ) : Prop := ∀ i : Fin d, ∀ s, b i = some s → k.testBit i = s

theorem cornerMask_bit (hd : d = 2 ∨ d = 3) {k n : ℕ} (hk : k < 2 ^ d) (hn : n < boundaryParts d) :
    (cornerMask d k).testBit n = true ↔ OnPart d (boundaryPart d n) k := by
  have h2 : ∀ k : Fin 4, ∀ n : Fin 8, (cornerMask 2 k).testBit n = true ↔
      ∀ i : Fin 2, ∀ s, boundaryPart 2 n i = some s → (k : ℕ).testBit i = s := by decide +kernel
  have h3 : ∀ k : Fin 8, ∀ n : Fin 26, (cornerMask 3 k).testBit n = true ↔
      ∀ i : Fin 3, ∀ s, boundaryPart 3 n i = some s → (k : ℕ).testBit i = s := by decide +kernel
  rcases hd with rfl | rfl
  · exact h2 ⟨k, by simpa using hk⟩ ⟨n, by simpa [boundaryParts] using hn⟩
  · exact h3 ⟨k, by simpa using hk⟩ ⟨n, by simpa [boundaryParts] using hn⟩

theorem allBoundaries_bit (hd : d = 2 ∨ d = 3) (n : ℕ) :
    (allBoundaries d).testBit n = decide (n < boundaryParts d) := by
  have : allBoundaries d = 2 ^ boundaryParts d - 1 := by rcases hd with rfl | rfl <;> rfl
  rw [this, Nat.testBit_two_pow_sub_one]

theorem addCorners_bit (d mask : ℕ) (l : List ℕ) (touch n : ℕ) :
    (addCorners d mask l touch).testBit n = true ↔ touch.testBit n = true ∨
      (mask.testBit n = true ∧ ∃ k ∈ l, (cornerMask d k).testBit n = true) := by
  unfold addCorners
  induction l generalizing touch with
  | nil => simp
  | cons c l ih =>
    simp only [List.foldl_cons, ih, Nat.testBit_or, Nat.testBit_and, Bool.or_eq_true, Bool.and_eq_true,
      List.mem_cons, exists_eq_or_imp]
    tauto

/-! ## Geometry -/

theorem subset_bounds {a u : Quad d} (h : Cells u ⊆ Cells a) (i : Fin d) :
    a.c i ≤ u.c i ∧ u.c i + side u ≤ a.c i + side a := by
  have h1 := h (corner_mem u) i
  have hs := side_pos u
  have h2 := h (show (fun j => u.c j + side u - 1) ∈ Cells u from fun j => ⟨by dsimp only; omega, by dsimp only; omega⟩) i
  exact ⟨h1.1, by omega⟩

theorem side_kid {a : Quad d} (hl : a.level < 29) (k : ℕ) : side a = 2 * side (kid a k) := by
  unfold side kid
  rw [show 30 - a.level = (30 - (a.level + 1)) + 1 by omega, pow_succ]
  ring

theorem touches_kid {a u : Quad d} (hl : a.level < 29) {k : ℕ} (b : ℕ → Option Bool)
    (h : Cells u ⊆ Cells (kid a k)) :
    TouchesPart a b u ↔ OnPart d b k ∧ TouchesPart (kid a k) b u := by
  unfold TouchesPart OnPart
  rw [← forall_and]
  apply forall_congr'
  intro i
  obtain ⟨h1, h2⟩ := subset_bounds h i
  have hs := side_kid hl k
  have hp := side_pos (kid a k)
  have hc : (kid a k).c i = a.c i + if k.testBit i then side (kid a k) else 0 := rfl
  rcases hb : b i with _ | s
  · simp
  · cases s <;> cases ht : k.testBit i <;> simp only [ht] at hc ⊢ <;> simp at hc ⊢ <;> omega

/-- The corner cell. -/
theorem corner_cell {a : Quad d} (ha : Valid a) (b : ℕ → Option Bool) {k : ℕ} (h : OnPart d b k) :
    ∃ u, IsCell u ∧ Cells u ⊆ Cells a ∧ TouchesPart a b u := by
  obtain ⟨-, h2, h3, h4⟩ := C10_corner_descendant a ha.extended k 29 ha.1 le_rfl
  refine ⟨cornerDesc a k 29, ⟨h3 ha, h2⟩, fun p hp => ((h4 p).mp hp).1, fun i => ?_⟩
  have hsub : Cells (cornerDesc a k 29) ⊆ Cells a := fun p hp => ((h4 p).mp hp).1
  obtain ⟨h5, h6⟩ := subset_bounds hsub i
  have hs := side_pos (cornerDesc a k 29)
  have h7 := ((h4 _).mp (corner_mem (cornerDesc a k 29))).2 i
  have hd1 : side (cornerDesc a k 29) ∣ (cornerDesc a k 29).c i - a.c i := by
    have e1 := (h3 ha).aligned.2 i
    have e2 := ha.aligned.2 i
    exact dvd_sub e1 ((side_dvd_side (by rw [h2]; exact ha.1)).trans e2)
  rcases hb : b i with _ | s
  · trivial
  · have := h i s hb
    cases s
    · show _ = _
      rw [this, if_neg (by simp)] at h7
      obtain ⟨m, hm⟩ := hd1
      have : m < 1 := by
        by_contra hc
        have : side (cornerDesc a k 29) * 1 ≤ side (cornerDesc a k 29) * m := by
          apply mul_le_mul_of_nonneg_left <;> omega
        omega
      have : side (cornerDesc a k 29) * m ≤ 0 := by
        apply mul_nonpos_of_nonneg_of_nonpos <;> omega
      omega
    · show _ = _
      rw [this, if_pos rfl] at h7
      omega

/-- Some cell of `a`, at or beyond `q` in the given direction, reaches the boundary part. -/
def Reaches (a q : Quad d) (up : Bool) (b : ℕ → Option Bool) : Prop :=
  ∃ u, IsCell u ∧ Cells u ⊆ Cells a ∧ (if up then start q ≤ start u else start u ≤ start q) ∧
    TouchesPart a b u

theorem cell_eq (hd : 0 < d) {a u : Quad d} (hu : IsCell u) (ha : IsCell a) (h : Cells u ⊆ Cells a) : u = a := by
  by_contra hne
  have := ((valid_ssubset_iff hd ha.1 hu.1).mp (valid_ssubset_of_ne hd ha.1 hu.1 h hne)).1
  rw [hu.2, ha.2] at this
  omega

theorem touches_self (a : Quad d) (b : ℕ → Option Bool) : TouchesPart a b a := by
  intro i
  rcases b i with _ | _ | _ <;> simp

theorem mem_beyond {up : Bool} {c k : ℕ} :
    k ∈ siblingsBeyond d up c ↔ if up then c < k ∧ k < 2 ^ d else k < c := by
  unfold siblingsBeyond
  cases up
  · simp
  · simp only [if_true, List.mem_range'_1]
    omega

theorem cell_kid (hd : 0 < d) {a u : Quad d} (ha : Valid a) (hl : a.level < 29) (hu : IsCell u)
    (h : Cells u ⊆ Cells a) :
    ancestorId u (a.level + 1) < 2 ^ d ∧ Cells u ⊆ Cells (kid a (ancestorId u (a.level + 1))) := by
  have hs : Cells u ⊂ Cells a := (valid_ssubset_iff hd ha hu.1).mpr ⟨by rw [hu.2]; exact hl, h⟩
  obtain ⟨-, h2, h3⟩ := kid_of_ssubset hd ha hu.1 hs
  exact ⟨h2, (h3 _ h2).mpr rfl⟩

theorem reaches_step (hd : 0 < d) {a q : Quad d} (ha : Valid a) (hl : a.level < 29) (hq : IsCell q)
    (h : Cells q ⊆ Cells a) (up : Bool) (b : ℕ → Option Bool) :
    Reaches a q up b ↔ (∃ k ∈ siblingsBeyond d up (ancestorId q (a.level + 1)), OnPart d b k) ∨
      (OnPart d b (ancestorId q (a.level + 1)) ∧ Reaches (kid a (ancestorId q (a.level + 1))) q up b) := by
  obtain ⟨hk0, hqk⟩ := cell_kid hd ha hl hq h
  set k0 := ancestorId q (a.level + 1) with hk0'
  have hsub : ∀ k < 2 ^ d, Cells (kid a k) ⊆ Cells a := fun k hk => (kid_subset hd ha hl hk).1
  have hiv : ∀ k < 2 ^ d, ∀ w, IsCell w → Cells w ⊆ Cells (kid a k) →
      start (kid a k) ≤ start w ∧ stop w ≤ stop (kid a k) :=
    fun k hk w hw hws => (valid_subset_iff hd (kid_valid ha hl k) hw.1).mp hws
  constructor
  · rintro ⟨u, hu, hua, hdir, ht⟩
    obtain ⟨hk, huk⟩ := cell_kid hd ha hl hu hua
    set k := ancestorId u (a.level + 1)
    rw [touches_kid hl b huk] at ht
    by_cases he : k = k0
    · right
      rw [← he]
      exact ⟨ht.1, u, hu, huk, hdir, ht.2⟩
    · left
      refine ⟨k, ?_, ht.1⟩
      rw [mem_beyond]
      have e1 := hiv k hk u hu huk
      have e2 := hiv k0 hk0 q hq hqk
      have e3 := start_lt_stop u
      have e4 := start_lt_stop q
      rcases lt_or_gt_of_ne he with hlt | hgt
      · have := kid_order ha hl hk0 hlt
        cases up
        · simpa using hlt
        · simp at hdir; omega
      · have := kid_order ha hl hk hgt
        cases up
        · simp at hdir; omega
        · simp; exact ⟨hgt, hk⟩
  · rintro (⟨k, hk, ht⟩ | ⟨ht, u, hu, hua, hdir, htt⟩)
    · rw [mem_beyond] at hk
      have hk2 : k < 2 ^ d := by
        cases up <;> simp at hk <;> omega
      obtain ⟨u, hu, hus, hut⟩ := corner_cell (kid_valid ha hl k) b ht
      refine ⟨u, hu, hus.trans (hsub k hk2), ?_, (touches_kid hl b hus).mpr ⟨ht, hut⟩⟩
      have e1 := hiv k hk2 u hu hus
      have e2 := hiv k0 hk0 q hq hqk
      have e3 := start_lt_stop u
      have e4 := start_lt_stop q
      cases up
      · simp at hk ⊢
        have := kid_order ha hl hk0 hk
        omega
      · simp at hk ⊢
        have := kid_order ha hl hk2 hk.1
        omega
    · exact ⟨u, hu, hua.trans (hsub _ hk0), hdir, (touches_kid hl b hua).mpr ⟨ht, htt⟩⟩

theorem kid_ancestor {q : Quad d} (hq : IsCell q) {l : ℕ} (hl : l < 29) :
    kid (ancestor q l) (ancestorId q (l + 1)) = ancestor q (l + 1) := by
  rw [kid_eq_child (ancestor_valid hq.1 (by rw [hq.2]; omega)), child_ancestor (by omega)]

theorem cell_ancestor {q : Quad d} (hq : IsCell q) {l : ℕ} (hl : l ≤ 29) :
    Valid (ancestor q l) ∧ Cells q ⊆ Cells (ancestor q l) ∧ (ancestor q l).level = l :=
  ⟨ancestor_valid hq.1 (by rw [hq.2]; omega), cells_subset_ancestor hq.1.aligned (by rw [hq.2]; omega),
    ancestor_level _ _⟩

theorem reaches_ancestor (hd : 0 < d) {q : Quad d} (hq : IsCell q) {l : ℕ} (hl : l < 29) (up : Bool)
    (b : ℕ → Option Bool) :
    Reaches (ancestor q l) q up b ↔ (∃ k ∈ siblingsBeyond d up (ancestorId q (l + 1)), OnPart d b k) ∨
      (OnPart d b (ancestorId q (l + 1)) ∧ Reaches (ancestor q (l + 1)) q up b) := by
  obtain ⟨h1, h2, h3⟩ := cell_ancestor hq (l := l) (by omega)
  have := reaches_step hd h1 (by omega) hq h2 up b
  rwa [h3, kid_ancestor hq hl] at this

theorem reaches_cell {q : Quad d} (hq : IsCell q) (up : Bool) (b : ℕ → Option Bool) :
    Reaches (ancestor q 29) q up b := by
  have : ancestor q 29 = q := by rw [← hq.2]; exact ancestor_self hq.1.aligned
  rw [this]
  exact ⟨q, hq, le_rfl, by split <;> exact le_rfl, touches_self q b⟩

/-- From a level on all child numbers are the same and on the boundary part. -/
theorem reaches_tail (hd : 0 < d) {q : Quad d} (hq : IsCell q) (up : Bool) (b : ℕ → Option Bool) {c : ℕ}
    (hb : OnPart d b c) {m : ℕ} : ∀ n l, l + n = 29 → m ≤ l + 1 →
      (∀ j, m ≤ j → 0 < j → j ≤ 29 → ancestorId q j = c) → Reaches (ancestor q l) q up b
  | 0, l, hl, _, _ => by
    obtain rfl : l = 29 := by omega
    exact reaches_cell hq up b
  | n + 1, l, hl, hm, h => by
    rw [reaches_ancestor hd hq (by omega)]
    right
    rw [h (l + 1) hm (by omega) (by omega)]
    exact ⟨hb, reaches_tail hd hq up b hb n (l + 1) (by omega) (by omega) h⟩

/-! ## The last level -/

theorem tailOnes_spec : ∀ n a, tailOnes n a ≤ n ∧ ∀ j < tailOnes n a, Int.testBit a j = true
  | 0, a => by simp [tailOnes]
  | n + 1, a => by
    obtain ⟨h1, h2⟩ := tailOnes_spec n (a / 2)
    unfold tailOnes
    split
    · rename_i h
      refine ⟨by omega, fun j hj => ?_⟩
      cases j with
      | zero => exact h
      | succ j =>
        have := h2 j (by omega)
        rw [tb_eq] at this ⊢
        rw [pow_succ', ← Int.ediv_ediv_of_nonneg (by norm_num)]
        exact this
    · exact ⟨by omega, fun j hj => by omega⟩

theorem tailOnes_two {n : ℕ} {a : ℤ} (h0 : Int.testBit a 0 = true) (h1 : Int.testBit a 1 = true) :
    2 ≤ tailOnes (n + 2) a := by
  have h3 : Int.testBit (a / 2) 0 = true := by
    rw [tb_eq] at h1 ⊢
    simpa using h1
  simp [tailOnes, h0, h3]

theorem cell_two {q : Quad d} (hq : IsCell q) (i : Fin d) : ∃ y, q.c i = 2 * y := by
  obtain ⟨y, hy⟩ := hq.1.aligned.2 i
  refine ⟨y, ?_⟩
  rw [hy]
  unfold side
  rw [hq.2]
  norm_num

/-- The sum formed in the code: the coordinate, rounded up if it is odd. -/
theorem lastLevel_bits {q : Quad d} (hq : IsCell q) :
    lastLevel q ≤ 29 ∧ ∀ j, lastLevel q ≤ j → 0 < j → j ≤ 29 → ancestorId q j = childId q := by
  set x : Fin d → ℤ := fun i => q.c i + if (childId q).testBit i then qlen QMAXLEVEL else 0 with hx
  have hll : lastLevel q = 31 - tailOnes 31 (Int.lnot (orCoords x)) := rfl
  obtain ⟨h1, h2⟩ := tailOnes_spec 31 (Int.lnot (orCoords x))
  set c := tailOnes 31 (Int.lnot (orCoords x)) with hc
  have hq2 : qlen QMAXLEVEL = 2 := rfl
  have hcb : ∀ i : Fin d, (childId q).testBit i = decide (q.c i / 2 % 2 = 1) := by
    intro i
    rw [childId_testBit q (by rw [hq.2]; omega), hq.2]
    norm_num
  have hbits : ∀ j < c, ∀ i, Int.testBit (x i) j = false := by
    intro j hj
    rw [← orCoords_testBit]
    have := h2 j hj
    rw [Int.testBit_lnot] at this
    simpa using this
  have hc2 : 2 ≤ c := by
    have hz : ∀ j < 2, Int.testBit (orCoords x) j = false := by
      intro j hj
      rw [orCoords_testBit]
      intro i
      obtain ⟨y, hy⟩ := cell_two hq i
      rw [tb_eq]
      have hxi : x i = q.c i + if (childId q).testBit i then 2 else 0 := rfl
      rw [hxi, hcb i]
      obtain rfl | rfl : j = 0 ∨ j = 1 := by omega
      · by_cases hp : q.c i / 2 % 2 = 1 <;> simp [hp] <;> omega
      · by_cases hp : q.c i / 2 % 2 = 1 <;> simp [hp] <;> omega
    apply tailOnes_two (n := 29)
    · rw [Int.testBit_lnot, hz 0 (by omega)]; rfl
    · rw [Int.testBit_lnot, hz 1 (by omega)]; rfl
  refine ⟨by omega, fun j h3 h4 h5 => ?_⟩
  apply bits_ext (ancestorId_lt _ _) (childId_lt _)
  intro i
  rw [ancestorId_testBit q h4, hcb]
  -- the low bits of `x i` vanish
  have hdvd : ∀ m ≤ c, (2 : ℤ) ^ m ∣ x i := by
    intro m
    induction m with
    | zero => simp
    | succ m ih =>
      intro hm
      have hb := hbits m (by omega) i
      obtain ⟨y, hy⟩ := ih (by omega)
      rw [tb_eq, hy, Int.mul_ediv_cancel_left _ (by positivity)] at hb
      simp only [decide_eq_false_iff_not] at hb
      rw [hy, pow_succ]
      exact mul_dvd_mul_left _ (by omega)
  obtain ⟨e, he⟩ : ∃ e, 30 - j = e + 1 := ⟨29 - j, by omega⟩
  obtain ⟨y, hy⟩ := hdvd (e + 2) (by omega)
  have hxi : x i = q.c i + if (childId q).testBit i then 2 else 0 := rfl
  rw [hcb i] at hxi
  rw [he]
  congr 1
  have hpow : (2 : ℤ) ^ (e + 2) = 2 * (2 * 2 ^ e) := by ring
  have hpow1 : (2 : ℤ) ^ (e + 1) = 2 * 2 ^ e := by ring
  have hpos : (0 : ℤ) < 2 ^ e := by positivity
  by_cases hp : q.c i / 2 % 2 = 1
  · simp only [hp, decide_true, if_true] at hxi
    have : q.c i = 2 ^ (e + 1) * (2 * y - 1) + (2 * 2 ^ e - 2) := by
      rw [hpow] at hy; rw [hpow1]; linarith
    rw [this, Int.mul_add_ediv_left _ _ (by positivity), Int.ediv_eq_zero_of_lt (by omega) (by rw [hpow1]; omega)]
    simp only [eq_iff_iff]
    constructor
    · intro _
      exact this ▸ hp
    · intro _
      omega
  · simp only [hp, decide_false] at hxi
    have : q.c i = 2 ^ (e + 1) * (2 * y) := by
      rw [hpow] at hy; rw [hpow1]; simp at hxi; linarith
    rw [this, Int.mul_ediv_cancel_left _ (by positivity), ← this]
    simp only [eq_iff_iff]
    constructor
    · intro h; omega
    · intro h; exact absurd h hp

/-! ## The two recursions -/

theorem or_and_mask {m t : ℕ} (h : Nat.ldiff m t = 0) (n : ℕ) (hm : m.testBit n = true) : t.testBit n = true := by
  have := congrArg (Nat.testBit · n) h
  simp only [Nat.testBit_ldiff, Nat.zero_testBit, hm, Bool.true_and] at this
  simpa using this

theorem limitBoundaries_bit (hd : d = 2 ∨ d = 3) {q : Quad d} (hq : IsCell q) (up : Bool) {n : ℕ}
    (hn : n < boundaryParts d) : ∀ m l touch mask, l + 1 + m ≤ 29 →
      (∀ j, l + 1 + m ≤ j → 0 < j → j ≤ 29 → ancestorId q j = childId q) →
      ((limitBoundaries q up m (l + 1) touch mask).testBit n = true ↔ touch.testBit n = true ∨
        (mask.testBit n = true ∧ Reaches (ancestor q l) q up (boundaryPart d n))) := by
  have hd0 : 0 < d := by omega
  have hpart : ∀ l, (∃ k ∈ siblingsBeyond d up (ancestorId q (l + 1)), (cornerMask d k).testBit n = true) ↔
      ∃ k ∈ siblingsBeyond d up (ancestorId q (l + 1)), OnPart d (boundaryPart d n) k := by
    intro l
    apply exists_congr
    intro k
    apply and_congr_right
    intro hk
    apply cornerMask_bit hd _ hn
    rw [mem_beyond] at hk
    have := ancestorId_lt q (l + 1)
    cases up <;> simp at hk <;> omega
  intro m
  induction m with
  | zero =>
    intro l touch mask hl htail
    unfold limitBoundaries
    split
    · rename_i h
      exact ⟨Or.inl, fun hh => hh.elim id fun hh => or_and_mask h n hh.1⟩
    · rw [Nat.testBit_or, Bool.or_eq_true, addCorners_bit, hpart, Nat.testBit_and, Bool.and_eq_true,
        cornerMask_bit hd (ancestorId_lt _ _) hn, reaches_ancestor hd0 hq (by omega)]
      have h29 : OnPart d (boundaryPart d n) (ancestorId q (l + 1)) →
          Reaches (ancestor q (l + 1)) q up (boundaryPart d n) := by
        intro h
        rw [htail (l + 1) (by omega) (by omega) (by omega)] at h
        exact reaches_tail hd0 hq up _ h (m := l + 1) (28 - l) (l + 1) (by omega) (by omega) htail
      generalize (∃ k ∈ siblingsBeyond d up (ancestorId q (l + 1)), OnPart d (boundaryPart d n) k) = E
      clear hpart htail
      tauto
  | succ m ih =>
    intro l touch mask hl htail
    unfold limitBoundaries
    split
    · rename_i h
      exact ⟨Or.inl, fun hh => hh.elim id fun hh => or_and_mask h n hh.1⟩
    · rw [ih (l + 1) _ _ (by omega) (fun j h1 h2 h3 => htail j (by omega) h2 h3), addCorners_bit, hpart,
        Nat.testBit_and, Bool.and_eq_true, cornerMask_bit hd (ancestorId_lt _ _) hn,
        reaches_ancestor hd0 hq (l := l) (by omega)]
      generalize (∃ k ∈ siblingsBeyond d up (ancestorId q (l + 1)), OnPart d (boundaryPart d n) k) = E
      clear hpart htail ih
      tauto

theorem endBoundaries_bit (hd : d = 2 ∨ d = 3) {q : Quad d} (hq : IsCell q) (up : Bool) {n : ℕ}
    (hn : n < boundaryParts d) {l : ℕ} (hl : l < 29) (touch mask : ℕ) :
    (endBoundaries q up (l + 1) (cornerMask d (ancestorId q (l + 1)) &&& mask) touch).testBit n = true ↔
      touch.testBit n = true ∨ (mask.testBit n = true ∧ OnPart d (boundaryPart d n) (ancestorId q (l + 1)) ∧
        Reaches (ancestor q (l + 1)) q up (boundaryPart d n)) := by
  have hd0 : 0 < d := by omega
  obtain ⟨h1, h2⟩ := lastLevel_bits hq
  unfold endBoundaries
  split
  · rename_i hle
    rw [Nat.testBit_or, Bool.or_eq_true, Nat.testBit_and, Bool.and_eq_true,
      cornerMask_bit hd (ancestorId_lt _ _) hn]
    have h29 : OnPart d (boundaryPart d n) (ancestorId q (l + 1)) →
        Reaches (ancestor q (l + 1)) q up (boundaryPart d n) := by
      intro h
      rw [h2 (l + 1) hle (by omega) (by omega)] at h
      exact reaches_tail hd0 hq up _ h (m := l + 1) (28 - l) (l + 1) (by omega) (by omega)
        fun j h3 h4 h5 => h2 j (by omega) h4 h5
    tauto
  · rename_i hle
    rw [Nat.testBit_or, Bool.or_eq_true, limitBoundaries_bit hd hq up hn _ (l + 1) _ _ (by omega)
      (fun j h3 h4 h5 => h2 j (by omega) h4 h5), Nat.testBit_and, Bool.and_eq_true,
      cornerMask_bit hd (ancestorId_lt _ _) hn]
    tauto

/-- Some cell of `a` from `lq` to `uq` reaches the boundary part. -/
def Between (a lq uq : Quad d) (b : ℕ → Option Bool) : Prop :=
  ∃ u, IsCell u ∧ Cells u ⊆ Cells a ∧ start lq ≤ start u ∧ start u ≤ start uq ∧ TouchesPart a b u

theorem between_fork (hd : 0 < d) {a lq uq : Quad d} (ha : Valid a) (hl : a.level < 29) (hlq : IsCell lq)
    (huq : IsCell uq) (h1 : Cells lq ⊆ Cells a) (h2 : Cells uq ⊆ Cells a)
    (hlt : ancestorId lq (a.level + 1) < ancestorId uq (a.level + 1)) (b : ℕ → Option Bool) :
    Between a lq uq b ↔
      (∃ k, ancestorId lq (a.level + 1) < k ∧ k < ancestorId uq (a.level + 1) ∧ OnPart d b k) ∨
      (OnPart d b (ancestorId lq (a.level + 1)) ∧ Reaches (kid a (ancestorId lq (a.level + 1))) lq true b) ∨
      (OnPart d b (ancestorId uq (a.level + 1)) ∧ Reaches (kid a (ancestorId uq (a.level + 1))) uq false b) := by
  obtain ⟨hk1, hs1⟩ := cell_kid hd ha hl hlq h1
  obtain ⟨hk2, hs2⟩ := cell_kid hd ha hl huq h2
  set k1 := ancestorId lq (a.level + 1)
  set k2 := ancestorId uq (a.level + 1)
  have hsub : ∀ k < 2 ^ d, Cells (kid a k) ⊆ Cells a := fun k hk => (kid_subset hd ha hl hk).1
  have hiv : ∀ k < 2 ^ d, ∀ w, IsCell w → Cells w ⊆ Cells (kid a k) →
      start (kid a k) ≤ start w ∧ stop w ≤ stop (kid a k) ∧ start w < stop w :=
    fun k hk w hw hws => ⟨((valid_subset_iff hd (kid_valid ha hl k) hw.1).mp hws).1,
      ((valid_subset_iff hd (kid_valid ha hl k) hw.1).mp hws).2, start_lt_stop w⟩
  have e1 := hiv k1 hk1 lq hlq hs1
  have e2 := hiv k2 hk2 uq huq hs2
  constructor
  · rintro ⟨u, hu, hua, hge, hle, ht⟩
    obtain ⟨hk, huk⟩ := cell_kid hd ha hl hu hua
    set k := ancestorId u (a.level + 1)
    rw [touches_kid hl b huk] at ht
    have e := hiv k hk u hu huk
    by_cases c1 : k = k1
    · right; left
      rw [← c1]
      exact ⟨ht.1, u, hu, huk, by simpa using hge, ht.2⟩
    by_cases c2 : k = k2
    · right; right
      rw [← c2]
      exact ⟨ht.1, u, hu, huk, by simpa using hle, ht.2⟩
    left
    refine ⟨k, ?_, ?_, ht.1⟩
    · by_contra hc
      have := kid_order ha hl hk1 (show k < k1 by omega)
      omega
    · by_contra hc
      have := kid_order ha hl hk (show k2 < k by omega)
      omega
  · rintro (⟨k, c1, c2, ht⟩ | ⟨ht, u, hu, hus, hdir, htt⟩ | ⟨ht, u, hu, hus, hdir, htt⟩)
    · obtain ⟨u, hu, hus, hut⟩ := corner_cell (kid_valid ha hl k) b ht
      have e := hiv k (by omega) u hu hus
      have o1 := kid_order ha hl (show k < 2 ^ d by omega) c1
      have o2 := kid_order ha hl hk2 c2
      exact ⟨u, hu, hus.trans (hsub k (by omega)), by omega, by omega, (touches_kid hl b hus).mpr ⟨ht, hut⟩⟩
    · have e := hiv k1 hk1 u hu hus
      have o := kid_order ha hl hk2 hlt
      exact ⟨u, hu, hus.trans (hsub k1 hk1), by simpa using hdir, by omega, (touches_kid hl b hus).mpr ⟨ht, htt⟩⟩
    · have e := hiv k2 hk2 u hu hus
      have o := kid_order ha hl hk2 hlt
      simp at hdir
      exact ⟨u, hu, hus.trans (hsub k2 hk2), by omega, hdir, (touches_kid hl b hus).mpr ⟨ht, htt⟩⟩

theorem between_same (hd : 0 < d) {a lq uq : Quad d} (ha : Valid a) (hl : a.level < 29) (hlq : IsCell lq)
    (huq : IsCell uq) (h1 : Cells lq ⊆ Cells a) (h2 : Cells uq ⊆ Cells a)
    (he : ancestorId uq (a.level + 1) = ancestorId lq (a.level + 1)) (b : ℕ → Option Bool) :
    Between a lq uq b ↔ OnPart d b (ancestorId lq (a.level + 1)) ∧
      Between (kid a (ancestorId lq (a.level + 1))) lq uq b := by
  obtain ⟨hk1, hs1⟩ := cell_kid hd ha hl hlq h1
  obtain ⟨-, hs2⟩ := cell_kid hd ha hl huq h2
  rw [he] at hs2
  set k1 := ancestorId lq (a.level + 1)
  have hv := kid_valid ha hl k1
  have e1 := (valid_subset_iff hd hv hlq.1).mp hs1
  have e2 := (valid_subset_iff hd hv huq.1).mp hs2
  have vol : ∀ w : Quad d, IsCell w → stop w = start w + volume uq := fun w hw => by
    rw [stop_eq, volume_congr (hw.2.trans huq.2.symm)]
  constructor
  · rintro ⟨u, hu, hua, hge, hle, ht⟩
    have hus : Cells u ⊆ Cells (kid a k1) := by
      rw [valid_subset_iff hd hv hu.1]
      have := vol u hu
      have := vol uq huq
      omega
    rw [touches_kid hl b hus] at ht
    exact ⟨ht.1, u, hu, hus, hge, hle, ht.2⟩
  · rintro ⟨ht, u, hu, hus, hge, hle, htt⟩
    exact ⟨u, hu, hus.trans (kid_subset hd ha hl hk1).1, hge, hle, (touches_kid hl b hus).mpr ⟨ht, htt⟩⟩

theorem rangeBoundaries_bit (hd : d = 2 ∨ d = 3) {lq uq : Quad d} (hlq : IsCell lq) (huq : IsCell uq)
    {al : ℕ} (hal : al < 29) (hsame : ∀ j ≤ al, ancestor uq j = ancestor lq j)
    (hlt : ancestorId lq (al + 1) < ancestorId uq (al + 1)) {n : ℕ} (hn : n < boundaryParts d) :
    ∀ m l mask, l + m = al → ((rangeBoundaries lq uq m (l + 1) mask).testBit n = true ↔
      mask.testBit n = true ∧ Between (ancestor lq l) lq uq (boundaryPart d n)) := by
  have hd0 : 0 < d := by omega
  intro m
  induction m with
  | zero =>
    intro l mask hl
    obtain rfl : l = al := by omega
    obtain ⟨a1, a2, a3⟩ := cell_ancestor hlq (l := l) (by omega)
    obtain ⟨b1, b2, b3⟩ := cell_ancestor huq (l := l) (by omega)
    rw [hsame l le_rfl] at b2
    have hf := between_fork hd0 a1 (by omega) hlq huq a2 b2 (by rw [a3]; exact hlt) (boundaryPart d n)
    rw [a3, kid_ancestor hlq hal] at hf
    rw [← hsame l le_rfl, kid_ancestor huq hal, hsame l le_rfl] at hf
    unfold rangeBoundaries
    split
    · rename_i h; subst h; simp
    · simp only
      rw [endBoundaries_bit hd huq false hn hal, endBoundaries_bit hd hlq true hn hal, addCorners_bit, hf]
      have hr : (∃ k ∈ List.range' (ancestorId lq (l + 1) + 1) (ancestorId uq (l + 1) - (ancestorId lq (l + 1) + 1)),
          (cornerMask d k).testBit n = true) ↔
          ∃ k, ancestorId lq (l + 1) < k ∧ k < ancestorId uq (l + 1) ∧ OnPart d (boundaryPart d n) k := by
        apply exists_congr
        intro k
        have h2 := ancestorId_lt uq (l + 1)
        rw [List.mem_range'_1]
        constructor
        · rintro ⟨h3, h4⟩
          exact ⟨by omega, by omega, (cornerMask_bit hd (by omega) hn).mp h4⟩
        · rintro ⟨h3, h4, h5⟩
          exact ⟨by omega, (cornerMask_bit hd (by omega) hn).mpr h5⟩
      rw [hr, Nat.zero_testBit]
      generalize (∃ k, ancestorId lq (l + 1) < k ∧ k < ancestorId uq (l + 1) ∧ OnPart d (boundaryPart d n) k) = E
      clear hr hf hsame
      simp only [Bool.false_eq_true, false_or]
      tauto
  | succ m ih =>
    intro l mask hl
    obtain ⟨a1, a2, a3⟩ := cell_ancestor hlq (l := l) (by omega)
    obtain ⟨b1, b2, b3⟩ := cell_ancestor huq (l := l) (by omega)
    rw [hsame l (by omega)] at b2
    have he : ancestorId uq (l + 1) = ancestorId lq (l + 1) := by
      rw [ancestorId_eq_childId _ (by omega) (by omega), ancestorId_eq_childId _ (by omega) (by omega),
        hsame (l + 1) (by omega)]
    have hf := between_same hd0 a1 (by omega) hlq huq a2 b2 (by rw [a3]; exact he) (boundaryPart d n)
    rw [a3, kid_ancestor hlq (by omega)] at hf
    unfold rangeBoundaries
    split
    · rename_i h; subst h; simp
    · rw [ih (l + 1) _ (by omega), hf, Nat.testBit_and, Bool.and_eq_true,
        cornerMask_bit hd (ancestorId_lt _ _) hn]
      tauto

/-! ## No other bit is set -/

theorem addCorners_within (d mask : ℕ) (l : List ℕ) (touch n : ℕ)
    (h : (addCorners d mask l touch).testBit n = true) : touch.testBit n = true ∨ mask.testBit n = true :=
  ((addCorners_bit d mask l touch n).mp h).imp_right (·.1)

theorem limitBoundaries_within (q : Quad d) (up : Bool) (n : ℕ) : ∀ m l touch mask,
    (limitBoundaries q up m l touch mask).testBit n = true → touch.testBit n = true ∨ mask.testBit n = true := by
  intro m
  induction m with
  | zero =>
    intro l touch mask h
    unfold limitBoundaries at h
    split at h
    · exact Or.inl h
    · rw [Nat.testBit_or, Bool.or_eq_true, Nat.testBit_and, Bool.and_eq_true] at h
      exact h.elim (addCorners_within _ _ _ _ _) fun h => Or.inr h.2
  | succ m ih =>
    intro l touch mask h
    unfold limitBoundaries at h
    split at h
    · exact Or.inl h
    · rcases ih _ _ _ h with h | h
      · exact addCorners_within _ _ _ _ _ h
      · rw [Nat.testBit_and, Bool.and_eq_true] at h
        exact Or.inr h.2

theorem endBoundaries_within (q : Quad d) (up : Bool) (n l next touch : ℕ)
    (h : (endBoundaries q up l next touch).testBit n = true) : touch.testBit n = true ∨ next.testBit n = true := by
  unfold endBoundaries at h
  split at h <;> rw [Nat.testBit_or, Bool.or_eq_true] at h
  · exact h
  · exact h.elim Or.inl (limitBoundaries_within _ _ _ _ _ _ _)

theorem rangeBoundaries_within (lq uq : Quad d) (n : ℕ) : ∀ m l mask,
    (rangeBoundaries lq uq m l mask).testBit n = true → mask.testBit n = true := by
  intro m
  induction m with
  | zero =>
    intro l mask h
    unfold rangeBoundaries at h
    split at h
    · simp at h
    · simp only at h
      rcases endBoundaries_within _ _ _ _ _ _ h with h | h
      · rcases endBoundaries_within _ _ _ _ _ _ h with h | h
        · rcases addCorners_within _ _ _ _ _ h with h | h
          · simp at h
          · exact h
        · rw [Nat.testBit_and, Bool.and_eq_true] at h; exact h.2
      · rw [Nat.testBit_and, Bool.and_eq_true] at h; exact h.2
  | succ m ih =>
    intro l mask h
    unfold rangeBoundaries at h
    split at h
    · simp at h
    · have := ih _ _ h
      rw [Nat.testBit_and, Bool.and_eq_true] at this
      exact this.2

end P4est
