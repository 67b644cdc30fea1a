import Verif.Lemmas.ProfileBalance

/-! # The profile that a column demands of its neighbors -/

namespace P4est
open Spec

/-! ### Columns upside down -/

theorem tall_reverse (a : List ℕ) : tall a.reverse = tall a := by
  simp [tall, List.map_reverse, List.sum_reverse]

theorem levelAt_reverse : ∀ {a : List ℕ} {x : ℕ}, x < tall a →
    levelAt a.reverse x = levelAt a (tall a - 1 - x)
  | [], x, h => by simp [tall] at h
  | l :: a, x, h => by
    have hl := len_pos l
    rw [tall_cons] at h ⊢
    rw [List.reverse_cons]
    by_cases hx : x < tall a
    · rw [levelAt_left (by rwa [tall_reverse]), levelAt_reverse hx, levelAt]
      rw [if_neg (by omega)]
      congr 1; omega
    · obtain ⟨y, rfl⟩ : ∃ y, x = tall a.reverse + y := ⟨x - tall a, by rw [tall_reverse]; omega⟩
      rw [levelAt_right]
      rw [tall_reverse] at h ⊢
      simp only [levelAt]
      rw [if_pos (by omega), if_pos (by omega)]

/-- A relation between the levels in two columns of the same height holds upside down. -/
theorem at_reverse {R : ℕ → ℕ → Prop} {a b : List ℕ} (h : tall a = tall b)
    (hR : ∀ x, R (levelAt a x) (levelAt b x)) : ∀ x, R (levelAt a.reverse x) (levelAt b.reverse x) := by
  intro x
  by_cases hx : x < tall a
  · rw [levelAt_reverse hx, levelAt_reverse (h ▸ hx), ← h]; exact hR _
  · rw [levelAt_above (by rw [tall_reverse]; omega), levelAt_above (by rw [tall_reverse]; omega)]
    have := hR (tall a)
    rwa [levelAt_above (le_refl _), levelAt_above (by omega)] at this

theorem column_reverse : ∀ {a : List ℕ} {z e : ℕ}, Column z a e → e ≤ 2 ^ 30 →
    Column (2 ^ 30 - e) a.reverse (2 ^ 30 - z)
  | [], z, e, h, _ => by have hz : z = e := h; subst hz; rfl
  | l :: a, z, e, h, he => by
    have h1 := column_reverse h.2.2 he
    have h2 := column_le h
    have h3 := column_tall h1
    rw [tall_reverse] at h3
    rw [List.reverse_cons, column_append, tall_reverse, ← h3]
    refine ⟨h1, h.1, ?_, ?_⟩
    · exact Nat.dvd_sub (pow_dvd_pow 2 (by omega)) (Nat.dvd_add h.2.1 (dvd_refl _))
    · have := len_pos l
      show 2 ^ 30 - (z + 2 ^ (30 - l)) + 2 ^ (30 - l) = 2 ^ 30 - z
      omega

/-! ### Merging the halves -/

/-- The layers as the loop over the profile reads them: two halves of the same layer are one. -/
def halves : List ℕ → ℕ → List ℕ
  | [], _ => []
  | n :: rest, y =>
    if n ≠ 0 ∧ y &&& layerLen n = 0 then
      match rest with
      | [] => [n]
      | nn :: rest' =>
        if n = nn then (n - 1) :: halves rest' (y + layerLen (n - 1))
        else n :: halves (nn :: rest') (y + layerLen n)
    else n :: halves rest (y + layerLen n)
termination_by ls => ls.length

theorem faceLoop_cons {n y l : ℕ} {rest w : List ℕ} : faceLoop (n :: rest) y l w =
    if n ≠ 0 ∧ y &&& layerLen n = 0 then
      match rest with
      | [] => none
      | nn :: rest' =>
        if n = nn then
          faceLoop rest' (y + layerLen (n - 1)) (writeLayer l (n - 1)).2 (w ++ (writeLayer l (n - 1)).1)
        else faceLoop (nn :: rest') (y + layerLen n) (writeLayer l n).2 (w ++ (writeLayer l n).1)
    else faceLoop rest (y + layerLen n) (writeLayer l n).2 (w ++ (writeLayer l n).1) := by
  match rest with
  | [] => rw [faceLoop, faceLoop]
  | nn :: rest' =>
    rw [faceLoop]
    by_cases hc : n ≠ 0 ∧ y &&& layerLen n = 0
    · by_cases he : n = nn
      · rw [if_pos ⟨hc, he⟩, if_pos hc]; simp [he]
      · rw [if_neg (fun h => he h.2), if_pos hc]; simp [he]
    · rw [if_neg (fun h => hc h.1), if_neg hc]

/-- The test of the bit tells which of the two halves begins at `y`. -/
theorem first_half {n y : ℕ} (hn : n ≠ 0) (h30 : n ≤ 30) (h : 2 ^ (30 - n) ∣ y) :
    y &&& layerLen n = 0 ↔ 2 ^ (30 - (n - 1)) ∣ y := by
  obtain ⟨q, rfl⟩ := h
  rw [layerLen, Nat.and_two_pow, show 30 - (n - 1) = (30 - n) + 1 by omega, pow_succ,
    Nat.mul_dvd_mul_iff_left (len_pos n), Nat.testBit_eq_decide_div_mod_eq,
    Nat.mul_div_cancel_left q (len_pos n)]
  have := len_pos n
  rcases Nat.mod_two_eq_zero_or_one q with hq | hq
  · simp [hq, Nat.dvd_of_mod_eq_zero hq]
  · have : ¬ 2 ∣ q := by omega
    simp [hq, this]

/-- A layer that begins in the middle of a layer of level `n - 1` is of level at least `n`. -/
theorem second_half {n m y : ℕ} (hn : n ≠ 0) (h30 : n ≤ 30) (h : ¬ 2 ^ (30 - (n - 1)) ∣ y)
    (hm : 2 ^ (30 - m) ∣ y) : n ≤ m := by
  by_contra hc
  exact h ((pow_dvd_pow 2 (by omega)).trans hm)

theorem halves_spec : ∀ (k : ℕ) {ls : List ℕ} {y : ℕ}, ls.length ≤ k → Column y ls (2 ^ 30) →
    Column y (halves ls y) (2 ^ 30) ∧ FaceBalanced ls (halves ls y) ∧
    (∀ m, Column y m (2 ^ 30) → FaceBalanced ls m → Finer (halves ls y) m) ∧
    (∀ l w, faceLoop ls y l w = some (w ++ passAfter l (halves ls y))) := by
  intro k
  induction k with
  | zero =>
    intro ls y hk h
    obtain rfl : ls = [] := List.length_eq_zero_iff.1 (by omega)
    rw [halves]
    exact ⟨h, fun x => by simp, fun m _ _ x => by simp [levelAt], fun l w => by simp [faceLoop, passAfter]⟩
  | succ k ih =>
    intro ls y hk h
    match ls with
    | [] =>
      rw [halves]
      exact ⟨h, fun x => by simp, fun m _ _ x => by simp [levelAt], fun l w => by simp [faceLoop, passAfter]⟩
    | n :: rest =>
      have hle := column_le h
      have hpos := len_pos n
      simp only [List.length_cons] at hk
      -- a layer that is kept
      have keep : halves (n :: rest) y = n :: halves rest (y + layerLen n) →
          (∀ l w, faceLoop (n :: rest) y l w =
            faceLoop rest (y + layerLen n) (writeLayer l n).2 (w ++ (writeLayer l n).1)) →
          (∀ k' m, Column y (k' :: m) (2 ^ 30) → FaceBalanced (n :: rest) (k' :: m) → n ≤ k') →
          Column y (halves (n :: rest) y) (2 ^ 30) ∧ FaceBalanced (n :: rest) (halves (n :: rest) y) ∧
          (∀ m, Column y m (2 ^ 30) → FaceBalanced (n :: rest) m → Finer (halves (n :: rest) y) m) ∧
          (∀ l w, faceLoop (n :: rest) y l w = some (w ++ passAfter l (halves (n :: rest) y))) := by
        intro e1 e2 hmin
        obtain ⟨i1, i2, i3, i4⟩ := ih (y := y + layerLen n) (by omega) h.2.2
        rw [e1]
        refine ⟨⟨h.1, h.2.1, i1⟩, ?_, ?_, ?_⟩
        · exact at_append (a := [n]) (b := [n]) (R := fun x y => x ≤ y + 1) rfl (fun x _ => by omega) i2
        · intro m hm hf
          match m, hm with
          | [], hm => have : y = 2 ^ 30 := hm; omega
          | k' :: m, hm =>
            have hk' := hmin k' m hm hf
            obtain ⟨s, r, he, hs, hr⟩ := column_splits' hm h.2.1 hle hk'
            rw [he] at hf ⊢
            have ht : tall [n] = tall s := by rw [tall_one, hs.tall_eq]
            refine at_append (a := [n]) (b := s) (R := fun x y => x ≤ y) ht (fun x hx => ?_)
              (i3 r hr (at_upper (a := [n]) (b := s) (R := fun x y => x ≤ y + 1) ht hf))
            rw [tall_one] at hx
            rw [levelAt_one hx]
            exact (hs.le _ (levelAt_mem (by rwa [hs.tall_eq]))).1
        · intro l w
          rw [e2, i4, passAfter]
          simp
      by_cases hc : n ≠ 0 ∧ y &&& layerLen n = 0
      · have hd := (first_half hc.1 h.1 h.2.1).1 hc.2
        have hlen : 2 ^ (30 - (n - 1)) = 2 ^ (30 - n) + 2 ^ (30 - n) := by
          have h30 := h.1
          have := len_half (n := n - 1) (by omega)
          rwa [show n - 1 + 1 = n by omega] at this
        match rest, h with
        | [], h =>
          exfalso
          have h1 : y + 2 ^ (30 - n) = 2 ^ 30 := h.2.2
          have h2 : 2 ^ (30 - (n - 1)) ∣ 2 ^ 30 := pow_dvd_pow 2 (by omega)
          rw [← h1] at h2
          have h3 := Nat.le_of_dvd hpos ((Nat.dvd_add_right hd).1 h2)
          omega
        | nn :: rest', h =>
          by_cases he : n = nn
          · subst he
            have hcol : Column (y + 2 ^ (30 - (n - 1))) rest' (2 ^ 30) := by
              rw [hlen, ← Nat.add_assoc]; exact h.2.2.2.2
            have h2le := column_le h.2.2
            have e1 : halves (n :: n :: rest') y = (n - 1) :: halves rest' (y + layerLen (n - 1)) := by
              rw [halves, if_pos hc]; simp
            have e2 : ∀ l w, faceLoop (n :: n :: rest') y l w =
                faceLoop rest' (y + layerLen (n - 1)) (writeLayer l (n - 1)).2
                  (w ++ (writeLayer l (n - 1)).1) := by
              intro l w; rw [faceLoop_cons, if_pos hc]; simp
            simp only [List.length_cons] at hk
            obtain ⟨i1, i2, i3, i4⟩ := ih (y := y + layerLen (n - 1)) (by omega) hcol
            have hn1 : n - 1 ≤ 30 := by have := h.1; omega
            have ht2 : tall [n, n] = tall [n - 1] := by
              rw [tall_cons, tall_one, tall_one]; omega
            rw [e1]
            refine ⟨⟨hn1, hd, i1⟩, ?_, ?_, ?_⟩
            · refine at_append (a := [n, n]) (b := [n - 1]) (R := fun x y => x ≤ y + 1) ht2 (fun x hx => ?_) i2
              rw [ht2, tall_one] at hx
              rw [levelAt_one hx]
              have := levelAt_mem (a := [n, n]) (x := x) (by rw [ht2, tall_one]; exact hx)
              simp at this
              omega
            · intro m hm hf
              match m, hm with
              | [], hm => have : y = 2 ^ 30 := hm; omega
              | k' :: m, hm =>
                have hk' : n - 1 ≤ k' := by
                  have := hf 0
                  rw [levelAt_zero, levelAt_zero] at this
                  omega
                obtain ⟨s, r, he, hs, hr⟩ := column_splits' hm hd (by omega) hk'
                rw [he] at hf ⊢
                have ht : tall [n - 1] = tall s := by rw [tall_one, hs.tall_eq]
                refine at_append (a := [n - 1]) (b := s) (R := fun x y => x ≤ y) ht (fun x hx => ?_)
                  (i3 r hr (at_upper (a := [n, n]) (b := s) (R := fun x y => x ≤ y + 1) (ht2.trans ht) hf))
                rw [tall_one] at hx
                rw [levelAt_one hx]
                exact (hs.le _ (levelAt_mem (by rwa [hs.tall_eq]))).1
            · intro l w
              rw [e2, i4, passAfter]
              simp
          · refine keep ?_ ?_ ?_
            · rw [halves, if_pos hc]; simp [he]
            · intro l w; rw [faceLoop_cons, if_pos hc]; simp [he]
            · intro k' m hm hf
              have h0 := hf 0
              rw [levelAt_zero, levelAt_zero] at h0
              by_contra hlt
              obtain rfl : k' = n - 1 := by omega
              have hnd : ¬ 2 ^ (30 - (n - 1)) ∣ y + 2 ^ (30 - n) := fun h2 => by
                have h3 := Nat.le_of_dvd hpos ((Nat.dvd_add_right hd).1 h2)
                omega
              have hnn := second_half hc.1 h.1 hnd h.2.2.2.1
              have h1 := hf (2 ^ (30 - n))
              rw [show levelAt ((n - 1) :: m) (2 ^ (30 - n)) = n - 1 by
                rw [levelAt, if_pos (by omega)]] at h1
              rw [show levelAt (n :: nn :: rest') (2 ^ (30 - n)) = nn by
                rw [levelAt, if_neg (by omega), Nat.sub_self, levelAt_zero]] at h1
              omega
      · refine keep ?_ ?_ ?_
        · rw [halves.eq_def]; dsimp only; rw [if_neg hc]
        · intro l w; rw [faceLoop_cons, if_neg hc]
        · intro k' m hm hf
          by_cases hn : n = 0
          · omega
          · refine second_half hn h.1 (fun hd => hc ⟨hn, (first_half hn h.1 h.2.1).2 hd⟩) hm.2.1

theorem passAfter_zero {r : List ℕ} : passAfter 0 r = pass r := by
  match r with
  | [] => rfl
  | n :: rest => rw [passAfter, writeLayer_zero (by omega)]; rfl

theorem column_ne_nil {a : List ℕ} {z e : ℕ} (h : Column z a e) (he : z < e) : a ≠ [] := by
  rintro rfl
  have : z = e := h
  omega

/-- The demand of a column is the balanced profile of the merged halves. -/
theorem balanceFace_eq {a : List ℕ} {h : ℕ} (ha : Column 0 a h) (h0 : 0 < h) (h1 : h ≤ 2 ^ 30) :
    balanceFace a (2 ^ 30 - h) = balanceSelf (halves a.reverse (2 ^ 30 - h)).reverse := by
  have hr := column_reverse ha h1
  obtain ⟨i1, _, _, i4⟩ := halves_spec _ (le_refl _) hr
  have hn := column_ne_nil i1 (by omega)
  rw [balanceFace, i4, balanceSelf, onePass_eq (by simpa using hn), List.reverse_reverse, passAfter_zero]
  rfl

theorem balanceFace_spec {a : List ℕ} {h : ℕ} (ha : Column 0 a h) (h0 : 0 < h) (h1 : h ≤ 2 ^ 30) :
    ∃ b, balanceFace a (2 ^ 30 - h) = some b ∧ Column 0 b h ∧ Graded b ∧ FaceBalanced a b ∧
      ∀ b', Column 0 b' h → Graded b' → FaceBalanced a b' → Finer b b' := by
  have hr := column_reverse ha h1
  obtain ⟨i1, i2, i3, _⟩ := halves_spec _ (le_refl _) hr
  have hn := column_ne_nil i1 (by omega)
  set m := halves a.reverse (2 ^ 30 - h) with hm
  have hmc : Column 0 m.reverse h := by
    have := column_reverse i1 (by simp)
    rwa [Nat.sub_self, show 2 ^ 30 - (2 ^ 30 - h) = h by omega] at this
  obtain ⟨b, hb, hr1, hg, hmin⟩ := balanceSelf_refines (a := m.reverse) (by simpa using hn)
    (column_all hmc)
  have hta : tall a.reverse = tall m := by
    have := column_tall hr; have := column_tall i1; omega
  refine ⟨b, by rw [balanceFace_eq ha h0 h1, hb], hr1.column hmc, hg, ?_, ?_⟩
  · intro x
    have h3 := at_reverse (R := fun x y => x ≤ y + 1) hta i2 x
    rw [List.reverse_reverse] at h3
    have := hr1.finer x
    omega
  · intro b' hb' hg' hf
    have hrb := column_reverse hb' h1
    have htb : tall a = tall b' := by have := column_tall ha; have := column_tall hb'; omega
    have h3 := i3 b'.reverse hrb (at_reverse (R := fun x y => x ≤ y + 1) htb hf)
    have h4 : Finer m.reverse b' := by
      have := at_reverse (R := fun x y => x ≤ y)
        (by have := column_tall hrb; have := column_tall i1; omega) h3
      rwa [List.reverse_reverse] at this
    exact (hmin b' (refines_of_finer hmc hb' h4) hg').finer

/-! ### The demand with edges -/

/-- For a graded profile the additional condition of the loop for edges always holds. -/
theorem fullLoop_eq : ∀ (k : ℕ) {ls : List ℕ} {prev : Option ℕ} {y l : ℕ} {w : List ℕ}, ls.length ≤ k →
    Graded (prev.toList ++ ls) → fullLoop ls prev y l w = faceLoop ls y l w := by
  intro k
  induction k with
  | zero =>
    intro ls prev y l w hk h
    obtain rfl : ls = [] := List.length_eq_zero_iff.1 (by omega)
    rw [fullLoop, faceLoop]
  | succ k ih =>
    intro ls prev y l w hk h
    match ls with
    | [] => rw [fullLoop, faceLoop]
    | n :: rest =>
      simp only [List.length_cons] at hk
      have hg : Graded (n :: rest) := h.right_of_append
      have hp : prev.elim (-1 : ℤ) (fun x => (x : ℤ)) ≤ n + 1 := by
        cases prev with
        | none => simp; omega
        | some p =>
          have := (List.isChain_cons_cons.1 h).1.1
          simp; omega
      have step : ∀ (r : List ℕ), r.length ≤ k → Graded (n :: r) → ∀ y' l' w',
          fullLoop r (some n) y' l' w' = faceLoop r y' l' w' :=
        fun r hr hgr y' l' w' => ih hr hgr
      match rest, hg with
      | [], _ => rw [fullLoop, faceLoop]
      | nn :: rest', hg =>
        simp only [List.length_cons] at hk
        rw [fullLoop, faceLoop]
        have hnx : n = nn → rest'.head?.elim (-1 : ℤ) (fun x => (x : ℤ)) ≤ n + 1 := by
          rintro rfl
          match rest', hg with
          | [], _ => simp; omega
          | q :: t, hg =>
            have := (List.isChain_cons_cons.1 (List.isChain_cons_cons.1 hg).2).1.2
            simp; omega
        by_cases hc : (n ≠ 0 ∧ y &&& layerLen n = 0) ∧ n = nn
        · have := hnx hc.2
          rw [if_pos ⟨hc.1, hc.2, by omega⟩, if_pos hc, ← hc.2]
          refine step _ (by omega) ?_ _ _ _
          have := (List.isChain_cons_cons.1 hg).2
          rwa [← hc.2] at this
        · rw [if_neg (fun h => hc ⟨h.1, h.2.1⟩), if_neg hc]
          exact step _ (by simp only [List.length_cons]; omega) hg _ _ _

theorem balanceFull_eq {a : List ℕ} {diff : ℕ} (h : Graded a) : balanceFull a diff = balanceFace a diff := by
  have hg : Graded a.reverse := chain_reverse.2 (h.imp fun _ _ h => ⟨h.2, h.1⟩)
  rw [balanceFull, balanceFace, fullLoop_eq _ (le_refl _) (prev := none) (by simpa using hg)]

end P4est
