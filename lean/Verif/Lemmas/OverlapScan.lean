import Verif.Lemmas.OverlapSplit

/-! # The leaves inside of one quadrant of the insulation layer -/

namespace P4est
open Spec

variable {d : ℕ} {k : ℕ}

theorem clamp_low {P Q A B : ℤ} (hA : 0 < A) (hQ : Q < P * (A * B)) (hB : 0 < B) :
    max (P * (A * B)) (min Q ((P + 1) * (A * B) - 1)) / A = P * B := by
  have hAB : 0 < A * B := mul_pos hA hB
  rw [max_eq_left (by rw [min_eq_left (by nlinarith)]; exact hQ.le), show P * (A * B) = A * (P * B) by ring,
    Int.mul_ediv_cancel_left _ hA.ne']

theorem clamp_high {P Q A B : ℤ} (hA : 0 < A) (hQ : (P + 1) * (A * B) ≤ Q) (hB : 0 < B) :
    max (P * (A * B)) (min Q ((P + 1) * (A * B) - 1)) / A + 1 = (P + 1) * B := by
  have hAB : 0 < A * B := mul_pos hA hB
  rw [min_eq_right (by omega), max_eq_right (by nlinarith)]
  have : ((P + 1) * (A * B) - 1) / A = (P + 1) * B - 1 := by
    rw [show (P + 1) * (A * B) - 1 = (A - 1) + A * ((P + 1) * B - 1) by ring, Int.add_mul_ediv_left _ _ hA.ne',
      Int.ediv_eq_zero_of_lt (by omega) (by omega)]
    omega
  omega

/-- The nearest quadrant at a side of `inq`. -/
theorem nearest_side {inq tq : Quad d} {w : ℕ} (h : InLayer inq tq w) {l : ℕ} (h1 : inq.level ≤ l) (h2 : l ≤ tq.level)
    (i : Fin d) :
    (insulOff d w i = -1 → (nearest tq inq l).c i = inq.c i) ∧
    (insulOff d w i = 1 → (nearest tq inq l).c i + qlen l = inq.c i + qlen inq.level) := by
  have hb := h.bounds i
  have hL := h.at_.1
  have c1 := coord_num h.at_ i
  have c2 := coord_num h.aq i
  have e1 : qlen inq.level = qlen tq.level * 2 ^ (tq.level - inq.level) := qlen_mul h.level.le hL
  have e2 : qlen inq.level = qlen l * 2 ^ (l - inq.level) := qlen_mul h1 (by omega)
  have e3 : (2 : ℤ) ^ (tq.level - inq.level) = 2 ^ (tq.level - l) * 2 ^ (l - inq.level) := by
    rw [← pow_add]; congr 1; omega
  have hh := qlen_pos tq.level
  have hA : (0 : ℤ) < 2 ^ (tq.level - l) := by positivity
  have hB : (0 : ℤ) < 2 ^ (l - inq.level) := by positivity
  have en : (nearest tq inq l).c i = qlen l * (movedNum tq inq i / 2 ^ (tq.level - l)) := by
    unfold nearest qat
    rw [side_qlen]
  rw [en]
  unfold movedNum
  rw [e3]
  constructor
  · intro ho
    rw [ho] at hb
    rw [clamp_low hA ?_ hB, c2]
    · rw [e2]; ring
    · rw [← e3]
      rw [c1, c2, e1] at hb
      have : qlen tq.level * (numAt tq tq.level i + 1) ≤ qlen tq.level * (numAt inq inq.level i * 2 ^ (tq.level - inq.level)) := by
        nlinarith [hb.2]
      have := le_of_mul_le_mul_left this hh
      omega
  · intro ho
    rw [ho] at hb
    have key := clamp_high (P := numAt inq inq.level i) (Q := numAt tq tq.level i) hA ?_ hB
    · rw [c2, show ∀ a b : ℤ, a * b + a = a * (b + 1) by intros; ring, key, e2]; ring
    · rw [← e3]
      rw [c1, c2, e1] at hb
      have : qlen tq.level * ((numAt inq inq.level i + 1) * 2 ^ (tq.level - inq.level)) ≤ qlen tq.level * numAt tq tq.level i := by
        nlinarith [hb.1]
      exact le_of_mul_le_mul_left this hh

/-- At a corner there is one seed, the nearest quadrant of some level. -/
theorem corner_seed (hdim : d = 2 ∨ d = 3) (hk1 : 1 ≤ k) (hkd : k ≤ d) {inq tq : Quad d} {w : ℕ} (h : InLayer inq tq w)
    (hc : outsideType (insulOff d w) = d) (hf : (seedsOutside tq inq k).1 = true) :
    ∃ u, (seedsOutside tq inq k).2 = [u] ∧ u = nearest tq inq u.level ∧ inq.level < u.level ∧ u.level < tq.level := by
  have hd : 0 < d := by omega
  have hall : ∀ i, outsideAt tq inq i ≠ none := fun i => by rw [h.outside i]; simp
  have hz := fun i => outs_zero_iff h.at_ h.aq h.level (hall i)
  have hnz := type_all (q := tq) (p := inq) (by rw [h.outs]; exact hc)
  have hex : ∃ i, outNum tq inq i ≠ 0 := ⟨⟨0, hd⟩, fun h0 => hnz _ ((hz _).mpr h0)⟩
  have h1 : ¬ outsideType (outs tq inq) = 1 := by rw [h.outs, hc]; omega
  have h2 : outsideType (outs tq inq) = d := by rw [h.outs, hc]
  have hs := cornerCon_spec (k := k) hdim hk1 hkd h.at_ h.aq h.level (conDist_corner h.at_ h.aq h.level hall hnz) hex
  unfold seedsOutside at hf ⊢
  rw [if_neg h1, if_pos h2] at hf ⊢
  unfold seedsCorner at hf ⊢
  dsimp only at hf ⊢
  by_cases hcon : (cornerCon tq inq (outsideCorner (outs tq inq)) (ibalance d k)).1 = true
  · rw [if_pos hcon] at hf; cases hf
  rw [if_neg hcon]
  rcases hs.seed with h3 | h3
  · exact absurd h3 hcon
  · exact ⟨_, rfl, h3.eq, h3.level, h3.fine h.level hex⟩

/-- At a corner the seed of a leaf that is not finer than another seed contains this seed. -/
theorem corner_contains (hdim : d = 2 ∨ d = 3) (hk1 : 1 ≤ k) (hkd : k ≤ d) {inq tq tq' : Quad d} {w : ℕ}
    (h : InLayer inq tq w) (h' : InLayer inq tq' w) (hc : outsideType (insulOff d w) = d)
    (hf : (seedsOutside tq inq k).1 = true) (hf' : (seedsOutside tq' inq k).1 = true) {u u' : Quad d}
    (hu : u ∈ (seedsOutside tq inq k).2) (hu' : u' ∈ (seedsOutside tq' inq k).2) (hle : tq'.level ≤ u.level) :
    Cells u ⊆ Cells u' := by
  obtain ⟨v, e1, e2, e3, e4⟩ := corner_seed hdim hk1 hkd h hc hf
  obtain ⟨v', e1', e2', e3', e4'⟩ := corner_seed hdim hk1 hkd h' hc hf'
  rw [e1, List.mem_singleton] at hu
  rw [e1', List.mem_singleton] at hu'
  subst hu hu'
  have hL := h.at_.1
  have hL' := h'.at_.1
  have au : Aligned u := by rw [e2]; exact qat_aligned (by omega) _
  have au' : Aligned u' := by rw [e2']; exact qat_aligned (by omega) _
  refine cells_subset au' au (by omega) ?_
  have hnz := type_all (q := tq) (p := inq) (by rw [h.outs]; exact hc)
  rw [h.outs] at hnz
  intro i
  have a1 := nearest_side h (l := u.level) (by omega) (by omega) i
  have a2 := nearest_side h' (l := u'.level) (by omega) (by omega) i
  rw [← e2] at a1
  rw [← e2'] at a2
  have hq := qlen_pos u.level
  have hle2 : qlen u.level ≤ qlen u'.level := by
    rw [side_qlen, side_qlen]
    exact pow_le_pow_right₀ (by norm_num) (by omega)
  have hs : side u' = qlen u'.level := rfl
  have hq' := qlen_pos u'.level
  rw [hs]
  rcases insulOff_cases w i with e | e | e
  · have := a1.1 e
    have := a2.1 e
    omega
  · exact absurd e (hnz i)
  · have := a1.2 e
    have := a2.2 e
    omega

/-- A leaf of the layer that matters. -/
def Acts (k : ℕ) (inq tq : Quad d) : Prop :=
  inq.level + 1 < tq.level ∧ ¬ Touching tq inq ∧ (seedsOutside tq inq k).1 = true

/-- The loop over the leaves inside of one quadrant of the layer. -/
theorem scan_spec (hdim : d = 2 ∨ d = 3) (hk1 : 1 ≤ k) (hkd : k ≤ d) {inq : Quad d} (hq : Aligned inq) {w : ℕ}
    (hw : w < 3 ^ d) (hm : w ≠ 3 ^ d / 2) (T : List (Quad d))
    (hT : ∀ x ∈ T, Aligned x ∧ Cells x ⊆ Cells (insulQuad inq w)) (S : List (Quad d)) :
    (∀ u, u ∈ (T.foldl (overlapStep k inq ((insulToFace d).getD w (-1)) ((insulToEdge d).getD w (-1))
        ((insulToCorner d).getD w (-1))) (inq.level + 1, S)).2 →
      u ∈ S ∨ ∃ tq ∈ T, Acts k inq tq ∧ u ∈ (seedsOutside tq inq k).2) ∧
    (∀ u ∈ S, u ∈ (T.foldl (overlapStep k inq ((insulToFace d).getD w (-1)) ((insulToEdge d).getD w (-1))
        ((insulToCorner d).getD w (-1))) (inq.level + 1, S)).2) ∧
    (∀ tq ∈ T, Acts k inq tq → ∀ u ∈ (seedsOutside tq inq k).2,
      ∃ u' ∈ (T.foldl (overlapStep k inq ((insulToFace d).getD w (-1)) ((insulToEdge d).getD w (-1))
        ((insulToCorner d).getD w (-1))) (inq.level + 1, S)).2, Cells u' ⊆ Cells u) := by
  suffices H : ∀ (T2 T1 : List (Quad d)) (st : ℕ × List (Quad d)), T = T1 ++ T2 →
      (∀ u ∈ st.2, u ∈ S ∨ ∃ tq ∈ T1, Acts k inq tq ∧ u ∈ (seedsOutside tq inq k).2) → (∀ u ∈ S, u ∈ st.2) →
      (∀ tq ∈ T1, Acts k inq tq → ∀ u ∈ (seedsOutside tq inq k).2, ∃ u' ∈ st.2, Cells u' ⊆ Cells u) →
      (st.1 = inq.level + 1 ∨ (outsideType (insulOff d w) = d ∧ ∃ tq ∈ T1, Acts k inq tq ∧
        ∃ u ∈ (seedsOutside tq inq k).2, u ∈ st.2 ∧ st.1 = u.level)) → inq.level + 1 ≤ st.1 →
      (∀ u, u ∈ (T2.foldl (overlapStep k inq ((insulToFace d).getD w (-1)) ((insulToEdge d).getD w (-1))
        ((insulToCorner d).getD w (-1))) st).2 →
      u ∈ S ∨ ∃ tq ∈ T, Acts k inq tq ∧ u ∈ (seedsOutside tq inq k).2) ∧
    (∀ u ∈ S, u ∈ (T2.foldl (overlapStep k inq ((insulToFace d).getD w (-1)) ((insulToEdge d).getD w (-1))
        ((insulToCorner d).getD w (-1))) st).2) ∧
    (∀ tq ∈ T, Acts k inq tq → ∀ u ∈ (seedsOutside tq inq k).2,
      ∃ u' ∈ (T2.foldl (overlapStep k inq ((insulToFace d).getD w (-1)) ((insulToEdge d).getD w (-1))
        ((insulToCorner d).getD w (-1))) st).2, Cells u' ⊆ Cells u) from
    H T [] _ rfl (fun u hu => Or.inl hu) (fun u hu => hu) (by simp) (Or.inl rfl) le_rfl
  intro T2
  induction T2 with
  | nil =>
    intro T1 st e h1 h2 h3 h4 h5
    rw [List.append_nil] at e
    subst e
    exact ⟨h1, h2, h3⟩
  | cons x T2 ih =>
    intro T1 st e h1 h2 h3 h4 h5
    have hx := hT x (by rw [e]; simp)
    rw [List.foldl_cons]
    have e' : T = (T1 ++ [x]) ++ T2 := by rw [e]; simp
    have keep : (Acts k inq x → ∀ u ∈ (seedsOutside x inq k).2, ∃ u' ∈ st.2, Cells u' ⊆ Cells u) →
        ∀ tq ∈ T1 ++ [x], Acts k inq tq → ∀ u ∈ (seedsOutside tq inq k).2, ∃ u' ∈ st.2, Cells u' ⊆ Cells u := by
      intro hk tq htq ha
      rcases List.mem_append.mp htq with h | h
      · exact h3 tq h ha
      · rw [List.mem_singleton.mp h] at ha ⊢
        exact hk ha
    have more : ∀ u ∈ st.2, u ∈ S ∨ ∃ tq ∈ T1 ++ [x], Acts k inq tq ∧ u ∈ (seedsOutside tq inq k).2 := by
      intro u hu
      rcases h1 u hu with h | ⟨tq, h6, h7⟩
      · exact Or.inl h
      · exact Or.inr ⟨tq, List.mem_append_left _ h6, h7⟩
    have lev : st.1 = inq.level + 1 ∨ (outsideType (insulOff d w) = d ∧ ∃ tq ∈ T1 ++ [x], Acts k inq tq ∧
        ∃ u ∈ (seedsOutside tq inq k).2, u ∈ st.2 ∧ st.1 = u.level) := by
      rcases h4 with h | ⟨hc, tq, h6, h7⟩
      · exact Or.inl h
      · exact Or.inr ⟨hc, tq, List.mem_append_left _ h6, h7⟩
    by_cases hl : x.level ≤ st.1
    · have es : overlapStep k inq ((insulToFace d).getD w (-1)) ((insulToEdge d).getD w (-1))
          ((insulToCorner d).getD w (-1)) st x = st := by
        unfold overlapStep; rw [if_pos hl]
      rw [es]
      refine ih (T1 ++ [x]) st e' more h2 (keep ?_) lev h5
      intro ha u hu
      have hlx := ha.1
      have hin : InLayer inq x w := ⟨hq, hx.1, hw, hm, hx.2, by omega⟩
      rcases h4 with h | ⟨hc, tq, h6, h7, u0, h8, h9, h10⟩
      · omega
      · have ht := hT tq (by rw [e]; exact List.mem_append_left _ h6)
        have hin' : InLayer inq tq w := ⟨hq, ht.1, hw, hm, ht.2, by have := h7.1; omega⟩
        exact ⟨u0, h9, corner_contains hdim hk1 hkd hin' hin hc h7.2.2 ha.2.2 h8 hu (by omega)⟩
    · have hin : InLayer inq x w := ⟨hq, hx.1, hw, hm, hx.2, by omega⟩
      have hsp := overlapSplit_eq (k := k) hdim hin
      by_cases hact : ¬ Touching x inq ∧ (seedsOutside x inq k).1 = true
      · have ha : Acts k inq x := ⟨by omega, hact⟩
        rw [if_neg hact.1] at hsp
        have es : overlapStep k inq ((insulToFace d).getD w (-1)) ((insulToEdge d).getD w (-1))
            ((insulToCorner d).getD w (-1)) st x =
          (if (insulToCorner d).getD w (-1) ≥ 0 then (seedsOutside x inq k).2.foldl (fun l u => max l u.level) st.1 else st.1,
            st.2 ++ (seedsOutside x inq k).2) := by
          unfold overlapStep
          rw [if_neg hl, hsp]
          dsimp only
          rw [if_pos hact.2]
        rw [es]
        refine ih (T1 ++ [x]) _ e' ?_ ?_ ?_ ?_ ?_
        · intro u hu
          rcases List.mem_append.mp hu with h | h
          · exact more u h
          · exact Or.inr ⟨x, by simp, ha, h⟩
        · exact fun u hu => List.mem_append_left _ (h2 u hu)
        · intro tq htq hat u hu
          rcases List.mem_append.mp htq with h | h
          · obtain ⟨u', h6, h7⟩ := h3 tq h hat u hu
            exact ⟨u', List.mem_append_left _ h6, h7⟩
          · rw [List.mem_singleton.mp h] at hu
            exact ⟨u, List.mem_append_right _ hu, Set.Subset.rfl⟩
        · dsimp only
          by_cases hc : outsideType (insulOff d w) = d
          · rw [if_pos ((insulCorner_iff hdim hw hm).mpr hc)]
            obtain ⟨v, e1, e2, e3, e4⟩ := corner_seed hdim hk1 hkd hin hc hact.2
            rw [e1]
            simp only [List.foldl_cons, List.foldl_nil]
            rcases le_total st.1 v.level with h | h
            · rw [max_eq_right h]
              exact Or.inr ⟨hc, x, by simp, ha, v, by rw [e1]; simp, by simp, rfl⟩
            · rw [max_eq_left h]
              rcases lev with h6 | ⟨_, tq, h6, h7, u, h8, h9, h10⟩
              · exact Or.inl h6
              · exact Or.inr ⟨hc, tq, h6, h7, u, h8, List.mem_append_left _ h9, h10⟩
          · rw [if_neg (fun h => hc ((insulCorner_iff hdim hw hm).mp h))]
            rcases lev with h6 | ⟨h6, _⟩
            · exact Or.inl h6
            · exact absurd h6 hc
        · dsimp only
          split_ifs
          · have : ∀ (l : List (Quad d)) (a : ℕ), a ≤ l.foldl (fun l u => max l u.level) a := by
              intro l
              induction l with
              | nil => intro a; exact le_rfl
              | cons y l ih => intro a; exact le_trans (le_max_left _ _) (ih _)
            exact h5.trans (this _ _)
          · exact h5
      · have es : overlapStep k inq ((insulToFace d).getD w (-1)) ((insulToEdge d).getD w (-1))
            ((insulToCorner d).getD w (-1)) st x = st := by
          unfold overlapStep
          rw [if_neg hl, hsp]
          dsimp only
          by_cases ht : Touching x inq
          · rw [if_pos ht]; simp
          · rw [if_neg ht, if_neg (fun h => hact ⟨ht, h⟩)]
        rw [es]
        refine ih (T1 ++ [x]) st e' more h2 (keep ?_) lev h5
        intro ha
        exact absurd ha.2 hact

end P4est
