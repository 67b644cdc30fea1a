import Verif.Lemmas.SeedsFit3

/-! # The seeds for a quadrant outside -/

namespace P4est
open Spec

variable {d k : ℕ}

theorem face2_corner : ∀ (f x : Fin 2) (b up : Bool) (i : Fin 2), x ≠ f →
    (tableAt (faceCornersTable 2) (2 * f + if b then 1 else 0) ((1 - sgn up) / 2).toNat).testBit i =
      if i = x then !up else b := by decide

theorem edge_corner : ∀ (z : Fin 3) (b0 b1 up : Bool) (i : Fin 3),
    (tableAt edgeCornersTable (4 * z + (if b0 then 1 else 0) + if b1 then 2 else 0) ((1 - sgn up) / 2).toNat).testBit i =
      if i = z then !up else if i = tan0 z then b0 else b1 := by decide

theorem edge_number : ∀ e < 12, e = 4 * (e / 4) + (if e.testBit 0 then 1 else 0) + (if e.testBit 1 then 2 else 0) := by
  decide

theorem other_axis : ∀ f : Fin 2, ∃ x : Fin 2, x ≠ f ∧ (x : ℕ) = (if (f : ℕ) = 0 then 1 else 0) ∧ ∀ i, i ≠ x → i = f := by
  decide

theorem seedsOutside_fit (hdim : d = 2 ∨ d = 3) (hk1 : 1 ≤ k) (hkd : k ≤ d) {q p : Quad d}
    (hq : Aligned q) (hq29 : q.level ≤ 29) (hp : Aligned p) (hp29 : p.level ≤ 29) (hl : p.level < q.level)
    (hall : ∀ i, outsideAt q p i ≠ none) (hne : outsideType (outs q p) ≠ 0)
    (hflag : (seedsOutside q p k).1 = true) :
    SeedsFit k (¬ (d = 3 ∧ k = 2 ∧ outsideType (outs q p) = 2)) q p {s | s ∈ (seedsOutside q p k).2} := by
  have hz := fun i => outs_zero_iff hq hp hl (hall i)
  have hex : ∃ i, outNum q p i ≠ 0 := by
    by_contra hc
    push Not at hc
    exact hne (type_zero.mpr fun i => (hz i).mpr (hc i))
  have hcon : ∀ i, outs q p i ≠ 0 → conDist q p (decide (0 < outs q p i)) i = qlen q.level * outNum q p i := by
    intro i hi
    rcases outs_cases hq hp hl (hall i) with h | h
    · exact absurd h.1 hi
    · exact h.2.2
  unfold seedsOutside at hflag ⊢
  by_cases h1 : outsideType (outs q p) = 1
  · rw [if_pos h1] at hflag ⊢
    obtain ⟨a, ha0, ha1, ha2, ha3⟩ := type_one h1
    have hf0 : outNum q p a ≠ 0 := fun h => ha0 ((hz a).mpr h)
    have hi0 : ∀ i, i ≠ a → outNum q p i = 0 := fun i hi => (hz i).mp (ha1 i hi)
    have hs := faceCon_spec (k := k) hk1 hq hp hl ha2 (by rw [ha3]; exact hcon a ha0) hf0 hi0
    have hface : outsideFace (outs q p) = 2 * a + if decide (0 < outs q p a) then 1 else 0 := by
      rw [← ha3, ← ha2]
      by_cases h : outsideFace (outs q p) % 2 = 1
      · rw [if_pos (by simpa using h)]; omega
      · rw [if_neg (by simpa using h)]; omega
    unfold seedsFace at hflag ⊢
    dsimp only at hflag ⊢
    by_cases hc : (faceConBase q p (outsideFace (outs q p))).1 = true
    · rw [if_pos hc] at hflag; cases hflag
    rw [if_neg hc]
    rcases hs.seed with h | h0
    · exact absurd h hc
    generalize (faceConBase q p (outsideFace (outs q p))).2 = s0 at *
    rcases hdim with rfl | rfl
    · obtain ⟨x, hxa, hx, hxi⟩ := other_axis a
      refine line_fit (.inl rfl) hk1 hkd hq hq29 hp hp29 hl (x := x) (hi0 x hxa) (fun i hi => hxi i hi ▸ hf0)
        (bit := fun _ => decide (0 < outs q p a)) (fun i hi => hxi i hi ▸ hcon a ha0)
        (corner := fun i => tableAt (faceCornersTable 2) (outsideFace (outs q p)) ((1 - i) / 2).toNat)
        (fun up i => by rw [hface]; exact face2_corner a x _ up i hxa) h0
        (fun _ m j E E' hlow _ hreach => lowered_2d hk1 hlow (f := a) hf0 (fun i hi => hi0 i hi) hreach) ?_
      unfold faceConExtra
      have hlt := h0.level
      rw [if_neg (by omega)]
      simp only [show ¬ (2 = 3) by decide, if_false]
      unfold faceLoop2
      rw [ha2, ← hx]
    · have := face3_fit (ok := ¬ (3 = 3 ∧ k = 2 ∧ outsideType (outs q p) = 2)) hk1 hkd hq hq29 hp hp29 hl hf0 hi0 (hcon a ha0) h0
      unfold faceNum at this
      rw [← hface] at this
      exact this
  · rw [if_neg h1] at hflag ⊢
    by_cases h2 : outsideType (outs q p) = d
    · rw [if_pos h2] at hflag ⊢
      have hnz := type_all h2
      have hs := cornerCon_spec hdim hk1 hkd hq hp hl (conDist_corner hq hp hl hall hnz) hex
      unfold seedsCorner at hflag ⊢
      dsimp only at hflag ⊢
      by_cases hc : (cornerCon q p (outsideCorner (outs q p)) (ibalance d k)).1 = true
      · rw [if_pos hc] at hflag; cases hflag
      rw [if_neg hc]
      rcases hs.seed with h | h0
      · exact absurd h hc
      exact corner_fit (by omega) hq hq29 hp hp29 hl (fun i h => hnz i ((hz i).mpr h)) h0
    · rw [if_neg h2] at hflag ⊢
      have hcard : outsideType (outs q p) ≤ d := by
        unfold outsideType
        exact (Finset.card_le_univ _).trans (by simp)
      rcases hdim with rfl | rfl
      · omega
      · have ht2 : outsideType (outs q p) = 2 := by omega
        obtain ⟨z, hz0, hzn, he, hb0, hb1⟩ := type_edge ht2
        obtain ⟨-, -, -, tz0, tz1, tall⟩ := tan_facts z
        have hs := edgeCon_spec hk1 hkd hq hp hl he (by rw [hb0]; exact hcon _ (hzn _ tz0))
          (by rw [hb1]; exact hcon _ (hzn _ tz1)) hex ((hz z).mp hz0)
        unfold seedsEdge at hflag ⊢
        dsimp only at hflag ⊢
        by_cases hc : (edgeConBase q p (outsideEdge (outs q p)) (ibalance 3 k)).1 = true
        · rw [if_pos hc] at hflag; cases hflag
        rw [if_neg hc]
        rcases hs.seed with h | h0
        · exact absurd h hc
        have hedge : outsideEdge (outs q p) = 4 * z + (if decide (0 < outs q p (tan0 z)) then 1 else 0) +
            if decide (0 < outs q p (tan1 z)) then 2 else 0 := by
          rw [← hb0, ← hb1, ← he]
          exact edge_number _ (by omega)
        generalize (edgeConBase q p (outsideEdge (outs q p)) (ibalance 3 k)).2 = s0 at *
        refine line_fit (.inr rfl) hk1 hkd hq hq29 hp hp29 hl (x := z) ((hz z).mp hz0)
          (fun i hi h => hzn i hi ((hz i).mpr h))
          (bit := fun i => if i = tan0 z then decide (0 < outs q p (tan0 z)) else decide (0 < outs q p (tan1 z))) ?_
          (corner := fun i => tableAt edgeCornersTable (outsideEdge (outs q p)) ((1 - i) / 2).toNat)
          (fun up i => by rw [hedge]; exact edge_corner z _ _ up i) h0
          (fun hexc m j E E' hlow hb hreach => lowered_edge (by omega) hlow (z := z) ((hz z).mp hz0)
            (fun i hi h => hzn i hi ((hz i).mpr h)) hb hreach) ?_
        · intro i hi
          by_cases hi0 : i = tan0 z
          · subst hi0
            rw [if_pos rfl]
            exact hcon _ (hzn _ tz0)
          · have hi1 : i = tan1 z := by by_contra hc; exact hi (tall i hi0 hc)
            subst hi1
            rw [if_neg hi0]
            exact hcon _ (hzn _ tz1)
        · unfold edgeConExtra
          have hlt := h0.level
          rw [if_neg (by omega), he]

end P4est
