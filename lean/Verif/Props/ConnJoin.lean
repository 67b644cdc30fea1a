import Verif.Lemmas.ConnJoin
import Verif.Props.ConnPermute
import Verif.Props.ConnCorners

/-! # C87: faces of trees are joined -/

namespace P4est

open Spec

section
variable {conn : FaceConn} {cc : CornerConn}

theorem across_crosses (hc : FaceConsistent 2 conn) {x y : ℕ × ℕ} (hx : TreeCorner conn.numTrees x) :
    Crosses conn x y ↔ AcrossConnected conn x y ∧ TreeCorner conn.numTrees y := by
  constructor
  · intro h
    have hy := crosses_corner hc hx h
    exact ⟨(acrossConn_iff hc hx.1 hx.2 hy.2).mpr h, hy⟩
  · rintro ⟨h, hy⟩
    exact (acrossConn_iff hc hx.1 hx.2 hy.2).mp h

theorem atPoint_iff (hc : FaceConsistent 2 conn) {x y : ℕ × ℕ} (hx : TreeCorner conn.numTrees x) (hy : TreeCorner conn.numTrees y) :
    AtPoint conn cc x y ↔ AtP conn cc x y := by
  unfold AtPoint AtP
  refine or_congr Iff.rfl (or_congr ?_ ((acrossConn_iff hc hx.1 hx.2 hy.2)))
  exact ⟨fun ⟨k, h1, h2, h3⟩ => ⟨k, ⟨h1, h2⟩, h3⟩, fun ⟨k, ⟨h1, h2⟩, h3⟩ => ⟨k, h1, h2, h3⟩⟩

theorem jInv_iff (hc : FaceConsistent 2 conn) : JInv conn cc ↔ CornerConsistent conn.numTrees cc ∧ CornersClosed conn cc := by
  have hst : ∀ x, CornerStored cc x ↔ ∃ k, HasNumber cc x k := fun x => Iff.rfl
  constructor
  · intro h
    refine ⟨h.cons, h.table, ?_, ?_⟩
    · rintro x y hx hx4 hy4 hxy ⟨k, h1, h2⟩
      exact ⟨k, h1, h2, h.num x y k ⟨hx, hx4⟩ ((acrossConn_iff hc hx hx4 hy4).mp hxy) ⟨h1, h2⟩⟩
    · intro x y hx hx4 hy4 hxy hn
      rw [hst] at hn ⊢
      simp only [not_exists] at hn ⊢
      have hcr := (acrossConn_iff hc hx hx4 hy4).mp hxy
      obtain ⟨g1, g2⟩ := h.free x y ⟨hx, hx4⟩ hcr hn
      refine ⟨g1, fun z hz4 hyz => ?_⟩
      have hy := crosses_corner hc ⟨hx, hx4⟩ hcr
      exact (g2 z ((acrossConn_iff hc hy.1 hy.2 hz4).mp hyz)).imp id fun g => (acrossConn_iff hc hx hx4 hz4).mpr g
  · rintro ⟨h1, h2⟩
    refine ⟨h1, h2.table, ?_, ?_⟩
    · intro x y k hx hxy hk
      obtain ⟨g, hy⟩ := (across_crosses hc hx).mp hxy
      obtain ⟨k', q1, q2, q3⟩ := h2.numbered x y hx.1 hx.2 hy.2 g ⟨k, hk⟩
      rw [hk.unique ⟨q1, q2⟩]
      exact q3
    · intro x y hx hxy hk
      obtain ⟨g, hy⟩ := (across_crosses hc hx).mp hxy
      obtain ⟨g1, g2⟩ := h2.free x y hx.1 hx.2 hy.2 g (by rw [hst]; simpa using hk)
      refine ⟨fun k q => g1 ⟨k, q⟩, fun z hyz => ?_⟩
      obtain ⟨g3, hz⟩ := (across_crosses hc hy).mp hyz
      exact (g2 z hz.2 g3).imp id fun q => (acrossConn_iff hc hx.1 hx.2 hz.2).mp q

/-- The tables after two faces have been joined. -/
def joinedConn (conn : FaceConn) (L R : ℕ × ℕ) (o : ℕ) : FaceConn :=
  ⟨conn.numTrees, (conn.treeToTree.set (4 * L.1 + L.2) R.1).set (4 * R.1 + R.2) L.1,
    (conn.treeToFace.set (4 * L.1 + L.2) (R.2 + 4 * o)).set (4 * R.1 + R.2) (L.2 + 4 * o)⟩

variable {L R : ℕ × ℕ} {o : ℕ}

theorem joined_get {β : Type} {l : List β} {n : ℕ} (hl : l.length = 4 * n) {a b : β} (hL : TreeCorner n L) (hR : TreeCorner n R) (hne : L ≠ R) (x : ℕ × ℕ)
    (hx : x.2 < 4) : ((l.set (4 * L.1 + L.2) a).set (4 * R.1 + R.2) b)[4 * x.1 + x.2]? =
      if x = L then some a else if x = R then some b else l[4 * x.1 + x.2]? := by
  obtain ⟨hL1, hL2⟩ := hL
  obtain ⟨hR1, hR2⟩ := hR
  by_cases h1 : x = L
  · rw [if_pos h1, h1, List.getElem?_set_ne (fun k => hne (idx_inj hL2 hR2 k.symm)), List.getElem?_set_self (by omega)]
  · rw [if_neg h1]
    by_cases h2 : x = R
    · rw [if_pos h2, h2, List.getElem?_set_self (by rw [List.length_set]; omega)]
    · rw [if_neg h2, List.getElem?_set_ne (fun k => h2 (idx_inj hx hR2 k.symm)), List.getElem?_set_ne (fun k => h1 (idx_inj hx hL2 k.symm))]

/-- The hypotheses on the two faces. -/
structure JoinFaces (conn : FaceConn) (L R : ℕ × ℕ) (o : ℕ) : Prop where
  left : TreeCorner conn.numTrees L
  right : TreeCorner conn.numTrees R
  ne : L ≠ R
  orient : o < 2
  bl : Connected 2 conn L L 0
  br : Connected 2 conn R R 0

theorem joined_connected (hc : FaceConsistent 2 conn) (h : JoinFaces conn L R o) (x y : ℕ × ℕ) (o' : ℕ) (hx : x.2 < 4) :
    Connected 2 (joinedConn conn L R o) x y o' ↔
      if x = L then y.1 = R.1 ∧ y.2 + 4 * o' = R.2 + 4 * o else if x = R then y.1 = L.1 ∧ y.2 + 4 * o' = L.2 + 4 * o else Connected 2 conn x y o' := by
  unfold Connected joinedConn
  simp only [show 2 * 2 = 4 from rfl]
  rw [joined_get hc.trees h.left h.right h.ne x hx, joined_get hc.faces h.left h.right h.ne x hx]
  split
  · simp only [Option.some.injEq]; tauto
  · split
    · simp only [Option.some.injEq]; tauto
    · exact Iff.rfl

theorem boundary_link (hc : FaceConsistent 2 conn) {x y L : ℕ × ℕ} {o' : ℕ} (hx : TreeCorner conn.numTrees x) (hy : y.2 < 4) (hL : Connected 2 conn L L 0)
    (hLf : L.2 < 4) (hxy : Connected 2 conn x y o') : (x = L ↔ y = L) := by
  constructor
  · rintro rfl
    have e1 := hxy.1.symm.trans hL.1
    have e2 := hxy.2.symm.trans hL.2
    simp only [Option.some.injEq] at e1 e2
    exact Prod.ext e1 (by omega)
  · rintro rfl
    obtain ⟨g1, g2⟩ := hc.back x.1 x.2 y.1 y.2 o' hx.1 hx.2 hy hxy.1 hxy.2
    have e1 := g1.symm.trans hL.1
    have e2 := g2.symm.trans hL.2
    simp only [Option.some.injEq] at e1 e2
    have := hx.2
    exact Prod.ext e1 (by omega)

theorem joined_consistent (hc : FaceConsistent 2 conn) (h : JoinFaces conn L R o) : FaceConsistent 2 (joinedConn conn L R o) := by
  have hnt : (joinedConn conn L R o).numTrees = conn.numTrees := rfl
  have key := joined_connected hc h
  obtain ⟨hL1, hL2⟩ := h.left
  obtain ⟨hR1, hR2⟩ := h.right
  have ho := h.orient
  refine ⟨?_, ?_, ?_, ?_, ?_⟩
  · unfold joinedConn; simp [hc.trees]
  · unfold joinedConn; simp [hc.faces]
  · intro t f t' c ht hf h1 h2
    rw [hnt] at ht ⊢
    have hcon := (key (t, f) (t', c % 4) (c / 4) hf).mp ⟨h1, by rw [h2]; congr 1; simp only; omega⟩
    simp only [show 2 * 2 * 2 ^ (2 - 1) = 8 from rfl]
    split at hcon
    · simp only at hcon; omega
    · split at hcon
      · simp only at hcon; omega
      · exact hc.range t f t' c ht hf hcon.1 (by rw [hcon.2]; congr 1; simp only; omega)
  · intro t f t' nf o' ht hf hnf h1 h2
    rw [hnt] at ht
    have hcon := (key (t, f) (t', nf) o' hf).mp ⟨h1, h2⟩
    refine (key (t', nf) (t, f) o' hnf).mpr ?_
    simp only [show 2 * 2 = 4 from rfl] at hnf hf
    split at hcon
    · rename_i e
      simp only at hcon
      have e1 : (t', nf) = R := Prod.ext hcon.1 (by show nf = R.2; omega)
      rw [if_neg (by rw [e1]; exact fun k => h.ne k.symm), if_pos e1]
      rw [← e] at hL2 ⊢
      exact ⟨rfl, by simp only; omega⟩
    · split at hcon
      · rename_i e
        simp only at hcon
        have e1 : (t', nf) = L := Prod.ext hcon.1 (by show nf = L.2; omega)
        rw [if_pos e1]
        rw [← e] at hR2 ⊢
        exact ⟨rfl, by simp only; omega⟩
      · rename_i e1 e2
        rw [if_neg (fun k => e1 ((boundary_link hc (x := (t, f)) ⟨ht, hf⟩ hnf h.bl hL2 hcon).mpr k)),
          if_neg (fun k => e2 ((boundary_link hc (x := (t, f)) ⟨ht, hf⟩ hnf h.br hR2 hcon).mpr k))]
        exact hc.back t f t' nf o' ht hf hnf hcon.1 hcon.2
  · intro t f o' ht hf h1 h2
    rw [hnt] at ht
    have hcon := (key (t, f) (t, f) o' hf).mp ⟨h1, h2⟩
    simp only [show 2 * 2 = 4 from rfl] at hf
    split at hcon
    · rename_i e
      simp only at hcon
      exact absurd (Prod.ext (by rw [← e]; exact hcon.1) (by rw [← e]; show f = R.2; omega)) h.ne
    · split at hcon
      · rename_i e
        simp only at hcon
        exact absurd (Prod.ext (by rw [← e]; exact hcon.1.symm) (by rw [← e]; show L.2 = f; omega)) h.ne
      · exact hc.boundary t f o' ht hf hcon.1 hcon.2

/-- The corners on two joined faces. -/
theorem joined_pairs : ∀ (c : Fin 4) (j : Fin 2) (nf : Fin 4) (o : Fin 2), ∀ x ∈ faceNeighborCorner 2 c (faceOf c j) nf o,
    ∃ i : Fin 2, entry (faceCornersTable 2) (faceOf c j) i = some c.1 ∧
      entry (faceCornersTable 2) nf (if o.1 ≠ 0 then 1 ^^^ i.1 else i.1) = some x := by decide +kernel

theorem joined_corners : ∀ (f nf : Fin 4) (o i : Fin 2), ∃ c c' : Fin 4, entry (faceCornersTable 2) f i = some c.1 ∧
    entry (faceCornersTable 2) nf (if o.1 ≠ 0 then 1 ^^^ i.1 else i.1) = some c'.1 ∧
    ∃ j : Fin 2, faceOf c j = f.1 ∧ faceNeighborCorner 2 c f nf o = some c'.1 := by decide +kernel

theorem JoinFaces.crosses (hc : FaceConsistent 2 conn) (h : JoinFaces conn L R o) {l r : Fin 2 → ℕ × ℕ}
    (hl : ∀ i, (l i).1 = L.1 ∧ entry (faceCornersTable 2) L.2 i = some (l i).2)
    (hr : ∀ i, (r i).1 = R.1 ∧ entry (faceCornersTable 2) R.2 (if o ≠ 0 then 1 ^^^ i.1 else i.1) = some (r i).2)
    {x y : ℕ × ℕ} (hx : TreeCorner conn.numTrees x) (hxy : Crosses (joinedConn conn L R o) x y) :
    Crosses conn x y ∨ ∃ i, (x = l i ∧ y = r i) ∨ (x = r i ∧ y = l i) := by
  have hc' := joined_consistent hc h
  have key : ∀ x y, TreeCorner conn.numTrees x → (∃ (j : Fin 2) (nf o' : ℕ), nf < 4 ∧ o' < 2 ∧ (x.1, faceOf x.2 j) = L ∧
      Connected 2 (joinedConn conn L R o) (x.1, faceOf x.2 j) (y.1, nf) o' ∧ faceNeighborCorner 2 x.2 (faceOf x.2 j) nf o' = some y.2) →
      ∃ i, x = l i ∧ y = r i := by
    rintro x y hx ⟨j, nf, o', hnf, ho', e, hcon, hfc⟩
    rw [joined_connected hc h _ _ _ (faceOf_lt x.2 j), if_pos e] at hcon
    simp only at hcon
    have hR2 := h.right.2
    have ho := h.orient
    obtain rfl : nf = R.2 := by omega
    obtain rfl : o' = o := by omega
    obtain ⟨i, g1, g2⟩ := joined_pairs ⟨x.2, hx.2⟩ j ⟨R.2, hnf⟩ ⟨o', ho'⟩ y.2 hfc
    simp only at g1 g2
    refine ⟨i, Prod.ext ?_ ?_, Prod.ext ?_ ?_⟩
    · rw [(hl i).1, ← e]
    · have := (hl i).2
      rw [← e] at this
      simp only at this
      rw [g1, Option.some.injEq] at this
      exact this
    · rw [(hr i).1]; exact hcon.1
    · have := (hr i).2
      rw [g2, Option.some.injEq] at this
      exact this
  obtain ⟨j, nf, o', hnf, ho', k1, k2, hne, hfc⟩ := id hxy
  by_cases e : (x.1, faceOf x.2 j) = L
  · obtain ⟨i, g⟩ := key x y hx ⟨j, nf, o', hnf, ho', e, ⟨k1, k2⟩, hfc⟩
    exact Or.inr ⟨i, Or.inl g⟩
  · by_cases e' : (x.1, faceOf x.2 j) = R
    · -- the same seen from the other side
      have hcon := (joined_connected hc h (x.1, faceOf x.2 j) (y.1, nf) o' (faceOf_lt x.2 j)).mp ⟨k1, k2⟩
      rw [if_neg e, if_pos e'] at hcon
      simp only at hcon
      have hL2 := h.left.2
      have ho := h.orient
      have hy := crosses_corner (conn := joinedConn conn L R o) hc' hx hxy
      obtain ⟨-, j', h2, h3⟩ := neighborCorner_back ⟨x.2, hx.2⟩ j ⟨nf, hnf⟩ ⟨o', ho'⟩ y.2 hfc
      simp only at h2 h3
      obtain ⟨g1, g2⟩ := hc'.back x.1 (faceOf x.2 j) y.1 nf o' hx.1 (faceOf_lt x.2 j) hnf k1 k2
      obtain ⟨i, g⟩ := key y x hy ⟨j', faceOf x.2 j, o', faceOf_lt x.2 j, ho', by
        rw [h2]; exact Prod.ext hcon.1 (by simp only; omega), by rw [h2]; exact ⟨g1, g2⟩, h3⟩
      exact Or.inr ⟨i, Or.inr ⟨g.2, g.1⟩⟩
    · have hcon := (joined_connected hc h (x.1, faceOf x.2 j) (y.1, nf) o' (faceOf_lt x.2 j)).mp ⟨k1, k2⟩
      rw [if_neg e, if_neg e'] at hcon
      exact Or.inl ⟨j, nf, o', hnf, ho', hcon.1, hcon.2, hne, hfc⟩

theorem JoinFaces.crosses_pair (hc : FaceConsistent 2 conn) (h : JoinFaces conn L R o) {l r : Fin 2 → ℕ × ℕ}
    (hl : ∀ i, (l i).1 = L.1 ∧ entry (faceCornersTable 2) L.2 i = some (l i).2)
    (hr : ∀ i, (r i).1 = R.1 ∧ entry (faceCornersTable 2) R.2 (if o ≠ 0 then 1 ^^^ i.1 else i.1) = some (r i).2) (i : Fin 2) :
    Crosses (joinedConn conn L R o) (l i) (r i) := by
  obtain ⟨c, c', g1, g2, j, g3, g4⟩ := joined_corners ⟨L.2, h.left.2⟩ ⟨R.2, h.right.2⟩ ⟨o, h.orient⟩ i
  simp only at g1 g2 g3 g4
  have q1 := (hl i).2
  rw [g1, Option.some.injEq] at q1
  have q2 := (hr i).2
  rw [g2, Option.some.injEq] at q2
  have hcon : Connected 2 (joinedConn conn L R o) L R o := by
    rw [joined_connected hc h L R o h.left.2, if_pos rfl]
    exact ⟨rfl, rfl⟩
  have hf : faceOf (l i).2 j = L.2 := by rw [← q1]; exact g3
  refine ⟨j, R.2, o, h.right.2, h.orient, ?_, ?_, ?_, ?_⟩
  · rw [hf, (hl i).1, (hr i).1]; exact hcon.1
  · rw [hf, (hl i).1]; exact hcon.2
  · rw [hf, (hl i).1, (hr i).1]
    by_contra hcontra
    simp only [not_or, not_not] at hcontra
    exact h.ne (Prod.ext hcontra.1.symm hcontra.2.symm)
  · rw [hf, ← q1, ← q2]; exact g4

theorem JoinFaces.crosses_old (hc : FaceConsistent 2 conn) (h : JoinFaces conn L R o) {x y : ℕ × ℕ} (hxy : Crosses conn x y) :
    Crosses (joinedConn conn L R o) x y := by
  obtain ⟨j, nf, o', hnf, ho', k1, k2, hne, hfc⟩ := hxy
  have bad : ∀ B : ℕ × ℕ, Connected 2 conn B B 0 → B.2 < 4 → (x.1, faceOf x.2 j) ≠ B := by
    rintro B hB hB2 rfl
    have e1 := k1.symm.trans hB.1
    have e2 := k2.symm.trans hB.2
    simp only [Option.some.injEq] at e1 e2
    rcases hne with g | g
    · exact g e1
    · exact g (by omega)
  obtain ⟨q1, q2⟩ := (joined_connected hc h (x.1, faceOf x.2 j) (y.1, nf) o' (faceOf_lt x.2 j)).mpr (by
    rw [if_neg (bad L h.bl h.left.2), if_neg (bad R h.br h.right.2)]
    exact ⟨k1, k2⟩)
  exact ⟨j, nf, o', hnf, ho', q1, q2, hne, hfc⟩

theorem joinFaces_inv (hc : FaceConsistent 2 conn) (hi : JInv conn cc) (h : JoinFaces conn L R o) :
    ∃ cc', joinFaces conn cc L.1 R.1 L.2 R.2 o = some (joinedConn conn L R o, cc') ∧ JInv (joinedConn conn L R o) cc' ∧
      ∀ x y, TreeCorner conn.numTrees x → TreeCorner conn.numTrees y →
        (AtP (joinedConn conn L R o) cc' x y ↔ Chain conn.numTrees (fun a b => AtP conn cc a b ∨ Crosses (joinedConn conn L R o) a b) x y) := by
  have hc' := joined_consistent hc h
  obtain ⟨hL1, hL2⟩ := h.left
  obtain ⟨hR1, hR2⟩ := h.right
  -- the corners of the two faces
  have hex := fun i => joined_corners ⟨L.2, hL2⟩ ⟨R.2, hR2⟩ ⟨o, h.orient⟩ i
  choose cl cr h1 h2 _ using hex
  set l : Fin 2 → ℕ × ℕ := fun i => (L.1, (cl i).1) with hld
  set r : Fin 2 → ℕ × ℕ := fun i => (R.1, (cr i).1) with hrd
  have hl : ∀ i, (l i).1 = L.1 ∧ entry (faceCornersTable 2) L.2 i = some (l i).2 := fun i => ⟨rfl, h1 i⟩
  have hr : ∀ i, (r i).1 = R.1 ∧ entry (faceCornersTable 2) R.2 (if o ≠ 0 then 1 ^^^ i.1 else i.1) = some (r i).2 := fun i => ⟨rfl, h2 i⟩
  have tl : ∀ i, TreeCorner conn.numTrees (l i) := fun i => ⟨hL1, (cl i).2⟩
  have tr : ∀ i, TreeCorner conn.numTrees (r i) := fun i => ⟨hR1, (cr i).2⟩
  obtain ⟨cc1, a1, a2, a3, a4, a5, a6⟩ := join_inv hc hi (tl 0) (tr 0)
  obtain ⟨cc2, b1, b2, b3, b4, b5, b6⟩ := join_inv hc a2 (tl 1) (tr 1)
  have hnl : ∀ i, ∃ k, HasNumber cc2 (l i) k := by
    intro i; fin_cases i
    · exact b5 _ (tl 0) a3
    · exact b3
  have hnr : ∀ i, ∃ k, HasNumber cc2 (r i) k := by
    intro i; fin_cases i
    · exact b5 _ (tr 0) a4
    · exact b4
  have hlr : ∀ i, AtP conn cc2 (l i) (r i) := by
    intro i; fin_cases i
    · exact (b6 _ _ (tl 0)).mpr (Or.inl ((a6 _ _ (tl 0)).mpr (Or.inr (Or.inl ⟨Or.inl rfl, Or.inl rfl⟩))))
    · exact (b6 _ _ (tl 1)).mpr (Or.inr (Or.inl ⟨Or.inl rfl, Or.inl rfl⟩))
  have hcross := fun {x y : ℕ × ℕ} (hx : TreeCorner conn.numTrees x) (hxy : Crosses (joinedConn conn L R o) x y) => h.crosses hc hl hr hx hxy
  have hcr : ∀ x y, TreeCorner conn.numTrees x → Crosses (joinedConn conn L R o) x y → AtP conn cc2 x y := by
    intro x y hx hxy
    rcases hcross hx hxy with g | ⟨i, ⟨rfl, rfl⟩ | ⟨rfl, rfl⟩⟩
    · exact Or.inr (Or.inr g)
    · exact hlr i
    · exact b2.at_symm hc (tl i) (hlr i)
  have hinv : JInv (joinedConn conn L R o) cc2 := by
    refine ⟨b2.cons, b2.table, ?_, ?_⟩
    · intro x y k hx hxy hk
      exact (b2.at_num hx hk).mp (hcr x y hx hxy)
    · intro x y hx hxy hk
      have old : ∀ {a b : ℕ × ℕ}, TreeCorner conn.numTrees a → Crosses (joinedConn conn L R o) a b → (∀ k, ¬ HasNumber cc2 a k) → Crosses conn a b := by
        intro a b ha hab hka
        rcases hcross ha hab with g | ⟨i, ⟨rfl, -⟩ | ⟨rfl, -⟩⟩
        · exact g
        · obtain ⟨k, q⟩ := hnl i; exact absurd q (hka k)
        · obtain ⟨k, q⟩ := hnr i; exact absurd q (hka k)
      have g := old hx hxy hk
      obtain ⟨q1, q2⟩ := b2.free x y hx g hk
      exact ⟨q1, fun z hyz => (q2 z (old (crosses_corner hc hx g) hyz q1)).imp id fun q => h.crosses_old hc q⟩
  have hat : ∀ x y, TreeCorner conn.numTrees x → (AtP (joinedConn conn L R o) cc2 x y ↔ AtP conn cc2 x y) := by
    intro x y hx
    constructor
    · rintro (g | g | g)
      · exact Or.inl g
      · exact Or.inr (Or.inl g)
      · exact hcr x y hx g
    · rintro (g | g | g)
      · exact Or.inl g
      · exact Or.inr (Or.inl g)
      · exact Or.inr (Or.inr (h.crosses_old hc g))
  refine ⟨cc2, ?_, hinv, fun x y hx hy => ?_⟩
  · unfold joinFaces
    have e : (List.range 2).foldlM (joinFaceCorners conn L.1 R.1 L.2 R.2 o) cc = some cc2 := by
      rw [show List.range 2 = [0, 1] from rfl]
      have s0 : joinFaceCorners conn L.1 R.1 L.2 R.2 o cc 0 = some cc1 := by
        unfold joinFaceCorners
        have u1 := (hl 0).2
        have u2 := (hr 0).2
        simp only [Fin.val_zero] at u1 u2
        simp only [u1, u2, Option.bind_eq_bind, Option.bind_some]
        exact a1
      have s1 : joinFaceCorners conn L.1 R.1 L.2 R.2 o cc1 1 = some cc2 := by
        unfold joinFaceCorners
        have u1 := (hl 1).2
        have u2 := (hr 1).2
        simp only [Fin.val_one] at u1 u2
        simp only [u1, u2, Option.bind_eq_bind, Option.bind_some]
        exact b1
      simp only [List.foldlM_cons, s0, s1, List.foldlM_nil, Option.bind_eq_bind, Option.bind_some]
      rfl
    rw [e]
    simp only [Option.bind_eq_bind, Option.bind_some]
    rw [if_pos (by rw [hc.trees, hc.faces]; omega)]
    rfl
  · rw [hat x y hx]
    constructor
    · intro g
      -- chains of old points and joined corners
      have c0 : ∀ {a b : ℕ × ℕ}, TreeCorner conn.numTrees a → AtP conn cc a b →
          Chain conn.numTrees (fun a b => AtP conn cc a b ∨ Crosses (joinedConn conn L R o) a b) a b := by
        intro a b ha hab
        have hb := hi.at_corner hc ha hab
        exact Relation.EqvGen.rel _ _ ⟨ha.1, ha.2, hb.1, hb.2, Or.inl hab⟩
      have cp : ∀ i, Chain conn.numTrees (fun a b => AtP conn cc a b ∨ Crosses (joinedConn conn L R o) a b) (l i) (r i) := fun i =>
        Relation.EqvGen.rel _ _ ⟨(tl i).1, (tl i).2, (tr i).1, (tr i).2, Or.inr (h.crosses_pair hc hl hr i)⟩
      have c1 : ∀ {a b : ℕ × ℕ}, TreeCorner conn.numTrees a → AtP conn cc1 a b →
          Chain conn.numTrees (fun a b => AtP conn cc a b ∨ Crosses (joinedConn conn L R o) a b) a b := by
        intro a b ha hab
        rcases (a6 a b ha).mp hab with q | ⟨q1, q2⟩ | ⟨q1, q2⟩
        · exact c0 ha q
        · exact ((c0 ha q1).trans _ _ _ (cp 0)).trans _ _ _ (c0 (tr 0) q2)
        · exact ((c0 ha q1).trans _ _ _ ((cp 0).symm _ _)).trans _ _ _ (c0 (tl 0) q2)
      rcases (b6 x y hx).mp g with q | ⟨q1, q2⟩ | ⟨q1, q2⟩
      · exact c1 hx q
      · exact ((c1 hx q1).trans _ _ _ (cp 1)).trans _ _ _ (c1 (tr 1) q2)
      · exact ((c1 hx q1).trans _ _ _ ((cp 1).symm _ _)).trans _ _ _ (c1 (tl 1) q2)
    · intro g
      have main : ∀ {a b : ℕ × ℕ}, Chain conn.numTrees (fun a b => AtP conn cc a b ∨ Crosses (joinedConn conn L R o) a b) a b →
          a = b ∨ (TreeCorner conn.numTrees a ∧ TreeCorner conn.numTrees b ∧ AtP conn cc2 a b) := by
        intro a b hab
        induction hab with
        | rel a b hr =>
          obtain ⟨u1, u2, u3, u4, u5⟩ := hr
          refine Or.inr ⟨⟨u1, u2⟩, ⟨u3, u4⟩, ?_⟩
          rcases u5 with u5 | u5
          · exact (b6 a b ⟨u1, u2⟩).mpr (Or.inl ((a6 a b ⟨u1, u2⟩).mpr (Or.inl u5)))
          · exact hcr a b ⟨u1, u2⟩ u5
        | refl a => exact Or.inl rfl
        | symm a b _ ih =>
          rcases ih with rfl | ⟨u1, u2, u3⟩
          · exact Or.inl rfl
          · exact Or.inr ⟨u2, u1, b2.at_symm hc u1 u3⟩
        | trans a b c _ _ ih1 ih2 =>
          rcases ih1 with rfl | ⟨u1, u2, u3⟩
          · exact ih2
          · rcases ih2 with rfl | ⟨-, v2, v3⟩
            · exact Or.inr ⟨u1, u2, u3⟩
            · exact Or.inr ⟨u1, v2, b2.at_trans u1 u2 u3 v3⟩
      rcases main g with rfl | ⟨-, -, q⟩
      · exact Or.inl rfl
      · exact q

end

/-- **C87 (join).**  The face tables and corner tables are consistent, corners that meet across faces are treated alike (see
`CornersClosed`), and two different faces of trees are boundaries.  Then `p4est_connectivity_join_faces` ends without an access
out of bounds, and

* the face tables connect the two faces in the given orientation and are otherwise unchanged,
* face tables and corner tables are consistent again, `p4est_connectivity_is_valid` accepts the corners, and corners that meet
  across faces are still treated alike, so that further faces can be joined,
* the tables say that two corners of trees are at the same point exactly if this follows from the points before and the new
  connection.

For connectivities in general, which are valid as well, this is false, see `C87_invalid`. -/
theorem C87_join_partial (conn : FaceConn) (cc : CornerConn) (tl tr fl fr o : ℕ) (hc : FaceConsistent 2 conn)
    (hcc : CornerConsistent conn.numTrees cc) (hcl : CornersClosed conn cc)
    (htl : tl < conn.numTrees) (htr : tr < conn.numTrees) (hfl : fl < 4) (hfr : fr < 4) (ho : o < 2) (hne : (tl, fl) ≠ (tr, fr))
    (hbl : Connected 2 conn (tl, fl) (tl, fl) 0) (hbr : Connected 2 conn (tr, fr) (tr, fr) 0) :
    ∃ conn' cc', joinFaces conn cc tl tr fl fr o = some (conn', cc') ∧ conn'.numTrees = conn.numTrees ∧
      Connected 2 conn' (tl, fl) (tr, fr) o ∧ Connected 2 conn' (tr, fr) (tl, fl) o ∧
      (∀ x y o', x.2 < 4 → x ≠ (tl, fl) → x ≠ (tr, fr) → (Connected 2 conn' x y o' ↔ Connected 2 conn x y o')) ∧
      FaceConsistent 2 conn' ∧ CornerConsistent conn.numTrees cc' ∧ cornersCheck conn' cc' = some true ∧ CornersClosed conn' cc' ∧
      ∀ x y : ℕ × ℕ, x.1 < conn.numTrees → x.2 < 4 → y.1 < conn.numTrees → y.2 < 4 →
        (AtPoint conn' cc' x y ↔ Chain conn.numTrees (fun a b => AtPoint conn cc a b ∨ AcrossConnected conn' a b) x y) := by
  have h : JoinFaces conn (tl, fl) (tr, fr) o := ⟨⟨htl, hfl⟩, ⟨htr, hfr⟩, hne, ho, hbl, hbr⟩
  have hc' := joined_consistent hc h
  obtain ⟨cc', e1, e2, e3⟩ := joinFaces_inv hc ((jInv_iff hc).mpr ⟨hcc, hcl⟩) h
  obtain ⟨g1, g2⟩ := (jInv_iff hc').mp e2
  have key := joined_connected hc h
  refine ⟨_, cc', e1, rfl, ?_, ?_, ?_, hc', g1, ?_, g2, ?_⟩
  · rw [key _ _ _ hfl, if_pos rfl]; exact ⟨rfl, rfl⟩
  · rw [key _ _ _ hfr, if_neg (fun k => hne k.symm), if_pos rfl]; exact ⟨rfl, rfl⟩
  · intro x y o' hx h1 h2
    rw [key _ _ _ hx, if_neg h1, if_neg h2]
  · exact (C59_corner_checks_partial _ hc' (show 0 < conn.numTrees by omega) _ g1.arrays).1.mpr g1
  · intro x y hx hx4 hy hy4
    rw [atPoint_iff hc' (show TreeCorner conn.numTrees x from ⟨hx, hx4⟩) (show TreeCorner conn.numTrees y from ⟨hy, hy4⟩), e3 x y ⟨hx, hx4⟩ ⟨hy, hy4⟩]
    unfold Chain
    have : (fun a b : ℕ × ℕ => a.1 < conn.numTrees ∧ a.2 < 4 ∧ b.1 < conn.numTrees ∧ b.2 < 4 ∧
        (AtP conn cc a b ∨ Crosses (joinedConn conn (tl, fl) (tr, fr) o) a b)) =
        fun a b : ℕ × ℕ => a.1 < conn.numTrees ∧ a.2 < 4 ∧ b.1 < conn.numTrees ∧ b.2 < 4 ∧
          (AtPoint conn cc a b ∨ AcrossConnected (joinedConn conn (tl, fl) (tr, fr) o) a b) := by
      funext a b
      refine propext ⟨?_, ?_⟩
      · rintro ⟨a1, a2, b1, b2, g⟩
        refine ⟨a1, a2, b1, b2, g.imp (atPoint_iff hc ⟨a1, a2⟩ ⟨b1, b2⟩).mpr (acrossConn_iff hc' a1 a2 b2).mpr⟩
      · rintro ⟨a1, a2, b1, b2, g⟩
        refine ⟨a1, a2, b1, b2, g.imp (atPoint_iff hc ⟨a1, a2⟩ ⟨b1, b2⟩).mp (acrossConn_iff hc' a1 a2 b2).mp⟩
    rw [this]

/-- **C87 (after complete).**  The tables that `p4est_connectivity_complete` computes from vertices meet the conditions of
`C87_join_partial`, so that further faces may be joined, for example to make a brick periodic. -/
theorem C87_after_complete (conn : FaceConn) (ttv : List ℕ) (numVertices : ℕ) (h1 : 0 < conn.numTrees)
    (hv : VertexTable 2 conn.numTrees numVertices ttv) (hc : FaceConsistent 2 conn)
    (hold : ∀ (x y : ℕ × ℕ) (o : ℕ), x.1 < conn.numTrees → x.2 < 4 → y.2 < 4 → Connected 2 conn x y o → y = x ∨ FaceMatch 2 ttv x y) :
    ∃ conn' cc, connComplete conn ttv numVertices = some (conn', cc) ∧
      FaceConsistent 2 conn' ∧ CornerConsistent conn'.numTrees cc ∧ CornersClosed conn' cc := by
  obtain ⟨conn', cc, e1, e2, e3, e4, e5, -, e7, -⟩ := C85_corners conn ttv numVertices h1 hv hc hold
  rw [← e3] at e5 e7
  refine ⟨conn', cc, e1, e4, e5, ?_⟩
  have hlen : ttv.length = 2 ^ 2 * conn'.numTrees := by rw [e3]; exact hv.length
  obtain ⟨A, e, hi, he⟩ := completeCorners_inv (numVertices := numVertices) e4 hlen hv.range
  unfold connComplete at e1
  rw [e2] at e1
  simp only [Option.bind_eq_bind, Option.bind_some, he, Option.some.injEq, Prod.mk.injEq, true_and] at e1
  subst e1
  have hvt : ∀ x : ℕ × ℕ, x.1 < conn'.numTrees → x.2 < 4 → vtx ttv x < numVertices :=
    fun x hx hx4 => hv.range _ (List.mem_of_getElem? (vtx_spec hlen hx hx4))
  have hvx : ∀ x : ℕ × ℕ, x.1 < conn'.numTrees → x.2 < 4 → vertexAt 2 ttv x.1 x.2 = some (vtx ttv x) := fun x hx hx4 => vtx_spec hlen hx hx4
  have hsame := fun {x y : ℕ × ℕ} (hx : x.1 < conn'.numTrees) (hx4 : x.2 < 4) (hy : y.1 < conn'.numTrees) (hy4 : y.2 < 4) => inv_same hi hvt hx hx4 hy hy4
  have hst : ∀ x : ℕ × ℕ, x.1 < conn'.numTrees → x.2 < 4 →
      (CornerStored ⟨A.length, e.ttc, e.offsets ++ [e.trees.length], e.trees, e.corners⟩ x ↔ vtx ttv x ∈ A) := by
    intro x hx hx4
    constructor
    · rintro ⟨k, hk, g⟩
      exact List.mem_of_getElem? ((inv_entry hi hvt hx hx4).mp g)
    · intro g
      obtain ⟨k, hk, p1, -⟩ := (hsame hx hx4 hx hx4).mpr ⟨g, rfl⟩
      exact ⟨k, hk, p1⟩
  have hac : ∀ x y : ℕ × ℕ, x.1 < conn'.numTrees → x.2 < 4 → y.2 < 4 → AcrossConnected conn' x y → y.1 < conn'.numTrees ∧ vtx ttv x = vtx ttv y := by
    intro x y hx hx4 hy4 h
    have hy : y.1 < conn'.numTrees := by
      obtain ⟨f, nf, o, T, hf, hnf, hcon, -⟩ := h
      exact (e4.range x.1 f y.1 _ hx hf hcon.1 hcon.2).1
    refine ⟨hy, ?_⟩
    by_cases hyx : y = x
    · rw [hyx]
    · obtain ⟨l, -, hl⟩ := e7 x hx hx4
      have := (hl y hy hy4 hyx).mpr (Or.inr h)
      rw [hvx x hx hx4, hvx y hy hy4, Option.some.injEq] at this
      exact this
  refine ⟨?_, ?_, ?_⟩
  · intro h0
    have hA : A = [] := List.length_eq_zero_iff.mp h0
    refine Or.inr ⟨hi.len, fun v hvm => ?_⟩
    obtain ⟨i, hil, hiv⟩ := List.mem_iff_getElem.mp hvm
    have hil' : i < 4 * conn'.numTrees := hi.len ▸ hil
    have := hi.gone (i / 4, i % 4) (by simp only; omega) (by simp only; omega) (hvt _ (by simp only; omega) (by simp only; omega)) (by rw [hA]; simp)
    simp only [Nat.div_add_mod] at this
    rw [List.getElem?_eq_getElem hil, hiv, Option.some.injEq] at this
    exact this
  · intro x y hx hx4 hy4 h hs
    obtain ⟨hy, hxy⟩ := hac x y hx hx4 hy4 h
    exact (hsame hx hx4 hy hy4).mpr ⟨(hst x hx hx4).mp hs, hxy⟩
  · intro x y hx hx4 hy4 h hs
    obtain ⟨hy, hxy⟩ := hac x y hx hx4 hy4 h
    rw [hst x hx hx4] at hs
    refine ⟨by rw [hst y hy hy4, ← hxy]; exact hs, fun z hz4 hyz => ?_⟩
    obtain ⟨hz, hyz'⟩ := hac y z hy hy4 hz4 hyz
    by_cases hzx : z = x
    · exact Or.inl hzx
    · right
      obtain ⟨l, l1, hl⟩ := e7 x hx hx4
      rcases (hl z hz hz4 hzx).mp (by rw [hvx x hx hx4, hvx z hz hz4, hxy, hyz']) with g | g
      · exfalso
        obtain ⟨l', l1', l2, -⟩ := findCornerTransform_spec e4 e5 hx hx4
        rw [l1, Option.some.injEq] at l1'
        subst l1'
        exact hs ((hsame hx hx4 hz hz4).mp (l2 z g)).1
      · exact g

/-- Trees without connections. -/
def separateTrees (n : ℕ) : FaceConn := ⟨n, (List.range n).flatMap fun t => [t, t, t, t], (List.range n).flatMap fun _ => [0, 1, 2, 3]⟩

/-- No corners. -/
def emptyCorners : CornerConn := ⟨0, [], [0], [], []⟩

theorem separate_connected {n : ℕ} {x y : ℕ × ℕ} {o : ℕ} (hx : TreeCorner n x) : Connected 2 (separateTrees n) x y o ↔ y.1 = x.1 ∧ y.2 + 4 * o = x.2 := by
  obtain ⟨h1, h2⟩ := hx
  have e1 := (flatMap_at (w := 4) (fun t => [t, t, t, t]) n (fun _ _ => rfl)).2 x.1 x.2 h1 h2
  have e2 := (flatMap_at (w := 4) (fun _ => [0, 1, 2, 3]) n (fun _ _ => rfl)).2 x.1 x.2 h1 h2
  unfold Connected separateTrees
  simp only [show 2 * 2 = 4 from rfl, e1, e2]
  generalize x.1 = t
  generalize x.2 = f at h2
  interval_cases f <;> simp <;> omega

theorem separate_consistent (n : ℕ) : FaceConsistent 2 (separateTrees n) := by
  have key := fun {x y : ℕ × ℕ} {o : ℕ} (hx : TreeCorner n x) => separate_connected (y := y) (o := o) hx
  have l1 := (flatMap_at (w := 4) (fun t => [t, t, t, t]) n (fun _ _ => rfl)).1
  have l2 := (flatMap_at (w := 4) (fun _ : ℕ => [0, 1, 2, 3]) n (fun _ _ => rfl)).1
  refine ⟨l1, l2, ?_, ?_, ?_⟩
  · intro t f t' c ht hf h1 h2
    have := (key (x := (t, f)) (y := (t', c % 4)) (o := c / 4) ⟨ht, hf⟩).mp ⟨h1, by rw [h2]; congr 1; simp only; omega⟩
    simp only at this
    simp only [show 2 * 2 * 2 ^ (2 - 1) = 8 from rfl]
    have ht : t < n := ht
    exact ⟨by show t' < n; omega, by omega⟩
  · intro t f t' nf o ht hf hnf h1 h2
    have := (key (x := (t, f)) (y := (t', nf)) (o := o) ⟨ht, hf⟩).mp ⟨h1, h2⟩
    simp only at this
    have ht : t < n := ht
    exact (key (x := (t', nf)) (y := (t, f)) (o := o) ⟨by show t' < n; omega, hnf⟩).mpr ⟨this.1.symm, by simp only; omega⟩
  · intro t f o ht hf h1 h2
    have := (key (x := (t, f)) (y := (t, f)) (o := o) ⟨ht, hf⟩).mp ⟨h1, h2⟩
    simp only at this
    omega

theorem emptyCorners_consistent (n : ℕ) : CornerConsistent n emptyCorners := by
  refine ⟨⟨fun h => absurd rfl h, rfl, rfl, rfl⟩, ?_, by simp [emptyCorners], by simp [emptyCorners], fun h => absurd rfl h, ?_, ?_⟩
  · intro k a b _ h2
    simp [emptyCorners] at h2
  · intro t c k a b i j _ _ hk
    exact absurd hk (Nat.not_lt_zero k)
  · intro t c k t' c' _ _ hk
    exact absurd hk (Nat.not_lt_zero k)

theorem separate_across {n : ℕ} {x y : ℕ × ℕ} (hx : TreeCorner n x) : ¬ AcrossConnected (separateTrees n) x y := by
  rintro ⟨f, nf, o, T, hf, hnf, hcon, hne, -⟩
  have := (separate_connected (x := (x.1, f)) ⟨hx.1, hf⟩).mp hcon
  simp only at this
  exact hne (Prod.ext this.1 (by simp only; omega))

theorem separate_closed (n : ℕ) : CornersClosed (separateTrees n) emptyCorners :=
  ⟨fun _ => Or.inl rfl, fun x y hx hx4 _ h => absurd h (separate_across ⟨hx, hx4⟩), fun x y hx hx4 _ h => absurd h (separate_across ⟨hx, hx4⟩)⟩

/-- A call of `p4est_connectivity_join_faces`. -/
structure JoinCall where
  left : ℕ × ℕ
  right : ℕ × ℕ
  orientation : ℕ

/-- Several calls of `p4est_connectivity_join_faces`, one after the other. -/
def joinAll (s : FaceConn × CornerConn) (calls : List JoinCall) : Option (FaceConn × CornerConn) :=
  calls.foldlM (fun s j => joinFaces s.1 s.2 j.left.1 j.right.1 j.left.2 j.right.2 j.orientation) s

/-- The faces that a list of calls joins. -/
def joinedFaces (calls : List JoinCall) : List (ℕ × ℕ) := calls.flatMap fun j => [j.left, j.right]

/-- The calls are for faces of trees and orientations of squares. -/
def ValidCalls (n : ℕ) (calls : List JoinCall) : Prop := ∀ j ∈ calls, TreeCorner n j.left ∧ TreeCorner n j.right ∧ j.orientation < 2

theorem chain_mono {n : ℕ} {r s : ℕ × ℕ → ℕ × ℕ → Prop} (h : ∀ a b, TreeCorner n a → TreeCorner n b → r a b → Chain n s a b) {x y : ℕ × ℕ} (hr : Chain n r x y) :
    Chain n s x y := by
  induction hr with
  | rel a b g => exact h a b ⟨g.1, g.2.1⟩ ⟨g.2.2.1, g.2.2.2.1⟩ g.2.2.2.2
  | refl a => exact Relation.EqvGen.refl a
  | symm a b _ ih => exact ih.symm _ _
  | trans a b c _ _ h1 h2 => exact h1.trans _ _ _ h2

/-- **C87 (build).**  Faces of separate trees are joined in any order; no face occurs twice.  Then all calls end without an
access out of bounds, the face tables of the result connect exactly the given faces, all tables are
consistent, `p4est_connectivity_is_valid` accepts the corners, and two corners of trees are at the same point for the tables
exactly if a chain of connected faces leads from one to the other. -/
theorem C87_build (n : ℕ) (hn : 0 < n) (calls : List JoinCall) (hv : ValidCalls n calls) (hnd : (joinedFaces calls).Nodup) :
    ∃ conn' cc', joinAll (separateTrees n, emptyCorners) calls = some (conn', cc') ∧ conn'.numTrees = n ∧
      (∀ j ∈ calls, Connected 2 conn' j.left j.right j.orientation ∧ Connected 2 conn' j.right j.left j.orientation) ∧
      (∀ x, x.1 < n → x.2 < 4 → x ∉ joinedFaces calls → Connected 2 conn' x x 0) ∧
      FaceConsistent 2 conn' ∧ CornerConsistent n cc' ∧ cornersCheck conn' cc' = some true ∧
      ∀ x y : ℕ × ℕ, x.1 < n → x.2 < 4 → y.1 < n → y.2 < 4 → (AtPoint conn' cc' x y ↔ Chain n (AcrossConnected conn') x y) := by
  have aux : ∀ m (calls : List JoinCall), calls.length = m → ValidCalls n calls → (joinedFaces calls).Nodup →
      ∃ conn' cc', joinAll (separateTrees n, emptyCorners) calls = some (conn', cc') ∧ conn'.numTrees = n ∧
      (∀ j ∈ calls, Connected 2 conn' j.left j.right j.orientation ∧ Connected 2 conn' j.right j.left j.orientation) ∧
      (∀ x, x.1 < n → x.2 < 4 → x ∉ joinedFaces calls → Connected 2 conn' x x 0) ∧
      FaceConsistent 2 conn' ∧ CornerConsistent n cc' ∧ CornersClosed conn' cc' ∧
      ∀ x y : ℕ × ℕ, x.1 < n → x.2 < 4 → y.1 < n → y.2 < 4 → (AtPoint conn' cc' x y ↔ Chain n (AcrossConnected conn') x y) := by
    intro m
    induction m with
    | zero =>
      intro calls hlen _ _
      obtain rfl := List.length_eq_zero_iff.mp hlen
      refine ⟨separateTrees n, emptyCorners, rfl, rfl, by simp, fun x h1 h2 _ => (separate_connected ⟨h1, h2⟩).mpr ⟨rfl, by omega⟩,
        separate_consistent n, emptyCorners_consistent n, separate_closed n, fun x y h1 h2 _ _ => ?_⟩
      constructor
      · rintro (rfl | ⟨k, hk, -⟩ | h)
        · exact Relation.EqvGen.refl x
        · exact absurd hk (Nat.not_lt_zero k)
        · exact absurd h (separate_across ⟨h1, h2⟩)
      · intro h
        have : ∀ {a b : ℕ × ℕ}, Chain n (AcrossConnected (separateTrees n)) a b → a = b := by
          intro a b hab
          induction hab with
          | rel a b g => exact absurd g.2.2.2.2 (separate_across ⟨g.1, g.2.1⟩)
          | refl a => rfl
          | symm a b _ ih => exact ih.symm
          | trans a b c _ _ h1 h2 => exact h1.trans h2
        exact Or.inl (this h)
    | succ m ih =>
      intro calls hlen hv hnd
      obtain ⟨cs, j, rfl⟩ : ∃ cs j, calls = cs ++ [j] := by
        have hne : calls ≠ [] := by intro h; subst h; simp at hlen
        exact ⟨calls.dropLast, calls.getLast hne, (List.dropLast_append_getLast hne).symm⟩
      have hjf : joinedFaces (cs ++ [j]) = joinedFaces cs ++ [j.left, j.right] := by unfold joinedFaces; simp
      rw [hjf, List.nodup_append] at hnd
      obtain ⟨n1, n2, n3⟩ := hnd
      have hjl : j.left ∉ joinedFaces cs := fun h => n3 _ h j.left (by simp) rfl
      have hjr : j.right ∉ joinedFaces cs := fun h => n3 _ h j.right (by simp) rfl
      have hjne : j.left ≠ j.right := by simpa using n2
      obtain ⟨conn1, cc1, e1, e2, e3, e4, e5, e6, e7, e8⟩ := ih cs (by simpa using hlen) (fun i hi => hv i (by simp [hi])) n1
      obtain ⟨⟨vl1, vl2⟩, ⟨vr1, vr2⟩, vo⟩ := hv j (by simp)
      subst e2
      obtain ⟨conn', cc', f1, f2, f3, f4, f5, f6, f7, -, f9, f10⟩ := C87_join_partial conn1 cc1 j.left.1 j.right.1 j.left.2 j.right.2 j.orientation e5 e6 e7
        vl1 vr1 vl2 vr2 vo hjne (e4 _ vl1 vl2 hjl) (e4 _ vr1 vr2 hjr)
      have hkeep : ∀ x y o, x.2 < 4 → x ≠ j.left → x ≠ j.right → (Connected 2 conn' x y o ↔ Connected 2 conn1 x y o) := f5
      refine ⟨conn', cc', ?_, f2, ?_, ?_, f6, f7, f9, ?_⟩
      · unfold joinAll at e1 ⊢
        rw [List.foldlM_append, e1]
        simp only [Option.bind_eq_bind, Option.bind_some, List.foldlM_cons, List.foldlM_nil, f1]
        rfl
      · intro i hi
        rcases List.mem_append.mp hi with hi | hi
        · have ml : i.left ∈ joinedFaces cs := List.mem_flatMap.mpr ⟨i, hi, by simp⟩
          have mr : i.right ∈ joinedFaces cs := List.mem_flatMap.mpr ⟨i, hi, by simp⟩
          obtain ⟨wl, wr, -⟩ := hv i (by simp [hi])
          obtain ⟨g1, g2⟩ := e3 i hi
          exact ⟨(hkeep _ _ _ wl.2 (fun k => hjl (k ▸ ml)) (fun k => hjr (k ▸ ml))).mpr g1,
            (hkeep _ _ _ wr.2 (fun k => hjl (k ▸ mr)) (fun k => hjr (k ▸ mr))).mpr g2⟩
        · obtain rfl := List.mem_singleton.mp hi
          exact ⟨f3, f4⟩
      · intro x h1 h2 hx
        rw [hjf] at hx
        simp only [List.mem_append, List.mem_cons, List.not_mem_nil, or_false, not_or] at hx
        exact (hkeep x x 0 h2 hx.2.1 hx.2.2).mpr (e4 x h1 h2 hx.1)
      · intro x y h1 h2 h3 h4
        rw [f10 x y h1 h2 h3 h4]
        have hold : ∀ a b, TreeCorner conn1.numTrees a → TreeCorner conn1.numTrees b → AcrossConnected conn1 a b → AcrossConnected conn' a b := by
          rintro a b ha hb ⟨f, nf, o, T, g1, g2, g3, g4, g5⟩
          refine ⟨f, nf, o, T, g1, g2, (hkeep _ _ _ g1 ?_ ?_).mpr g3, g4, g5⟩
          · intro k
            have := (boundary_link e5 (x := (a.1, f)) (y := (b.1, nf)) ⟨ha.1, g1⟩ g2 (e4 _ vl1 vl2 hjl) vl2 g3).mp k
            exact g4 (this.trans k.symm)
          · intro k
            have := (boundary_link e5 (x := (a.1, f)) (y := (b.1, nf)) ⟨ha.1, g1⟩ g2 (e4 _ vr1 vr2 hjr) vr2 g3).mp k
            exact g4 (this.trans k.symm)
        constructor
        · refine chain_mono fun a b ha hb hab => ?_
          rcases hab with hab | hab
          · refine chain_mono (fun p q hp hq hpq => ?_) ((e8 a b ha.1 ha.2 hb.1 hb.2).mp hab)
            exact Relation.EqvGen.rel _ _ ⟨hp.1, hp.2, hq.1, hq.2, hold p q hp hq hpq⟩
          · exact Relation.EqvGen.rel _ _ ⟨ha.1, ha.2, hb.1, hb.2, hab⟩
        · refine chain_mono fun a b ha hb hab => ?_
          exact Relation.EqvGen.rel _ _ ⟨ha.1, ha.2, hb.1, hb.2, Or.inr hab⟩
  obtain ⟨conn', cc', e1, e2, e3, e4, e5, e6, e7, e8⟩ := aux calls.length calls rfl hv hnd
  subst e2
  exact ⟨conn', cc', e1, rfl, e3, e4, e5, e6, (C59_corner_checks_partial _ e5 hn _ e6.arrays).1.mpr e6, e8⟩

/-- Four squares around a vertex are joined one after the other. -/
def crossCalls : List JoinCall := [⟨(0, 1), (1, 0), 0⟩, ⟨(0, 3), (2, 2), 0⟩, ⟨(1, 3), (3, 2), 0⟩, ⟨(2, 1), (3, 0), 0⟩]

theorem crossCalls_valid : ValidCalls 4 crossCalls := by
  intro j hj
  unfold crossCalls at hj
  simp only [List.mem_cons, List.not_mem_nil, or_false] at hj
  unfold TreeCorner
  rcases hj with rfl | rfl | rfl | rfl <;> simp

/-- The calls meet the hypotheses.  The face tables of the result are those of `crossTrees`, and the four corners at the vertex
in the middle have the same number. -/
example : ValidCalls 4 crossCalls ∧ (joinedFaces crossCalls).Nodup ∧
    joinAll (separateTrees 4, emptyCorners) crossCalls = some (crossTrees.faces, ⟨12, [-1, 0, 4, 2, 0, -1, 2, 8, 4, 2, -1, 10, 2, 8, 10, -1],
      [0, 2, 2, 6, 6, 8, 8, 8, 8, 10, 10, 12, 12], [0, 1, 0, 1, 2, 3, 0, 2, 1, 3, 2, 3], [1, 0, 3, 2, 1, 0, 2, 0, 3, 1, 3, 2]⟩) :=
  ⟨crossCalls_valid, by decide, by decide +kernel⟩

/-- The hypotheses of the first theorem are met by separate trees. -/
example : FaceConsistent 2 (separateTrees 2) ∧ CornerConsistent 2 emptyCorners ∧ CornersClosed (separateTrees 2) emptyCorners ∧
    Connected 2 (separateTrees 2) (0, 1) (0, 1) 0 ∧ Connected 2 (separateTrees 2) (1, 0) (1, 0) 0 :=
  ⟨separate_consistent 2, emptyCorners_consistent 2, separate_closed 2, by decide, by decide⟩

/-- Three squares around a vertex, without corners. -/
def bendConn : FaceConn := ⟨3, [0, 1, 0, 2, 0, 1, 1, 1, 2, 2, 0, 2], [0, 0, 2, 2, 1, 1, 2, 3, 0, 1, 3, 3]⟩

/-- **C87 (invalid).**  Three squares around a vertex are connected at two faces, and no corners are stored.  This
connectivity is valid, and the two remaining faces at the vertex are boundaries.  Joining them stores the corner of the
square in the middle twice in the list of one corner, and `p4est_connectivity_is_valid` rejects the result. -/
theorem C87_invalid : FaceConsistent 2 bendConn ∧ CornerConsistent bendConn.numTrees emptyCorners ∧
    Connected 2 bendConn (1, 3) (1, 3) 0 ∧ Connected 2 bendConn (2, 1) (2, 1) 0 ∧
    ∃ conn' cc', joinFaces bendConn emptyCorners 1 2 3 1 0 = some (conn', cc') ∧ cornersCheck conn' cc' = some false ∧
      ¬ CornerConsistent bendConn.numTrees cc' := by
  refine ⟨consistent_of rfl rfl (by decide +kernel), emptyCorners_consistent 3, by decide +kernel, by decide +kernel,
    ⟨3, [0, 1, 0, 2, 0, 1, 1, 2, 2, 1, 0, 2], [0, 0, 2, 2, 1, 1, 2, 1, 0, 3, 3, 3]⟩,
    ⟨4, [-1, -1, -1, 0, -1, -1, 0, 2, -1, 0, -1, 2], [0, 4, 4, 6, 6], [0, 1, 0, 2, 1, 2], [3, 2, 3, 1, 3, 3]⟩, by decide +kernel, by decide +kernel, ?_⟩
  intro h
  have := h.once 0 3 0 0 4 0 2 (by decide) (by decide) (by decide) rfl rfl rfl (by decide) (by decide) (by decide) (by decide) rfl rfl rfl rfl
  omega

end P4est
