import Verif.Lemmas.ConnMerge

/-! # Lemmas: corners are joined -/

namespace P4est

open Spec

/-- What is kept while corners are joined. -/
structure JInv (conn : FaceConn) (cc : CornerConn) : Prop where
  cons : CornerConsistent conn.numTrees cc
  table : CornerTable conn.numTrees cc
  num : ∀ x y k, TreeCorner conn.numTrees x → Crosses conn x y → HasNumber cc x k → Listed cc k y.1 y.2
  free : ∀ x y, TreeCorner conn.numTrees x → Crosses conn x y → (∀ k, ¬ HasNumber cc x k) →
    (∀ k, ¬ HasNumber cc y k) ∧ ∀ z, Crosses conn y z → z = x ∨ Crosses conn x z

/-- Two corners of trees are at the same point. -/
def AtP (conn : FaceConn) (cc : CornerConn) (x y : ℕ × ℕ) : Prop :=
  x = y ∨ (∃ k, HasNumber cc x k ∧ Listed cc k y.1 y.2) ∨ Crosses conn x y

section
variable {conn : FaceConn} {cc : CornerConn}

theorem JInv.at_num (h : JInv conn cc) {x : ℕ × ℕ} (hx : TreeCorner conn.numTrees x) {k : ℕ} (hk : HasNumber cc x k) {y : ℕ × ℕ} :
    AtP conn cc x y ↔ Listed cc k y.1 y.2 := by
  constructor
  · rintro (rfl | ⟨k', h1, h2⟩ | h1)
    · exact hk.listed h.cons hx
    · rw [hk.unique h1]; exact h2
    · exact h.num x y k hx h1 hk
  · intro hl
    exact Or.inr (Or.inl ⟨k, hk, hl⟩)

theorem AtP.of_free {x y : ℕ × ℕ} (hk : ∀ k, ¬ HasNumber cc x k) : AtP conn cc x y ↔ x = y ∨ Crosses conn x y := by
  constructor
  · rintro (h | ⟨k', h1, -⟩ | h1)
    · exact Or.inl h
    · exact absurd h1 (hk k')
    · exact Or.inr h1
  · rintro (h | h)
    · exact Or.inl h
    · exact Or.inr (Or.inr h)

theorem JInv.at_corner (hc : FaceConsistent 2 conn) (h : JInv conn cc) {x y : ℕ × ℕ} (hx : TreeCorner conn.numTrees x) (hxy : AtP conn cc x y) :
    TreeCorner conn.numTrees y := by
  rcases hxy with rfl | ⟨k, -, h2⟩ | h1
  · exact hx
  · exact h.cons.listed h2
  · exact crosses_corner hc hx h1

theorem JInv.at_symm (hc : FaceConsistent 2 conn) (h : JInv conn cc) {x y : ℕ × ℕ} (hx : TreeCorner conn.numTrees x) (hxy : AtP conn cc x y) :
    AtP conn cc y x := by
  rcases hxy with rfl | ⟨k, h1, h2⟩ | h1
  · exact Or.inl rfl
  · exact Or.inr (Or.inl ⟨k, h1.of_listed h.cons hx h2, h1.listed h.cons hx⟩)
  · exact Or.inr (Or.inr (crosses_symm hc hx h1))

theorem JInv.at_trans (h : JInv conn cc) {x y z : ℕ × ℕ} (hx : TreeCorner conn.numTrees x) (hy : TreeCorner conn.numTrees y)
    (hxy : AtP conn cc x y) (hyz : AtP conn cc y z) : AtP conn cc x z := by
  by_cases hk : ∃ k, HasNumber cc x k
  · obtain ⟨k, hk⟩ := hk
    rw [h.at_num hx hk] at hxy ⊢
    exact (h.at_num hy (hk.of_listed h.cons hx hxy)).mp hyz
  · simp only [not_exists] at hk
    rw [AtP.of_free hk] at hxy ⊢
    rcases hxy with rfl | hxy
    · exact (AtP.of_free hk).mp hyz
    · obtain ⟨g1, g2⟩ := h.free x y hx hxy hk
      rcases (AtP.of_free g1).mp hyz with rfl | hyz
      · exact Or.inr hxy
      · exact (g2 z hyz).imp Eq.symm id

/-- Storing a corner changes nothing about which corners are at the same point. -/
theorem store_inv (hc : FaceConsistent 2 conn) (h : JInv conn cc) {x : ℕ × ℕ} (hx : TreeCorner conn.numTrees x) (hk : ∀ k, ¬ HasNumber cc x k) :
    ∃ cc', storeCorner conn cc x.1 x.2 = some cc' ∧ JInv conn cc' ∧ (∃ k, HasNumber cc' x k) ∧
      (∀ y, TreeCorner conn.numTrees y → (∃ k, HasNumber cc y k) → ∃ k, HasNumber cc' y k) ∧
      ∀ y z, TreeCorner conn.numTrees y → (AtP conn cc' y z ↔ AtP conn cc y z) := by
  have hfree : ∀ y, (y = x ∨ Crosses conn x y) → ∀ k, ¬ HasNumber cc y k := by
    rintro y (rfl | hy)
    · exact hk
    · exact (h.free x y hx hy hk).1
  obtain ⟨cc', e1, e2, e3, e4, e5⟩ := storeCorner_spec hc h.cons h.table hx hfree
  have hin : ∀ y, TreeCorner conn.numTrees y → (y = x ∨ Crosses conn x y) → HasNumber cc' y cc.numCorners := by
    intro y hy hN
    rw [e4 y _ hy, if_pos hN]
  have hout : ∀ y k, TreeCorner conn.numTrees y → ¬ (y = x ∨ Crosses conn x y) → (HasNumber cc' y k ↔ HasNumber cc y k) := by
    intro y k hy hN
    rw [e4 y _ hy, if_neg hN]
  have hlast : ∀ y : ℕ × ℕ, Listed cc' cc.numCorners y.1 y.2 ↔ y = x ∨ Crosses conn x y := by
    intro y
    rw [e5 _ y le_rfl, if_pos rfl]
  have hlist : ∀ (y : ℕ × ℕ) k, k < cc.numCorners → (Listed cc' k y.1 y.2 ↔ Listed cc k y.1 y.2) := by
    intro y k hk
    rw [e5 _ y (by omega), if_neg (by omega)]
  -- the corners at the point of `x`
  have hclass : ∀ y z, TreeCorner conn.numTrees y → (y = x ∨ Crosses conn x y) → (AtP conn cc y z ↔ (z = x ∨ Crosses conn x z)) := by
    intro y z hy hN
    have hxy : AtP conn cc x y := by
      rw [AtP.of_free hk]
      exact hN.imp Eq.symm id
    have : AtP conn cc y z ↔ AtP conn cc x z := ⟨fun g => h.at_trans hx hy hxy g, fun g => h.at_trans hy hx (h.at_symm hc hx hxy) g⟩
    rw [this, AtP.of_free hk]
    exact or_congr eq_comm Iff.rfl
  have hsym : ∀ y, TreeCorner conn.numTrees y → Crosses conn y x → Crosses conn x y := fun y hy g => crosses_symm hc hy g
  refine ⟨cc', e1, ⟨e2, fun h0 => by omega, ?_, ?_⟩, ⟨_, hin x hx (Or.inl rfl)⟩, ?_, ?_⟩
  · intro y z k hy hyz hkn
    by_cases hN : y = x ∨ Crosses conn x y
    · rw [hkn.unique (hin y hy hN), hlast]
      exact (hclass y z hy hN).mp (Or.inr (Or.inr hyz))
    · have hkn' := (hout y k hy hN).mp hkn
      rw [hlist z k hkn'.1]
      exact h.num y z k hy hyz hkn'
  · intro y z hy hyz hkn
    by_cases hN : y = x ∨ Crosses conn x y
    · exact absurd (hin y hy hN) (hkn _)
    · have hkn' : ∀ k, ¬ HasNumber cc y k := fun k g => hkn k ((hout y k hy hN).mpr g)
      obtain ⟨g1, g2⟩ := h.free y z hy hyz hkn'
      have hz := crosses_corner hc hy hyz
      refine ⟨fun k g => ?_, g2⟩
      by_cases hNz : z = x ∨ Crosses conn x z
      · exact hN ((hclass z y hz hNz).mp (Or.inr (Or.inr (crosses_symm hc hy hyz))))
      · exact g1 k ((hout z k hz hNz).mp g)
  · rintro y hy ⟨k, g⟩
    by_cases hN : y = x ∨ Crosses conn x y
    · exact absurd g (hfree y hN k)
    · exact ⟨k, (hout y k hy hN).mpr g⟩
  · intro y z hy
    by_cases hN : y = x ∨ Crosses conn x y
    · rw [hclass y z hy hN]
      constructor
      · rintro (rfl | ⟨k, g1, g2⟩ | g)
        · exact hN
        · rw [g1.unique (hin y hy hN), hlast] at g2
          exact g2
        · exact (hclass y z hy hN).mp (Or.inr (Or.inr g))
      · intro g
        exact Or.inr (Or.inl ⟨_, hin y hy hN, (hlast z).mpr g⟩)
    · refine or_congr Iff.rfl (or_congr ?_ Iff.rfl)
      constructor
      · rintro ⟨k, g1, g2⟩
        have g1' := (hout y k hy hN).mp g1
        exact ⟨k, g1', (hlist z k g1'.1).mp g2⟩
      · rintro ⟨k, g1, g2⟩
        exact ⟨k, (hout y k hy hN).mpr g1, (hlist z k g1.1).mpr g2⟩

theorem ensure_inv (hc : FaceConsistent 2 conn) (h : JInv conn cc) {x : ℕ × ℕ} (hx : TreeCorner conn.numTrees x) :
    ∃ cc', ensureCorner conn cc x.1 x.2 = some cc' ∧ JInv conn cc' ∧ (∃ k, HasNumber cc' x k) ∧
      (∀ y, TreeCorner conn.numTrees y → (∃ k, HasNumber cc y k) → ∃ k, HasNumber cc' y k) ∧
      ∀ y z, TreeCorner conn.numTrees y → (AtP conn cc' y z ↔ AtP conn cc y z) := by
  unfold ensureCorner
  by_cases he : cc.treeToCorner = []
  · rw [if_pos he]
    exact store_inv hc h hx fun k g => by have := g.2; rw [he] at this; simp at this
  · rw [if_neg he]
    have hlen : cc.treeToCorner.length = 4 * conn.numTrees := by
      by_cases h0 : cc.numCorners = 0
      · exact ((h.table h0).resolve_left he).1
      · exact h.cons.arrays.entries h0
    obtain ⟨hx1, hx2⟩ := id hx
    have hv := List.getElem?_eq_getElem (show 4 * x.1 + x.2 < cc.treeToCorner.length by omega)
    set v := cc.treeToCorner[4 * x.1 + x.2]'(by omega) with hvd
    rw [hv]
    simp only [Option.bind_eq_bind, Option.bind_some]
    split
    · rename_i hneg
      refine store_inv hc h hx fun k g => ?_
      have := g.2
      rw [hv, Option.some.injEq] at this
      omega
    · rename_i hneg
      have hnum : ∃ k, HasNumber cc x k := by
        by_cases h0 : cc.numCorners = 0
        · have := ((h.table h0).resolve_left he).2 v (List.mem_of_getElem? hv)
          omega
        · rcases h.cons.range h0 x.1 x.2 v hx1 hx2 hv with g | ⟨k, g1, g2, -⟩
          · omega
          · exact ⟨k, g2, by rw [hv, g1]⟩
      exact ⟨cc, rfl, h, hnum, fun y _ g => g, fun y z _ => Iff.rfl⟩

/-- Merging the lists of two corners identifies their points. -/
theorem merge_inv (h : JInv conn cc) {x0 x1 : ℕ × ℕ} {c0 c1 : ℕ} (h01 : c0 < c1)
    (hx0 : TreeCorner conn.numTrees x0) (hx1 : TreeCorner conn.numTrees x1) (hn0 : HasNumber cc x0 c0) (hn1 : HasNumber cc x1 c1) :
    ∃ cc', mergeCorners cc c0 c1 = some cc' ∧ JInv conn cc' ∧
      (∀ y, TreeCorner conn.numTrees y → ((∃ k, HasNumber cc' y k) ↔ ∃ k, HasNumber cc y k)) ∧
      ∀ y z, TreeCorner conn.numTrees y → (AtP conn cc' y z ↔ AtP conn cc y z ∨ (AtP conn cc y x0 ∧ AtP conn cc x1 z) ∨ (AtP conn cc y x1 ∧ AtP conn cc x0 z)) := by
  obtain ⟨cc', e1, e2, e3, e4, e5⟩ := mergeCorners_spec h.cons h01 hx0 hx1 hn0 hn1
  have n0 : ∀ y, TreeCorner conn.numTrees y → (HasNumber cc y c0 ∨ HasNumber cc y c1) → HasNumber cc' y c0 := by
    intro y hy g
    rw [e4 y _ hy, if_pos rfl]
    exact g
  have nk : ∀ y k, TreeCorner conn.numTrees y → k ≠ c0 → k ≠ c1 → (HasNumber cc' y k ↔ HasNumber cc y k) := by
    intro y k hy g0 g1
    rw [e4 y _ hy, if_neg g0, if_neg g1]
  have l0 : ∀ y : ℕ × ℕ, Listed cc' c0 y.1 y.2 ↔ Listed cc c0 y.1 y.2 ∨ Listed cc c1 y.1 y.2 := by
    intro y
    rw [e5, if_pos rfl]
  have lk : ∀ (y : ℕ × ℕ) k, k ≠ c0 → k ≠ c1 → (Listed cc' k y.1 y.2 ↔ Listed cc k y.1 y.2) := by
    intro y k g0 g1
    rw [e5, if_neg g0, if_neg g1]
  have hnum : ∀ y, TreeCorner conn.numTrees y → ((∃ k, HasNumber cc' y k) ↔ ∃ k, HasNumber cc y k) := by
    intro y hy
    constructor
    · rintro ⟨k, g⟩
      rw [e4 y _ hy] at g
      split at g
      · exact g.elim (fun g => ⟨_, g⟩) (fun g => ⟨_, g⟩)
      · split at g
        · exact g.elim
        · exact ⟨k, g⟩
    · rintro ⟨k, g⟩
      by_cases g0 : k = c0
      · subst g0; exact ⟨k, n0 y hy (Or.inl g)⟩
      · by_cases g1 : k = c1
        · subst g1; exact ⟨c0, n0 y hy (Or.inr g)⟩
        · exact ⟨k, (nk y k hy g0 g1).mpr g⟩
  have hinv : JInv conn cc' := by
    refine ⟨e2, fun h0 => by have := hn0.1; omega, ?_, ?_⟩
    · intro y z k hy hyz hk
      obtain ⟨k', hk'⟩ := (hnum y hy).mp ⟨k, hk⟩
      have hl := h.num y z k' hy hyz hk'
      by_cases g0 : k' = c0
      · subst g0
        rw [hk.unique (n0 y hy (Or.inl hk')), l0]
        exact Or.inl hl
      · by_cases g1 : k' = c1
        · subst g1
          rw [hk.unique (n0 y hy (Or.inr hk')), l0]
          exact Or.inr hl
        · rw [hk.unique ((nk y k' hy g0 g1).mpr hk'), lk z k' g0 g1]
          exact hl
    · intro y z hy hyz hk
      have hk' : ∀ k, ¬ HasNumber cc y k := fun k g => by
        obtain ⟨k', g'⟩ := (hnum y hy).mpr ⟨k, g⟩
        exact hk k' g'
      obtain ⟨g1, g2⟩ := h.free y z hy hyz hk'
      refine ⟨fun k g => ?_, g2⟩
      by_cases hz : TreeCorner conn.numTrees z
      · obtain ⟨k', g'⟩ := (hnum z hz).mp ⟨k, g⟩
        exact g1 k' g'
      · -- entries of corners of trees only
        exfalso
        apply hz
        refine ⟨?_, ?_⟩
        · have := (List.getElem?_eq_some_iff.mp g.2).1
          rw [e2.arrays.entries (by have := g.1; omega)] at this
          omega
        · obtain ⟨i, nf, o, hnf, ho, -, -, -, q⟩ := hyz
          exact (neighborCorner_lt ⟨y.2, hy.2⟩ i ⟨nf, hnf⟩ ⟨o, ho⟩ z.2 q).1
  refine ⟨cc', e1, hinv, hnum, fun y z hy => ?_⟩
  have a0 : ∀ z, AtP conn cc x0 z ↔ Listed cc c0 z.1 z.2 := fun z => h.at_num hx0 hn0
  have a1 : ∀ z, AtP conn cc x1 z ↔ Listed cc c1 z.1 z.2 := fun z => h.at_num hx1 hn1
  by_cases hk : ∃ k, HasNumber cc y k
  · obtain ⟨k, hk⟩ := hk
    rw [h.at_num hy hk, h.at_num hy hk, h.at_num hy hk, a0, a1]
    by_cases g0 : k = c0
    · subst g0
      rw [hinv.at_num hy (n0 y hy (Or.inl hk)), l0]
      have b0 := hn0.listed h.cons hx0
      constructor
      · rintro (g | g)
        · exact Or.inl g
        · exact Or.inr (Or.inl ⟨b0, g⟩)
      · rintro (g | ⟨-, g⟩ | ⟨-, g⟩)
        · exact Or.inl g
        · exact Or.inr g
        · exact Or.inl g
    · by_cases g1 : k = c1
      · subst g1
        rw [hinv.at_num hy (n0 y hy (Or.inr hk)), l0]
        have b1 := hn1.listed h.cons hx1
        constructor
        · rintro (g | g)
          · exact Or.inr (Or.inr ⟨b1, g⟩)
          · exact Or.inl g
        · rintro (g | ⟨-, g⟩ | ⟨-, g⟩)
          · exact Or.inr g
          · exact Or.inr g
          · exact Or.inl g
      · rw [hinv.at_num hy ((nk y k hy g0 g1).mpr hk), lk z k g0 g1]
        constructor
        · exact Or.inl
        · rintro (g | ⟨g, -⟩ | ⟨g, -⟩)
          · exact g
          · exact absurd ((hk.of_listed h.cons hy g).unique hn0) g0
          · exact absurd ((hk.of_listed h.cons hy g).unique hn1) g1
  · have hk' : ∀ k, ¬ HasNumber cc' y k := fun k g => hk ((hnum y hy).mp ⟨k, g⟩)
    simp only [not_exists] at hk
    rw [AtP.of_free hk', AtP.of_free hk, AtP.of_free hk, AtP.of_free hk]
    constructor
    · exact Or.inl
    · rintro (g | ⟨g, -⟩ | ⟨g, -⟩)
      · exact g
      · rcases g with rfl | g
        · exact absurd hn0 (hk _)
        · exact absurd hn0 ((h.free _ _ hy g hk).1 _)
      · rcases g with rfl | g
        · exact absurd hn1 (hk _)
        · exact absurd hn1 ((h.free _ _ hy g hk).1 _)

theorem index_natCast (k : ℕ) : index (k : ℤ) = some k := by unfold index; simp

/-- Joining two corners identifies their points. -/
theorem join_inv (hc : FaceConsistent 2 conn) (h : JInv conn cc) {l r : ℕ × ℕ} (hl : TreeCorner conn.numTrees l) (hr : TreeCorner conn.numTrees r) :
    ∃ cc', joinCorners conn cc l.1 r.1 l.2 r.2 = some cc' ∧ JInv conn cc' ∧ (∃ k, HasNumber cc' l k) ∧ (∃ k, HasNumber cc' r k) ∧
      (∀ y, TreeCorner conn.numTrees y → (∃ k, HasNumber cc y k) → ∃ k, HasNumber cc' y k) ∧
      ∀ y z, TreeCorner conn.numTrees y → (AtP conn cc' y z ↔ AtP conn cc y z ∨ (AtP conn cc y l ∧ AtP conn cc r z) ∨ (AtP conn cc y r ∧ AtP conn cc l z)) := by
  obtain ⟨cc1, a1, a2, a3, a4, a5⟩ := ensure_inv hc h hl
  obtain ⟨cc2, b1, b2, b3, b4, b5⟩ := ensure_inv hc a2 hr
  have heq : ∀ y z, TreeCorner conn.numTrees y → (AtP conn cc2 y z ↔ AtP conn cc y z) := fun y z hy => (b5 y z hy).trans (a5 y z hy)
  obtain ⟨c0, g0⟩ := b4 l hl a3
  obtain ⟨c1, g1⟩ := b3
  unfold joinCorners
  simp only [a1, b1, g0.2, g1.2, Option.bind_eq_bind, Option.bind_some, index_natCast]
  have hmono : ∀ y, TreeCorner conn.numTrees y → (∃ k, HasNumber cc y k) → ∃ k, HasNumber cc2 y k := fun y hy g => b4 y hy (a4 y hy g)
  by_cases he : c0 = c1
  · rw [if_pos he]
    refine ⟨cc2, rfl, b2, ⟨_, g0⟩, ⟨_, g1⟩, hmono, fun y z hy => ?_⟩
    rw [heq y z hy]
    have hlr : AtP conn cc l r := by
      rw [← heq l r hl, b2.at_num hl g0, he]
      exact g1.listed b2.cons hr
    constructor
    · exact Or.inl
    · rintro (g | ⟨q1, q2⟩ | ⟨q1, q2⟩)
      · exact g
      · exact h.at_trans hy hr (h.at_trans hy hl q1 hlr) q2
      · exact h.at_trans hy hl (h.at_trans hy hr q1 (h.at_symm hc hl hlr)) q2
  · rw [if_neg he]
    by_cases hlt : c1 < c0
    · rw [if_pos hlt]
      obtain ⟨cc3, d1, d2, d3, d4⟩ := merge_inv b2 hlt hr hl g1 g0
      refine ⟨cc3, d1, d2, (d3 l hl).mpr ⟨_, g0⟩, (d3 r hr).mpr ⟨_, g1⟩, fun y hy g => (d3 y hy).mpr (hmono y hy g), fun y z hy => ?_⟩
      rw [d4 y z hy, heq y z hy, heq y r hy, heq y l hy, heq l z hl, heq r z hr]
      tauto
    · rw [if_neg hlt]
      obtain ⟨cc3, d1, d2, d3, d4⟩ := merge_inv b2 (show c0 < c1 by omega) hl hr g0 g1
      refine ⟨cc3, d1, d2, (d3 l hl).mpr ⟨_, g0⟩, (d3 r hr).mpr ⟨_, g1⟩, fun y hy g => (d3 y hy).mpr (hmono y hy g), fun y z hy => ?_⟩
      rw [d4 y z hy, heq y z hy, heq y r hy, heq y l hy, heq l z hl, heq r z hr]

end

end P4est
