import Verif.Lemmas.GhostTargets
import Verif.Spec.GhostCorner

/-! # Leaves with a common point, in two dimensions -/

namespace P4est
open Spec

/-- The face at corner `c` across axis `i`. -/
def faceOf (c : ℕ) (i : Fin 2) : ℕ := 2 * i + if c.testBit i then 1 else 0

theorem faceOf_lt (c : ℕ) (i : Fin 2) : faceOf c i < 4 := by
  unfold faceOf; split <;> omega

theorem faceOf_div (c : ℕ) (i : Fin 2) : faceOf c i / 2 = i := by
  unfold faceOf; split <;> omega

theorem faceOf_mod (c : ℕ) (i : Fin 2) : faceOf c i % 2 = 1 ↔ c.testBit i = true := by
  unfold faceOf
  split
  · rename_i h; simp only [h, iff_true]; omega
  · rename_i h; simp only [h]; simp only [Bool.false_eq_true, iff_false]; omega

theorem entry_faceOf {c : ℕ} (hc : c < 4) (i : Fin 2) : entry cornerFacesTable c i = some (faceOf c i) := by
  revert i
  interval_cases c <;> decide

/-- The cell of `q` at its corner `c`. -/
def endCell (q : Quad 2) (c : ℕ) : Fin 2 → ℤ := fun i => q.c i + if c.testBit i then side q - 1 else 0

/-- The corner point. -/
def endPoint (q : Quad 2) (c : ℕ) : Fin 2 → ℤ := fun i => q.c i + if c.testBit i then side q else 0

theorem endCell_mem (q : Quad 2) (c : ℕ) : endCell q c ∈ Cells q := by
  intro i
  have := side_pos q
  unfold endCell
  try dsimp only
  split <;> omega

theorem endCell_layer (q : Quad 2) (c : ℕ) (i : Fin 2) : Layer (faceOf c i) q (endCell q c) := by
  refine ⟨endCell_mem q c, fun j hj => ?_⟩
  rw [faceOf_div] at hj
  obtain rfl : j = i := Fin.ext hj
  simp only [faceOf_mod]
  unfold endCell
  try dsimp only
  split <;> omega

theorem endCell_of_layer {q : Quad 2} {c : ℕ} {a : Fin 2 → ℤ} (h : ∀ i, Layer (faceOf c i) q a) : a = endCell q c := by
  funext i
  have h1 := (h i).2 i (faceOf_div c i).symm
  simp only [faceOf_mod] at h1
  unfold endCell
  try dsimp only
  split at h1 <;> rename_i hh
  · rw [if_pos hh]; omega
  · rw [if_neg hh]; omega

theorem nbCell_faceOf (c : ℕ) (i j : Fin 2) (a : Fin 2 → ℤ) :
    nbCell (faceOf c i) a j = if j = i then (if c.testBit i then a j + 1 else a j - 1) else a j := by
  rw [nbCell_apply, faceOf_div]
  simp only [faceOf_mod, Fin.ext_iff]

theorem neighbor_faceOf (q : Quad 2) (c : ℕ) (i j : Fin 2) :
    (faceNeighbor q (faceOf c i)).c j = if j = i then (if c.testBit i then q.c j + side q else q.c j - side q) else q.c j := by
  rw [neighbor_c, faceOf_div]
  simp only [faceOf_mod, Fin.ext_iff]

theorem exists_corner (p : Fin 2 → Prop) : ∃ c, c < 4 ∧ ∀ i : Fin 2, c.testBit i = true ↔ p i := by
  classical
  by_cases h0 : p 0 <;> by_cases h1 : p 1
  · exact ⟨3, by norm_num, fun i => by fin_cases i <;> simp [h0, h1] <;> decide⟩
  · exact ⟨1, by norm_num, fun i => by fin_cases i <;> simp [h0, h1] <;> decide⟩
  · exact ⟨2, by norm_num, fun i => by fin_cases i <;> simp [h0, h1] <;> decide⟩
  · exact ⟨0, by norm_num, fun i => by fin_cases i <;> simp [h0, h1]⟩

theorem fin2_ne {i j k : Fin 2} (h : i ≠ j) (hk : k ≠ j) : k = i := by omega

/-- A cell of a box at a point. -/
theorem cell_at {q : Quad 2} {v : Fin 2 → ℤ} (h : v ∈ Box q) :
    ∃ a ∈ Cells q, v ∈ UnitBox a ∧ ∀ i, v i = q.c i + side q ∨ a i = v i := by
  have hs := side_pos q
  refine ⟨fun i => if v i < q.c i + side q then v i else v i - 1, fun i => ?_, fun i => ?_, fun i => ?_⟩
  · have := h i; dsimp only; split <;> omega
  · have := h i; dsimp only; split <;> omega
  · have := h i
    dsimp only
    by_cases c : v i < q.c i + side q
    · rw [if_pos c]; exact Or.inr rfl
    · left; omega

theorem cell_atFace {q : Quad 2} (hq : Valid q) {f : ℕ} {v : Fin 2 → ℤ} (hv : v ∈ Box q) (hf : OnFace f v) :
    ∃ a ∈ Cells q, v ∈ UnitBox a ∧ AtFace f a := by
  obtain ⟨a, h1, h2, h3⟩ := cell_at hv
  refine ⟨a, h1, h2, fun i hi => ?_⟩
  have g1 := hf.2 i hi
  have g2 := valid_cells_inTree hq h1 i
  have g3 := h2 i
  have g4 := h3 i
  have g5 := hq.2.2 i
  have g6 := side_pos q
  split at g1
  · rename_i c; rw [if_pos c]; omega
  · rename_i c; rw [if_neg c]; omega

theorem mem_box_of_unit {q : Quad 2} {a v : Fin 2 → ℤ} (ha : a ∈ Cells q) (hv : v ∈ UnitBox a) : v ∈ Box q :=
  unit_subset.mp ha hv

/-- Two leaves have a common point at corner `c` of the first, reached first across axis `j` within the tree, then
across axis `i`. -/
def Diag (conn : FaceConn) (x y : ℕ × Quad 2) (c : ℕ) (i j : Fin 2) : Prop :=
  i ≠ j ∧ InTree (nbCell (faceOf c j) (endCell x.2 c)) ∧
    ∃ b ∈ Cells y.2, Beside conn (faceOf c i) (x.1, nbCell (faceOf c j) (endCell x.2 c)) (y.1, b)

/-- For a connection seen from the first side, the cell before a cell at the second face. -/
theorem beside_before {conn : FaceConn} (hconn : FaceConsistent 2 conn) {t t' : ℕ} (ht : t < conn.numTrees)
    {f nf o : ℕ} {T : (Fin 2 → ℤ) → Fin 2 → ℤ} (hf : f < 4) (hnf : nf < 4) (e1 : conn.treeToTree[4 * t + f]? = some t')
    (e2 : conn.treeToFace[4 * t + f]? = some (nf + 4 * o)) (hne : t' ≠ t ∨ nf ≠ f) (hT : Glues f nf o T)
    {y : Quad 2} (hy : Valid y) {b : Fin 2 → ℤ} (hb : b ∈ Cells y) (hbf : AtFace nf b) :
    ∃ a, Beside conn f (t, a) (t', b) ∧ AtFace f a ∧ T '' Facet f a = Facet nf b := by
  have hd : (2 : ℕ) = 2 ∨ (2 : ℕ) = 3 := Or.inl rfl
  obtain ⟨b1, b2⟩ := hconn.back t f t' nf o ht hf hnf e1 e2
  obtain ⟨ht', -⟩ := hconn.range t f _ _ ht hf e1 e2
  have ho : o < 2 ^ (2 - 1) := by
    have := (hconn.range t f _ _ ht hf e1 e2).2
    omega
  obtain ⟨ft, he, h⟩ := expand_good hd hf hnf ho
  obtain ⟨ft', he', h'⟩ := expand_good hd hnf hf ho
  have hi := expand_inverse hd hf hnf ho he he'
  have hi' := expand_inverse hd hnf hf ho he' he
  have hbt := valid_cells_inTree hy hb
  obtain ⟨res, -, r2, r3⟩ := face_layer hd conn hconn y hy t' nf ht' hnf
  cases res with
  | none =>
    exfalso
    obtain ⟨-, k1, k2⟩ := r2 rfl
    rw [b1, Option.some.injEq] at k1
    rw [b2, Option.some.injEq] at k2
    have := congrArg (· % 4) k2
    try dsimp only at this
    rcases hne with c | c
    · exact c k1.symm
    · omega
  | some z =>
    obtain ⟨t'', r, code⟩ := z
    obtain ⟨-, -, -, -, -, r4, -⟩ := r3 _ _ _ rfl
    obtain ⟨⟨zt, a⟩, k1, k2, ⟨k3, k4⟩ | ⟨f', o', T', k4, k5, k6, k7, k8, k9, k10, k11⟩⟩ := r4 b (layer_atFace hy hb hbf)
    · exfalso
      dsimp only at k2 k4
      have h1 := k2 ⟨nf / 2, by omega⟩
      have h2 := hbf ⟨nf / 2, by omega⟩ rfl
      rw [k4, nbCell_apply, if_pos rfl] at h1
      split at h1 <;> split at h2 <;> omega
    · dsimp only at k2 k5 k6 k7 k8 k9 k10 k11
      have k5' : zt = t := by rw [show 2 * 2 = 4 from rfl, b1, Option.some.injEq] at k5; exact k5.symm
      have k6' : f + 4 * o = f' + 4 * o' := by
        rw [show 2 * 2 = 4 from rfl] at k6
        rw [b2, Option.some.injEq] at k6
        exact k6
      have ef : f' = f := by omega
      have eo : o' = o := by omega
      subst k5'
      subst ef
      subst eo
      rw [k8.eq_image hd hnf k4 ho he', h'.facets h hi k2 hbf k10] at k11
      have hF : faceImage ft 0 '' Facet f' a = Facet nf b := by
        rw [h.facets h' hi' hbt k10 hbf, k11, h'.nb, hi'.image h' h]
      have hTe := hT.eq_image hd hf hnf ho he
      rw [← hTe] at hF
      exact ⟨a, ⟨k2, hbt, Or.inr ⟨nf, o', T, hnf, e1, e2, hne, hT, k10, hbf, hF⟩⟩, k10, hF⟩

theorem facet_point {f : ℕ} {a : Fin 2 → ℤ} (ha : InTree a) (hf : AtFace f a) :
    ∃ u, u ∈ Facet f a := by
  refine ⟨fun i => if (i : ℕ) = f / 2 then (if f % 2 = 1 then 2 ^ 30 else 0) else a i, fun i => ?_, fun i => ?_, fun i hi => ?_⟩
  · dsimp only
    split
    · rename_i hi; have := hf i hi
      split at this <;> split <;> omega
    · omega
  · have := ha i
    dsimp only
    split
    · split <;> omega
    · omega
  · dsimp only; rw [if_pos hi]

theorem glue_inj {f nf o : ℕ} {T : (Fin 2 → ℤ) → Fin 2 → ℤ} (hf : f < 4) (hnf : nf < 4) (ho : o < 2) (hT : Glues f nf o T) :
    Function.Injective T := by
  have hd : (2 : ℕ) = 2 ∨ (2 : ℕ) = 3 := Or.inl rfl
  obtain ⟨ft, he, h⟩ := expand_good hd hf hnf (show o < 2 ^ (2 - 1) from ho)
  obtain ⟨ft', he', h'⟩ := expand_good hd hnf hf (show o < 2 ^ (2 - 1) from ho)
  have hi := expand_inverse hd hf hnf (show o < 2 ^ (2 - 1) from ho) he he'
  rw [hT.eq_image hd hf hnf ho he]
  intro u v huv
  have := hi.image h h' 0 u
  rw [huv, hi.image h h'] at this
  exact this.symm

/-- Leaves with a common part of a face have a common point. -/
theorem meet_of_share {conn : FaceConn} {x y : ℕ × Quad 2} (h : ShareFace conn x y) : MeetFace conn x y := by
  obtain ⟨a, ha, b, hb, h1, h2, ⟨e, i, hi, h3⟩ | ⟨f, nf, o, T, hf, hnf, e1, e2, hne, hT, haf, hbf, hF⟩⟩ := h
  · refine Or.inl ⟨e, fun k => max (a k) (b k), mem_box_of_unit ha fun k => ?_, mem_box_of_unit hb fun k => ?_⟩
    all_goals
      dsimp only at hi h3 ⊢
      by_cases hk : k = i
      · subst hk; omega
      · have := hi k hk; omega
  · dsimp only at h1 haf hF
    obtain ⟨u, hu⟩ := facet_point h1 haf
    have hTu : T u ∈ Facet nf b := by rw [← hF]; exact ⟨u, hu, rfl⟩
    exact Or.inr ⟨f, nf, o, T, u, hf, hnf, e1, e2, hne, hT, hu.2, mem_box_of_unit ha hu.1, mem_box_of_unit hb hTu.1⟩

/-- So do leaves at a corner. -/
theorem meet_of_diag {conn : FaceConn} {x y : ℕ × Quad 2} (hx : Valid x.2) {c : ℕ} {i j : Fin 2} (h : Diag conn x y c i j) :
    MeetFace conn x y := by
  obtain ⟨hij, ht, b, hb, h1, h2, ⟨e, h3⟩ | ⟨nf, o, T, hnf, e1, e2, hne, hT, haf, hbf, hF⟩⟩ := h
  all_goals
    have hs := side_pos x.2
    have hbox : endPoint x.2 c ∈ Box x.2 := by
      intro k; unfold endPoint; (try dsimp only); split <;> omega
    have hu : endPoint x.2 c ∈ UnitBox (nbCell (faceOf c j) (endCell x.2 c)) := by
      intro k
      rw [nbCell_faceOf]
      unfold endPoint endCell
      try dsimp only
      by_cases hk : k = j
      · subst hk; rw [if_pos rfl]; split <;> omega
      · rw [if_neg hk]; split <;> omega
  · refine Or.inl ⟨e, endPoint x.2 c, hbox, mem_box_of_unit hb ?_⟩
    dsimp only at h3
    intro k
    rw [h3, nbCell_faceOf, nbCell_faceOf]
    unfold endPoint endCell
    try dsimp only
    by_cases hk : k = i
    · subst hk; rw [if_pos rfl, if_neg hij]; split <;> omega
    · obtain rfl : k = j := fin2_ne (Ne.symm hij) hk
      rw [if_neg hk, if_pos rfl]; split <;> omega
  · dsimp only at haf hF
    have hon : OnFace (faceOf c i) (endPoint x.2 c) := by
      refine ⟨fun k => ?_, fun k hk => ?_⟩
      · have g1 := hx.2.2 k; have g2 := valid_le hx k
        unfold endPoint; (try dsimp only); split <;> omega
      · have := haf k hk
        rw [faceOf_div] at hk
        obtain rfl : k = i := Fin.ext hk
        rw [nbCell_faceOf, if_neg hij] at this
        simp only [faceOf_mod] at this ⊢
        unfold endCell at this
        unfold endPoint
        try dsimp only at this ⊢
        split at this <;> rename_i hc
        · simp only [if_pos hc] at this ⊢; omega
        · simp only [if_neg hc] at this ⊢; omega
    have hTu : T (endPoint x.2 c) ∈ Facet nf b := by rw [← hF]; exact ⟨_, ⟨hu, hon⟩, rfl⟩
    exact Or.inr ⟨faceOf c i, nf, o, T, _, faceOf_lt c i, hnf, e1, e2, hne, hT, hon, hbox, mem_box_of_unit hb hTu.1⟩

/-- A neighbor cell that leaves the leaf: the cell is at that face of the leaf. -/
theorem layer_of_leaves {q : Quad 2} {c : ℕ} {j : Fin 2} {a : Fin 2 → ℤ} (ha : a ∈ Cells q)
    (h : nbCell (faceOf c j) a ∉ Cells q) : Layer (faceOf c j) q a := by
  refine ⟨ha, fun k hk => ?_⟩
  rw [faceOf_div] at hk
  obtain rfl : k = j := Fin.ext hk
  by_contra hc
  apply h
  intro l
  have h1 := ha l
  rw [nbCell_faceOf]
  simp only [faceOf_mod] at hc
  by_cases hl : l = k
  · subst hl
    rw [if_pos rfl]
    split at hc <;> rename_i hb
    · rw [if_pos hb]; omega
    · rw [if_neg hb]; omega
  · rw [if_neg hl]; exact h1

/-- Two leaves without common cells that have a common point share a part of a face, or they meet at a corner. -/
theorem meet_cases {conn : FaceConn} (hconn : FaceConsistent 2 conn) {x y : ℕ × Quad 2} (hxt : x.1 < conn.numTrees)
    (hx : Valid x.2) (hy : Valid y.2) (hdis : x.1 = y.1 → ∀ b, b ∈ Cells x.2 → b ∉ Cells y.2) (h : MeetFace conn x y) :
    ShareFace conn x y ∨ ∃ c < 4, ∃ i j, Diag conn x y c i j := by
  by_cases hsh : ShareFace conn x y
  · exact Or.inl hsh
  right
  rcases h with ⟨e, v, hv1, hv2⟩ | ⟨f, nf, o, T, u, hf, hnf, e1, e2, hne, hT, hu, hux, huy⟩
  · obtain ⟨a, ha, ha', -⟩ := cell_at hv1
    obtain ⟨b, hb, hb', -⟩ := cell_at hv2
    have hat := valid_cells_inTree hx ha
    have hbt := valid_cells_inTree hy hb
    have hd1 : ∀ i, b i = a i ∨ b i = a i + 1 ∨ b i = a i - 1 := by
      intro i; have := ha' i; have := hb' i; omega
    -- both coordinates differ
    have hboth : ∀ i, b i ≠ a i := by
      intro i hi
      by_cases hall : b = a
      · exact hdis e a ha (hall ▸ hb)
      · have : ∃ j, b j ≠ a j := by
          by_contra hc; push Not at hc; exact hall (funext hc)
        obtain ⟨j, hj⟩ := this
        refine hsh ⟨a, ha, b, hb, hat, hbt, Or.inl ⟨e, j, fun k hk => ?_, ?_⟩⟩
        · have : k = i := by
            have : i ≠ j := by rintro rfl; exact hj hi
            exact fin2_ne this hk
          rw [this]; exact hi
        · rcases hd1 j with c | c
          · exact absurd c hj
          · exact c
    obtain ⟨c, hc, hbit⟩ := exists_corner fun i => a i < b i
    have hnb : ∀ i, nbCell (faceOf c i) a i = b i := by
      intro i
      rw [nbCell_faceOf, if_pos rfl]
      have h1 := hd1 i; have h2 := hboth i
      by_cases hlt : a i < b i
      · rw [if_pos ((hbit i).mpr hlt)]; omega
      · rw [if_neg fun k => hlt ((hbit i).mp k)]; omega
    have htree : ∀ j, InTree (nbCell (faceOf c j) a) := by
      intro j k
      by_cases hk : k = j
      · rw [hk, hnb]; exact hbt j
      · rw [nbCell_faceOf, if_neg hk]; exact hat k
    have hstep : ∀ i j, i ≠ j → b = nbCell (faceOf c i) (nbCell (faceOf c j) a) := by
      intro i j hij
      funext k
      by_cases hk : k = i
      · subst hk
        rw [nbCell_faceOf, if_pos rfl, nbCell_faceOf, if_neg hij, ← hnb k, nbCell_faceOf, if_pos rfl]
      · obtain rfl : k = j := fin2_ne (Ne.symm hij) hk
        rw [nbCell_faceOf, if_neg hk, hnb]
    have hbes : ∀ i j, i ≠ j → Beside conn (faceOf c i) (x.1, nbCell (faceOf c j) a) (y.1, b) := fun i j hij =>
      ⟨htree j, hbt, Or.inl ⟨e, hstep i j hij⟩⟩
    have hlay : ∀ j, Layer (faceOf c j) x.2 a := by
      intro j
      apply layer_of_leaves ha
      intro hm
      have hij : (1 - j) ≠ j := by fin_cases j <;> decide
      exact hsh ⟨_, hm, b, hb, (sharesFacet_iff _ _ _).mpr ⟨_, faceOf_lt c (1 - j), hbes _ _ hij⟩⟩
    have hend := endCell_of_layer hlay
    refine ⟨c, hc, 0, 1, by decide, ?_, b, hb, ?_⟩
    · rw [← hend]; exact htree 1
    · rw [← hend]; exact hbes 0 1 (by decide)
  · have ho : o < 2 := by
      have := (hconn.range x.1 f _ _ hxt hf e1 e2).2
      omega
    obtain ⟨a, ha, ha', haf⟩ := cell_atFace hx hux hu
    obtain ⟨b, hb, hb', hbf⟩ := cell_atFace hy huy ((hT.face u).mp hu)
    have hat := valid_cells_inTree hx ha
    obtain ⟨a', hbes, haf', hF⟩ := beside_before hconn hxt hf hnf e1 e2 hne hT hy hb hbf
    have hua : u ∈ Facet f a' := by
      have : T u ∈ Facet nf b := ⟨hb', (hT.face u).mp hu⟩
      rw [← hF] at this
      obtain ⟨w, hw, hwu⟩ := this
      rwa [glue_inj hf hnf ho hT hwu] at hw
    have hnm : a' ∉ Cells x.2 := fun hm => hsh ⟨a', hm, b, hb, (sharesFacet_iff _ _ _).mpr ⟨f, hf, hbes⟩⟩
    -- the cells differ in the axis along the face
    have hlt : f / 2 < 2 := by omega
    set i : Fin 2 := ⟨f / 2, hlt⟩ with hi
    have hcases : ∃ j : Fin 2, j ≠ i := ⟨1 - i, by have := i.2; intro h; have := congrArg Fin.val h; revert this; generalize i = k; fin_cases k <;> decide⟩
    obtain ⟨j, hji⟩ := hcases
    have hai : a' i = a i := by rw [haf' i rfl, haf i rfl]
    have haj : a' j ≠ a j := by
      intro hc
      apply hnm
      have : a' = a := funext fun k => by
        by_cases hk : k = i
        · rw [hk]; exact hai
        · rw [fin2_ne hji hk]; exact hc
      rw [this]; exact ha
    obtain ⟨c, hc, hbit⟩ := exists_corner fun k => if k = i then f % 2 = 1 else a k < a' k
    have hfi : faceOf c i = f := by
      unfold faceOf
      have := hbit i
      rw [if_pos rfl] at this
      by_cases k : f % 2 = 1
      · rw [if_pos (this.mpr k)]; show 2 * (f / 2) + 1 = f; omega
      · rw [if_neg fun h => k (this.mp h)]; show 2 * (f / 2) + 0 = f; omega
    have hanb : a' = nbCell (faceOf c j) a := by
      funext k
      rw [nbCell_faceOf]
      by_cases hk : k = j
      · subst hk
        rw [if_pos rfl]
        have h1 := ha' k; have h2 := hua.1 k
        have h3 := hbit k
        rw [if_neg hji] at h3
        by_cases hl : a k < a' k
        · rw [if_pos (h3.mpr hl)]; omega
        · rw [if_neg fun h => hl (h3.mp h)]; omega
      · rw [if_neg hk, fin2_ne (Ne.symm hji) hk]; exact hai
    have hlay : ∀ k, Layer (faceOf c k) x.2 a := by
      intro k
      by_cases hk : k = i
      · rw [hk, hfi]; exact layer_atFace hx ha haf
      · rw [fin2_ne hji hk]
        apply layer_of_leaves ha
        rw [← hanb]; exact hnm
    have hend := endCell_of_layer hlay
    refine ⟨c, hc, i, j, Ne.symm hji, ?_, b, hb, ?_⟩
    · rw [← hend, ← hanb]; exact hbes.1
    · rw [← hend, ← hanb, hfi]; exact hbes

/-- The relation is symmetric. -/
theorem meetFace_symm {conn : FaceConn} (hconn : FaceConsistent 2 conn) {x y : ℕ × Quad 2} (hxt : x.1 < conn.numTrees)
    (h : MeetFace conn x y) : MeetFace conn y x := by
  have hd : (2 : ℕ) = 2 ∨ (2 : ℕ) = 3 := Or.inl rfl
  rcases h with ⟨e, v, hv1, hv2⟩ | ⟨f, nf, o, T, u, hf, hnf, e1, e2, hne, hT, hu, hux, huy⟩
  · exact Or.inl ⟨e.symm, v, hv2, hv1⟩
  · have ho : o < 2 ^ (2 - 1) := by
      have := (hconn.range x.1 f _ _ hxt hf e1 e2).2
      omega
    obtain ⟨b1, b2⟩ := hconn.back x.1 f y.1 nf o hxt hf hnf e1 e2
    obtain ⟨ft, he, h⟩ := expand_good hd hf hnf ho
    obtain ⟨ft', he', h'⟩ := expand_good hd hnf hf ho
    have hi := expand_inverse hd hf hnf ho he he'
    have hTe := hT.eq_image hd hf hnf ho he
    refine Or.inr ⟨nf, f, o, faceImage ft' 0, T u, hnf, hf, b1, b2, hne.imp Ne.symm Ne.symm,
      (expand_glues hd hnf hf ho he').2, (hT.face u).mp hu, huy, ?_⟩
    rw [hTe, hi.image h h']
    exact hux

end P4est
