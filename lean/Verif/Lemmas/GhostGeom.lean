import Verif.Props.FaceNeighbor
import Verif.Props.Neighborhood
import Verif.Spec.Ghost

/-! # Cells that share a side across the faces of quadrants and trees -/

namespace P4est
open Spec

variable {d : ℕ}

/-- A unit cell as a quadrant of the level of a node. -/
def unitQuad (a : Fin d → ℤ) : Quad d := ⟨a, 30⟩

theorem side_unit (a : Fin d → ℤ) : side (unitQuad a) = 1 := by unfold side unitQuad; norm_num

theorem box_unit (a : Fin d → ℤ) : Box (unitQuad a) = UnitBox a := by
  unfold Box UnitBox; rw [side_unit]; rfl

/-- The unit cell across face `f`. -/
def nbCell (f : ℕ) (a : Fin d → ℤ) : Fin d → ℤ := (faceNeighbor (unitQuad a) f).c

theorem nbCell_apply (f : ℕ) (a : Fin d → ℤ) (i : Fin d) :
    nbCell f a i = if (i : ℕ) = f / 2 then (if f % 2 = 1 then a i + 1 else a i - 1) else a i := by
  unfold nbCell
  rw [neighbor_c, side_unit]
  rfl

/-- Two unit cells share the side that is face `f` of the first. -/
def Beside (conn : FaceConn) (f : ℕ) (x y : ℕ × (Fin d → ℤ)) : Prop :=
  InTree x.2 ∧ InTree y.2 ∧
  ((x.1 = y.1 ∧ y.2 = nbCell f x.2) ∨
   ∃ nf o T, nf < 2 * d ∧ conn.treeToTree[2 * d * x.1 + f]? = some y.1 ∧
    conn.treeToFace[2 * d * x.1 + f]? = some (nf + 2 * d * o) ∧ (y.1 ≠ x.1 ∨ nf ≠ f) ∧ Glues f nf o T ∧
    AtFace f x.2 ∧ AtFace nf y.2 ∧ T '' Facet f x.2 = Facet nf y.2)

theorem sharesFacet_iff (conn : FaceConn) (x y : ℕ × (Fin d → ℤ)) :
    SharesFacet conn x y ↔ ∃ f < 2 * d, Beside conn f x y := by
  unfold SharesFacet Beside
  constructor
  · rintro ⟨h1, h2, ⟨e, i, hi, h | h⟩ | ⟨f, nf, o, T, hf, hnf, h⟩⟩
    · refine ⟨2 * i + 1, by omega, h1, h2, Or.inl ⟨e, funext fun j => ?_⟩⟩
      rw [nbCell_apply]
      by_cases hj : j = i
      · subst hj; rw [if_pos (by omega), if_pos (by omega), h]
      · rw [if_neg (fun c => hj (Fin.ext (by omega))), hi j hj]
    · refine ⟨2 * i, by omega, h1, h2, Or.inl ⟨e, funext fun j => ?_⟩⟩
      rw [nbCell_apply]
      by_cases hj : j = i
      · subst hj; rw [if_pos (by omega), if_neg (by omega), h]
      · rw [if_neg (fun c => hj (Fin.ext (by omega))), hi j hj]
    · exact ⟨f, hf, h1, h2, Or.inr ⟨nf, o, T, hnf, h⟩⟩
  · rintro ⟨f, hf, h1, h2, ⟨e, h⟩ | ⟨nf, o, T, hnf, h⟩⟩
    · refine ⟨h1, h2, Or.inl ⟨e, ⟨f / 2, by omega⟩, fun j hj => ?_, ?_⟩⟩
      · rw [h, nbCell_apply, if_neg (fun c => hj (Fin.ext c))]
      · rw [h, nbCell_apply, if_pos rfl]
        split
        · exact Or.inl rfl
        · exact Or.inr rfl
    · exact ⟨h1, h2, Or.inr ⟨f, nf, o, T, hf, hnf, h⟩⟩

/-- The facet at a face is also the facet of the cell beyond. -/
theorem facet_beyond {f : ℕ} {a : Fin d → ℤ} (ha : AtFace f a) :
    Facet f a = {x | x ∈ UnitBox (nbCell f a) ∧ OnFace f x} := by
  ext x
  unfold Facet UnitBox
  simp only [Set.mem_setOf_eq]
  refine and_congr_left fun hx => forall_congr' fun i => ?_
  rw [nbCell_apply]
  by_cases hi : (i : ℕ) = f / 2
  · have h1 := ha i hi
    have h2 := hx.2 i hi
    rw [if_pos hi]
    split at h1 <;> split at h2 <;> split <;> omega
  · rw [if_neg hi]

/-- A cell at a face is determined by its facet. -/
theorem facet_inj {f : ℕ} {a b : Fin d → ℤ} (hi : InTree b) (ha : AtFace f a) (hb : AtFace f b)
    (h : Facet f b ⊆ Facet f a) : b = a := by
  have key : ∀ e : ℤ, 0 ≤ e → e ≤ 1 →
      (fun i : Fin d => if (i : ℕ) = f / 2 then (if f % 2 = 1 then 2 ^ 30 else 0) else b i + e) ∈ Facet f b := by
    intro e he0 he1
    refine ⟨fun i => ?_, fun i => ?_, fun i hif => ?_⟩
    · dsimp only
      split
      · rename_i hif
        have := hb i hif
        split at this <;> split <;> omega
      · omega
    · have := hi i
      dsimp only
      split
      · split <;> omega
      · omega
    · dsimp only
      rw [if_pos hif]
  funext i
  by_cases hif : (i : ℕ) = f / 2
  · rw [ha i hif, hb i hif]
  · have h0 := (h (key 0 (by norm_num) (by norm_num))).1 i
    have h1 := (h (key 1 (by norm_num) (by norm_num))).1 i
    dsimp only at h0 h1
    rw [if_neg hif] at h0 h1
    omega

section Glued

variable {f nf : ℕ} {ft ft' : FTransform}

/-- The image of a unit cell is the cell in the image of its box. -/
theorem FTGood.unit (h : FTGood d f nf ft) (c x : Fin d → ℤ) :
    x ∈ UnitBox c ↔ faceImage ft 0 x ∈ UnitBox (faceImage ft (-1) c) := by
  have := h.box (unitQuad c) x
  rw [side_unit] at this
  rw [← box_unit, this, ← box_unit]
  rfl

theorem FTGood.nb (h : FTGood d f nf ft) (a : Fin d → ℤ) :
    nbCell nf (faceImage ft (-1) (nbCell f a)) = faceImage ft (-1) a := by
  have := h.neighbor (unitQuad a)
  rw [side_unit] at this
  exact congrArg Quad.c this

theorem FTGood.atFace (h : FTGood d f nf ft) {a : Fin d → ℤ} (ha : AtFace f a) :
    AtFace nf (faceImage ft (-1) (nbCell f a)) := by
  intro i hi
  have e : i = ⟨ft.target2, h.t2⟩ := Fin.ext (hi.trans h.tf.symm)
  have h1 := ha ⟨ft.my2, h.my2⟩ h.myf
  rw [e, h.image2, normal_eq h.rev, nbCell_apply, if_pos h.myf, h1]
  split <;> split <;> norm_num

/-- The facets of two cells at the glued faces agree exactly if the second is the image of the first. -/
theorem FTGood.facets (h : FTGood d f nf ft) (h' : FTGood d nf f ft') (hi' : FTInverse d ft' ft)
    {a b : Fin d → ℤ} (hb : InTree b) (ha : AtFace f a) (hbf : AtFace nf b) :
    faceImage ft 0 '' Facet f a = Facet nf b ↔ b = faceImage ft (-1) (nbCell f a) := by
  have hat := h.atFace ha
  have e : faceImage ft 0 '' Facet f a =
      {y | y ∈ UnitBox (faceImage ft (-1) (nbCell f a)) ∧ OnFace nf y} := by
    rw [facet_beyond ha]
    ext y
    constructor
    · rintro ⟨x, ⟨h1, h2⟩, rfl⟩
      exact ⟨(h.unit _ x).mp h1, (h.face x).mp h2⟩
    · rintro ⟨h1, h2⟩
      have ey := hi'.image h' h 0 y
      refine ⟨faceImage ft' 0 y, ⟨?_, ?_⟩, ey⟩
      · rw [h.unit, ey]; exact h1
      · rw [h.face, ey]; exact h2
  rw [e]
  constructor
  · intro he
    exact facet_inj hb hat hbf he.symm.le
  · rintro rfl; rfl

end Glued

/-- The cells of a quadrant at its face `f`. -/
def Layer (f : ℕ) (r : Quad d) (b : Fin d → ℤ) : Prop :=
  b ∈ Cells r ∧ ∀ i : Fin d, (i : ℕ) = f / 2 → if f % 2 = 1 then b i + 1 = r.c i + side r else b i = r.c i

theorem layer_inTree {f : ℕ} {r : Quad d} (hr : Valid r) {b : Fin d → ℤ} (h : Layer f r b) : InTree b :=
  valid_cells_inTree hr h.1

theorem unit_subset {q : Quad d} {a : Fin d → ℤ} : a ∈ Cells q ↔ UnitBox a ⊆ Box q := by
  constructor
  · intro h x hx i
    have := h i; have := hx i
    constructor <;> omega
  · intro h i
    have h0 := h (show a ∈ UnitBox a from fun i => ⟨le_rfl, by omega⟩) i
    have h1 := h (show (fun i => a i + 1) ∈ UnitBox a from fun i => ⟨by dsimp only; omega, le_rfl⟩) i
    try dsimp only at h0 h1
    constructor <;> omega

theorem nb_layer {f : ℕ} {q : Quad d} {a : Fin d → ℤ} (h : Layer f q a) : nbCell f a ∈ Cells (faceNeighbor q f) := by
  intro i
  have h1 := h.1 i
  have hs := side_pos q
  have e : side (faceNeighbor q f) = side q := rfl
  rw [neighbor_c, nbCell_apply, e]
  by_cases hi : (i : ℕ) = f / 2
  · have h2 := h.2 i hi
    rw [if_pos hi, if_pos hi]
    split at h2 <;> split <;> omega
  · rw [if_neg hi, if_neg hi]; exact h1

theorem FTGood.cells {f nf : ℕ} {ft ft' : FTransform} (h : FTGood d f nf ft) (h' : FTGood d nf f ft')
    (hi' : FTInverse d ft' ft) {n : Quad d} {c : Fin d → ℤ} (hc : c ∈ Cells n) :
    faceImage ft (-1) c ∈ Cells (⟨faceImage ft (-side n) n.c, n.level⟩ : Quad d) := by
  rw [unit_subset] at hc ⊢
  intro y hy
  have ey := hi'.image h' h 0 y
  have : faceImage ft' 0 y ∈ UnitBox c := by rw [h.unit, ey]; exact hy
  have := (h.box n _).mp (hc this)
  rwa [ey] at this

theorem valid_le {q : Quad d} (hq : Valid q) (i : Fin d) : q.c i + side q ≤ 2 ^ 30 := by
  have h : (fun i => q.c i + (side q - 1)) ∈ Cells q := fun j => by
    have := side_pos q
    constructor <;> dsimp only <;> omega
  have := valid_cells_inTree hq h i
  try dsimp only at this
  omega

theorem layer_atFace {f : ℕ} {r : Quad d} (hr : Valid r) {b : Fin d → ℤ} (hb : b ∈ Cells r) (h : AtFace f b) : Layer f r b := by
  refine ⟨hb, fun i hi => ?_⟩
  have h1 := h i hi
  have h2 := hb i
  have h3 := hr.2.2 i
  have h4 := valid_le hr i
  split at h1
  · rename_i c; rw [if_pos c]; omega
  · rename_i c; rw [if_neg c]; omega

/-- The neighbor is outside the tree: the quadrant lies at the face of the tree. -/
theorem outside_face {f : ℕ} {q : Quad d} (hq : Valid q) (h : ¬ InRoot (faceNeighbor q f)) (i : Fin d) (hi : (i : ℕ) = f / 2) :
    if f % 2 = 1 then q.c i + side q = 2 ^ 30 else q.c i = 0 := by
  have hout : ¬ (0 ≤ (faceNeighbor q f).c i ∧ (faceNeighbor q f).c i < 2 ^ 30) := by
    intro hin
    refine h fun j => ?_
    by_cases hj : (j : ℕ) = f / 2
    · rw [show j = i from Fin.ext (hj.trans hi.symm)]; exact hin
    · rw [neighbor_c, if_neg hj]; exact hq.2.2 j
  rw [neighbor_c, if_pos hi] at hout
  have h1 := hq.2.2 i
  have h2 := valid_le hq i
  have h3 := side_pos q
  split
  · rename_i c; rw [if_pos c] at hout; omega
  · rename_i c
    rw [if_neg c] at hout
    exact Int.eq_zero_of_dvd_of_nonneg_of_lt h1.1 (by omega) (hq.2.1.2 i)

/-- A cell that is not at the face of its quadrant has its neighbor in the quadrant. -/
theorem beside_inner {conn : FaceConn} {q : Quad d} (hq : Valid q) {t f : ℕ} {a : Fin d → ℤ} (ha : a ∈ Cells q)
    (hl : ¬ Layer f q a) {y : ℕ × (Fin d → ℤ)} (h : Beside conn f (t, a) y) : y.1 = t ∧ y.2 ∈ Cells q := by
  obtain ⟨k1, k2, ⟨e, k3⟩ | ⟨nf, o, T, k4, k5, k6, k7, k8, k9, -⟩⟩ := h
  · refine ⟨e.symm, fun i => ?_⟩
    have h1 := ha i
    rw [k3, nbCell_apply]
    dsimp only
    by_cases hi : (i : ℕ) = f / 2
    · rw [if_pos hi]
      by_contra hc
      apply hl
      refine ⟨ha, fun j hj => ?_⟩
      obtain rfl : j = i := Fin.ext (hj.trans hi.symm)
      split <;> split at hc <;> omega
    · rw [if_neg hi]; exact h1
  · exact absurd (layer_atFace hq ha k9) hl

/-- The neighbor of `q` across face `f` in the same or the next tree has, at the face returned, exactly the
cells beside `q`. -/
theorem face_layer (hd : d = 2 ∨ d = 3) (conn : FaceConn) (hconn : FaceConsistent d conn) (q : Quad d) (hq : Valid q)
    (t f : ℕ) (ht : t < conn.numTrees) (hf : f < 2 * d) :
    ∃ res, (∀ mem, faceNeighborExtra mem conn q t f = some res) ∧
      (res = none → (∀ a, Layer f q a → ∀ y, ¬ Beside conn f (t, a) y) ∧ conn.treeToTree[2 * d * t + f]? = some t ∧
        conn.treeToFace[2 * d * t + f]? = some f) ∧
      ∀ t' r code, res = some (t', r, code) → t' < conn.numTrees ∧ Valid r ∧ r.level = q.level ∧ code % (2 * d) < 2 * d ∧
        (∀ a, Layer f q a → ∀ y, Beside conn f (t, a) y → y.1 = t' ∧ Layer (code % (2 * d)) r y.2) ∧
        (∀ a, Layer f q a → ∃ y, Beside conn f (t, a) y) ∧
        ∀ y : ℕ × (Fin d → ℤ), y.1 = t' → Layer (code % (2 * d)) r y.2 → ∃ a, Layer f q a ∧ Beside conn f (t, a) y := by
  have hs := side_pos q
  by_cases hin : isInsideRoot (faceNeighbor q f) = true
  · refine ⟨some (t, faceNeighbor q f, f ^^^ 1), fun mem => ?_, fun h => (by cases h), ?_⟩
    · unfold faceNeighborExtra
      dsimp only
      rw [if_pos hin]
    · intro t' r code h
      cases h
      obtain ⟨_, n2, _, -⟩ := C14_face_neighbor q hq f
      have hx := xor_one_eq f
      have hlt : f ^^^ 1 < 2 * d := by rw [hx]; split <;> omega
      have hroot := isInsideRoot_iff.mp hin
      have hnv : Valid (faceNeighbor q f) := ⟨hq.1, n2.2.1, hroot⟩
      have hside : side (faceNeighbor q f) = side q := rfl
      have hx2 : (f ^^^ 1) / 2 = f / 2 := by rw [hx]; split <;> omega
      have hxm : (f ^^^ 1) % 2 = 1 ↔ ¬ f % 2 = 1 := by rw [hx]; split <;> omega
      rw [Nat.mod_eq_of_lt hlt]
      refine ⟨ht, hnv, rfl, hlt, ?_, ?_, ?_⟩
      · rintro a hl ⟨yt, b⟩ ⟨k1, k2, ⟨e, k3⟩ | ⟨nf, o, T, k4, k5, k6, k7, k8, k9, -⟩⟩
        · dsimp only at e k3 k2 ⊢
          subst e
          refine ⟨rfl, by rw [k3]; exact nb_layer hl, fun i hi => ?_⟩
          rw [hx2] at hi
          have h1 := hl.2 i hi
          rw [k3, nbCell_apply, if_pos hi, neighbor_c, if_pos hi, hside]
          by_cases c : f % 2 = 1
          · rw [if_pos c] at h1
            rw [if_neg (by rw [hxm]; simpa using c), if_pos c, if_pos c]; omega
          · rw [if_neg c] at h1
            rw [if_pos (by rw [hxm]; exact c), if_neg c, if_neg c]; omega
        · exfalso
          dsimp only at k9
          have h1 := k9 ⟨f / 2, by omega⟩ rfl
          have h2 := hl.1 ⟨f / 2, by omega⟩
          have h3 := hroot ⟨f / 2, by omega⟩
          rw [neighbor_c, if_pos rfl] at h3
          split at h1 <;> split at h3 <;> omega
      · intro a hl
        exact ⟨(t, nbCell f a), valid_cells_inTree hq hl.1, valid_cells_inTree hnv (nb_layer hl), Or.inl ⟨rfl, rfl⟩⟩
      · rintro ⟨yt, b⟩ e ⟨hb, hl⟩
        dsimp only at e hb hl
        subst e
        have hbt := valid_cells_inTree hnv hb
        have haq : nbCell (f ^^^ 1) b ∈ Cells q := by
          have := nb_layer (f := f ^^^ 1) (q := faceNeighbor q f) ⟨hb, hl⟩
          rwa [(C14_face_neighbor q hq f).2.2.2] at this
        refine ⟨nbCell (f ^^^ 1) b, ⟨haq, fun i hi => ?_⟩, valid_cells_inTree hq haq, hbt, Or.inl ⟨rfl, ?_⟩⟩
        · have h1 := hl i (by rw [hx2]; exact hi)
          rw [neighbor_c, if_pos hi, hside] at h1
          have h5 : (i : ℕ) = (f ^^^ 1) / 2 := by rw [hx2]; exact hi
          simp only [nbCell_apply, if_pos h5]
          by_cases c : f % 2 = 1
          · have c' : ¬ (f ^^^ 1) % 2 = 1 := fun h => hxm.mp h c
            simp only [if_neg c', if_pos c] at h1 ⊢; omega
          · have c' : (f ^^^ 1) % 2 = 1 := hxm.mpr c
            simp only [if_pos c', if_neg c] at h1 ⊢; omega
        · funext i
          dsimp only
          rw [nbCell_apply, nbCell_apply, hx2]
          by_cases hi : (i : ℕ) = f / 2
          · rw [if_pos hi, if_pos hi]
            by_cases c : f % 2 = 1
            · rw [if_pos c, if_neg (by rw [hxm]; simpa using c)]; omega
            · rw [if_neg c, if_pos (by rw [hxm]; exact c)]; omega
          · rw [if_neg hi, if_neg hi]
  · obtain ⟨t', nf, o, e1, e2, ht', hnf, ho⟩ := hconn.entries ht hf
    have hout : ¬ InRoot (faceNeighbor q f) := fun h => hin (isInsideRoot_iff.mpr h)
    have hbeyond := neighbor_beyond hq hf hout
    have hfind : findFaceTransform d conn t f = if t' = t ∧ nf = f then some none else
        (expandFaceInternal d f nf o).map fun ft => some (t', ft) := by
      unfold findFaceTransform
      rw [e1, e2]
      simp only [Option.bind_eq_bind, Option.bind_some]
      rw [code_mod hnf, code_div hnf]
    have hat : ∀ a, Layer f q a → AtFace f a := by
      intro a hl i hi
      have h1 := hl.2 i hi
      have h2 := outside_face hq hout i hi
      split at h1
      · rename_i c; rw [if_pos c] at h2 ⊢; omega
      · rename_i c; rw [if_neg c] at h2 ⊢; omega
    have hno : ∀ a, Layer f q a → ∀ b : Fin d → ℤ, InTree b → b ≠ nbCell f a := by
      intro a hl b hb e
      have h1 := hat a hl ⟨f / 2, by omega⟩ rfl
      have h2 := hb ⟨f / 2, by omega⟩
      rw [e, nbCell_apply, if_pos rfl] at h2
      split at h1
      · rename_i c; rw [if_pos c] at h2; omega
      · rename_i c; rw [if_neg c] at h2; omega
    by_cases hb : t' = t ∧ nf = f
    · refine ⟨none, fun mem => ?_, fun _ => ?_, fun t' r code h => (by cases h)⟩
      · unfold faceNeighborExtra
        dsimp only
        rw [if_neg hin, hfind, if_pos hb]
        rfl
      · have ho0 : o = 0 := hconn.boundary t f o ht hf (by rw [e1, hb.1]) (by rw [e2, hb.2])
        refine ⟨?_, by rw [e1, hb.1], by rw [e2, hb.2, ho0]; rfl⟩
        rintro a hl ⟨yt, b⟩ ⟨k1, k2, ⟨e, k3⟩ | ⟨nf', o', T, k4, k5, k6, k7, -⟩⟩
        · exact hno a hl b k2 k3
        · dsimp only at k5 k6 k7
          rw [e1, Option.some.injEq] at k5
          rw [e2, Option.some.injEq] at k6
          have h1 := congrArg (· % (2 * d)) k6
          try dsimp only at h1
          rw [code_mod hnf, code_mod k4] at h1
          rcases k7 with c | c
          · exact c (by rw [← k5]; exact hb.1)
          · exact c (by rw [← h1]; exact hb.2)
    · obtain ⟨ft, he, h⟩ := expand_good hd hf hnf ho
      obtain ⟨ft', he', h'⟩ := expand_good hd hnf hf ho
      have hi := expand_inverse hd hf hnf ho he he'
      have hi' := expand_inverse hd hnf hf ho he' he
      have hne : t' ≠ t ∨ nf ≠ f := by
        by_cases c : t' = t
        · exact Or.inr fun c' => hb ⟨c, c'⟩
        · exact Or.inl c
      set r : Quad d := ⟨faceImage ft (-side q) (faceNeighbor q f).c, q.level⟩ with hr
      have hrv : Valid r := by
        have := (h.valid_into (⟨unacross f (faceNeighbor q f).c, q.level⟩ : Quad d) hq.1).mp hbeyond
        dsimp only at this
        rw [across_unacross] at this
        exact this
      refine ⟨some (t', r, nf + 2 * d * o), fun mem => ?_, fun h => (by cases h), ?_⟩
      · unfold faceNeighborExtra
        dsimp only
        rw [if_neg hin, hfind, if_neg hb, he]
        simp only [Option.map_some, Option.bind_some]
        rw [h.quadrant mem (show (faceNeighbor q f).level ≤ 29 from hq.1), Nat.mul_comm t, e2]
        rfl
      · intro t'' r' code hres
        cases hres
        rw [code_mod hnf]
        refine ⟨ht', hrv, rfl, hnf, ?_, ?_, ?_⟩
        · rintro a hl ⟨yt, b⟩ ⟨k1, k2, ⟨e, k3⟩ | ⟨nf', o', T, k4, k5, k6, k7, k8, k9, k10, k11⟩⟩
          · exact absurd k3 (hno a hl b k2)
          · dsimp only at k2 k5 k6 k9 k10 k11 ⊢
            rw [e1, Option.some.injEq] at k5
            rw [e2, Option.some.injEq] at k6
            have h1 := congrArg (· % (2 * d)) k6
            have h2 := congrArg (· / (2 * d)) k6
            try dsimp only at h1 h2
            rw [code_mod hnf, code_mod k4] at h1
            rw [code_div hnf, code_div k4] at h2
            subst h1
            subst h2
            rw [k8.eq_image hd hf hnf ho he, h.facets h' hi' k2 k9 k10] at k11
            refine ⟨k5.symm, layer_atFace hrv ?_ k10⟩
            rw [k11]
            exact h.cells h' hi' (nb_layer hl)
        · intro a hl
          have hmem : faceImage ft (-1) (nbCell f a) ∈ Cells r := h.cells h' hi' (nb_layer hl)
          have hat' := h.atFace (hat a hl)
          refine ⟨(t', faceImage ft (-1) (nbCell f a)), valid_cells_inTree hq hl.1, valid_cells_inTree hrv hmem,
            Or.inr ⟨nf, o, faceImage ft 0, hnf, e1, e2, hne, (expand_glues hd hf hnf ho he).2, hat a hl, hat', ?_⟩⟩
          exact (h.facets h' hi' (valid_cells_inTree hrv hmem) (hat a hl) hat').mpr rfl
        · rintro ⟨yt, b⟩ e hl
          dsimp only at e hl
          subst e
          have hbt := layer_inTree hrv hl
          have hbf : AtFace nf b := by
            intro i hi
            have h1 := hl.2 i hi
            have ei : i = ⟨ft.target2, h.t2⟩ := Fin.ext (hi.trans h.tf.symm)
            have h2 : r.c i = normal ft.reverse2 (-side q) ((faceNeighbor q f).c ⟨ft.my2, h.my2⟩) := by
              rw [ei]; exact h.image2 _ _
            have h3 := outside_face hq hout ⟨ft.my2, h.my2⟩ h.myf
            have h4 : side r = side q := rfl
            rw [normal_eq h.rev, neighbor_c, if_pos h.myf] at h2
            rw [h4, h2] at h1
            split at h1 <;> split at h3 <;> simp_all <;> omega
          have hnb := h'.nb b
          have haf := h'.atFace hbf
          have haq : faceImage ft' (-1) (nbCell nf b) ∈ Cells q := by
            have := h'.cells h hi (nb_layer hl)
            have e : (⟨faceImage ft' (-side (faceNeighbor r nf)) (faceNeighbor r nf).c, (faceNeighbor r nf).level⟩ : Quad d) = q := by
              have e3 : side (faceNeighbor r nf) = side q := rfl
              rw [e3, h.neighbor q]
              show (⟨faceImage ft' (-side q) (faceImage ft (-side q) q.c), q.level⟩ : Quad d) = q
              rw [hi.image h h']
            rwa [e] at this
          refine ⟨_, layer_atFace hq haq haf, valid_cells_inTree hq haq, hbt, Or.inr ⟨nf, o, faceImage ft 0, hnf, e1, e2, hne,
            (expand_glues hd hf hnf ho he).2, haf, hbf, ?_⟩⟩
          dsimp only
          rw [h.facets h' hi' hbt haf hbf, hnb, hi'.image h' h]

/-- Sharing a side is symmetric. -/
theorem sharesFacet_symm (hd : d = 2 ∨ d = 3) (conn : FaceConn) (hconn : FaceConsistent d conn) {x y : ℕ × (Fin d → ℤ)}
    (hx : x.1 < conn.numTrees) (h : SharesFacet conn x y) : SharesFacet conn y x := by
  obtain ⟨h1, h2, ⟨e, i, hi, h3⟩ | ⟨f, nf, o, T, hf, hnf, e1, e2, hne, hT, ha, hb, hF⟩⟩ := h
  · exact ⟨h2, h1, Or.inl ⟨e.symm, i, fun j hj => (hi j hj).symm, by omega⟩⟩
  · obtain ⟨b1, b2⟩ := hconn.back x.1 f y.1 nf o hx hf hnf e1 e2
    have ho : o < 2 ^ (d - 1) := by
      have := (hconn.range x.1 f _ _ hx hf e1 e2).2
      exact Nat.lt_of_mul_lt_mul_left (a := 2 * d) (by omega)
    obtain ⟨ft, he, h⟩ := expand_good hd hf hnf ho
    obtain ⟨ft', he', h'⟩ := expand_good hd hnf hf ho
    have hi := expand_inverse hd hf hnf ho he he'
    have hi' := expand_inverse hd hnf hf ho he' he
    rw [hT.eq_image hd hf hnf ho he, h.facets h' hi' h2 ha hb] at hF
    refine ⟨h2, h1, Or.inr ⟨nf, f, o, faceImage ft' 0, hnf, hf, b1, b2, ?_, (expand_glues hd hnf hf ho he').2, hb, ha, ?_⟩⟩
    · exact hne.imp Ne.symm Ne.symm
    · rw [h'.facets h hi h1 hb ha, hF, h.nb, hi.image h h']

end P4est
