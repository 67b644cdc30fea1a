import Verif.Lemmas.IterateSearch

/-! # The areas on the two sides of a face -/

namespace P4est
open Spec

variable {d : ℕ}

/-! ### Common sides of cells -/

theorem facetOf_beside {conn : FaceConn} {f g : ℕ} (hg : g < 2 * d) {x y : ℕ × (Fin d → ℤ)} (h : FacetOf conn f g x y) :
    Beside conn f x y := by
  obtain ⟨h1, h2, ⟨e, -, -, h3⟩ | ⟨o, T, h3⟩⟩ := h
  · exact ⟨h1, h2, Or.inl ⟨e, funext fun i => by rw [h3, nbCell_apply]⟩⟩
  · exact ⟨h1, h2, Or.inr ⟨g, o, T, hg, h3⟩⟩

theorem facetOf_shares {conn : FaceConn} {f g : ℕ} (hf : f < 2 * d) (hg : g < 2 * d) {x y : ℕ × (Fin d → ℤ)} (h : FacetOf conn f g x y) :
    SharesFacet conn x y := (sharesFacet_iff conn x y).mpr ⟨f, hf, facetOf_beside hg h⟩

theorem xor_half (f : ℕ) : (f ^^^ 1) / 2 = f / 2 := by rw [xor_one_eq]; split <;> omega

theorem xor_parity (f : ℕ) : (f ^^^ 1) % 2 ≠ f % 2 := by rw [xor_one_eq]; split <;> omega

/-- Inside a tree. -/
theorem facetOf_inner {conn : FaceConn} {t f : ℕ} {a : Fin d → ℤ} (hn : ¬ AtFace f a) {y : ℕ × (Fin d → ℤ)} (h : Beside conn f (t, a) y) :
    FacetOf conn f (f ^^^ 1) (t, a) y := by
  obtain ⟨h1, h2, ⟨e, h3⟩ | ⟨nf, o, T, -, -, -, -, -, h4, -⟩⟩ := h
  · refine ⟨h1, h2, Or.inl ⟨e, xor_half f, xor_parity f, fun i => ?_⟩⟩
    rw [h3, nbCell_apply]
  · exact absurd h4 hn

/-- Between trees. -/
theorem facetOf_tree {conn : FaceConn} {t f t' nf o : ℕ} (hf : f < 2 * d) (hnf : nf < 2 * d) (e1 : conn.treeToTree[2 * d * t + f]? = some t')
    (e2 : conn.treeToFace[2 * d * t + f]? = some (nf + 2 * d * o)) {a : Fin d → ℤ} (ha : AtFace f a) {y : ℕ × (Fin d → ℤ)}
    (h : Beside conn f (t, a) y) : FacetOf conn f nf (t, a) y := by
  obtain ⟨h1, h2, ⟨e, h3⟩ | ⟨nf', o', T, k4, k5, k6, k7, k8⟩⟩ := h
  · exfalso
    have h4 := ha ⟨f / 2, by omega⟩ rfl
    have h5 := h2 ⟨f / 2, by omega⟩
    rw [h3, nbCell_apply, if_pos rfl] at h5
    split at h4 <;> rename_i c <;> simp only [c, if_true, if_false] at h5 <;> omega
  · dsimp only at k5 k6 k7 k8
    have k6' := k6
    rw [e2, Option.some.injEq] at k6'
    have h1' := congrArg (· % (2 * d)) k6'
    try dsimp only at h1'
    rw [code_mod hnf, code_mod k4] at h1'
    subst h1'
    exact ⟨h1, h2, Or.inr ⟨o', T, k5, k6, k7, k8⟩⟩

/-! ### Inside a tree -/

/-- Two areas of a tree on the two sides of a face. -/
structure InnerPair (t dir : ℕ) (x y : Spot d) : Prop where
  dir_lt : dir < d
  xt : x.tree = t
  yt : y.tree = t
  xf : x.face = 2 * dir + 1
  yf : y.face = 2 * dir
  xc : some x.toChild = (faceCornersTable d)[2 * dir + 1]?
  yc : some y.toChild = (faceCornersTable d)[2 * dir]?
  xv : Valid x.area
  yv : Valid y.area
  eq : y.area = faceNeighbor x.area (2 * dir + 1)

theorem inner_table2 (dir : Fin 2) (i : Fin 2) : ∃ k k', entry (faceCornersTable 2) (2 * dir + 1) i = some k ∧
    entry (faceCornersTable 2) (2 * dir) i = some k' ∧ k < 4 ∧ k' < 4 ∧
    ∀ j : Fin 2, k.testBit j = (k'.testBit j || decide (j = dir)) ∧ (j = dir → k'.testBit j = false) := by
  have h : ∀ dir : Fin 2, ∀ i : Fin 2, (match entry (faceCornersTable 2) (2 * dir + 1) i, entry (faceCornersTable 2) (2 * dir) i with
    | some k, some k' => decide (k < 4 ∧ k' < 4 ∧
      ∀ j : Fin 2, k.testBit j = (k'.testBit j || decide (j = dir)) ∧ (j = dir → k'.testBit j = false))
    | _, _ => false) = true := by decide +kernel
  have := h dir i
  split at this
  · rename_i k k' e1 e2
    exact ⟨k, k', e1, e2, of_decide_eq_true this⟩
  · cases this

theorem inner_table3 (dir : Fin 3) (i : Fin 4) : ∃ k k', entry (faceCornersTable 3) (2 * dir + 1) i = some k ∧
    entry (faceCornersTable 3) (2 * dir) i = some k' ∧ k < 8 ∧ k' < 8 ∧
    ∀ j : Fin 3, k.testBit j = (k'.testBit j || decide (j = dir)) ∧ (j = dir → k'.testBit j = false) := by
  have h : ∀ dir : Fin 3, ∀ i : Fin 4, (match entry (faceCornersTable 3) (2 * dir + 1) i, entry (faceCornersTable 3) (2 * dir) i with
    | some k, some k' => decide (k < 8 ∧ k' < 8 ∧
      ∀ j : Fin 3, k.testBit j = (k'.testBit j || decide (j = dir)) ∧ (j = dir → k'.testBit j = false))
    | _, _ => false) = true := by decide +kernel
  have := h dir i
  split at this
  · rename_i k k' e1 e2
    exact ⟨k, k', e1, e2, of_decide_eq_true this⟩
  · cases this

theorem inner_table (hd : d = 2 ∨ d = 3) {dir i : ℕ} (hdir : dir < d) (hi : i < 2 ^ (d - 1)) : ∃ k k',
    entry (faceCornersTable d) (2 * dir + 1) i = some k ∧ entry (faceCornersTable d) (2 * dir) i = some k' ∧ k < 2 ^ d ∧ k' < 2 ^ d ∧
    ∀ j < d, k.testBit j = (k'.testBit j || decide (j = dir)) ∧ (j = dir → k'.testBit j = false) := by
  rcases hd with rfl | rfl
  · obtain ⟨k, k', h1, h2, h3, h4, h5⟩ := inner_table2 ⟨dir, hdir⟩ ⟨i, hi⟩
    refine ⟨k, k', h1, h2, h3, h4, fun j hj => ?_⟩
    have := h5 ⟨j, hj⟩
    simpa [Fin.ext_iff] using this
  · obtain ⟨k, k', h1, h2, h3, h4, h5⟩ := inner_table3 ⟨dir, hdir⟩ ⟨i, hi⟩
    refine ⟨k, k', h1, h2, h3, h4, fun j hj => ?_⟩
    have := h5 ⟨j, hj⟩
    simpa [Fin.ext_iff] using this

theorem entry_row {l : List ℕ} {T : List (List ℕ)} {f i k : ℕ} (h : some l = T[f]?) (e : entry T f i = some k) : l.getD i 0 = k := by
  unfold entry at e
  rw [← h] at e
  have : l[i]? = some k := by simpa using e
  rw [List.getD_eq_getElem?_getD, this]
  rfl

theorem InnerPair.kid (hd : d = 2 ∨ d = 3) {t dir : ℕ} {x y : Spot d} (h : InnerPair t dir x y) (hx : x.area.level < 29) {i : ℕ}
    (hi : i < 2 ^ (d - 1)) : InnerPair t dir (x.kid i) (y.kid i) := by
  obtain ⟨k, k', h1, h2, h3, h4, h5⟩ := inner_table hd h.dir_lt hi
  have e1 := entry_row h.xc h1
  have e2 := entry_row h.yc h2
  have hy : y.area.level < 29 := by rw [h.eq]; exact hx
  refine ⟨h.dir_lt, h.xt, h.yt, h.xf, h.yf, h.xc, h.yc, kid_valid h.xv hx _, kid_valid h.yv hy _, ?_⟩
  show Spec.kid y.area (y.toChild.getD i 0) = faceNeighbor (Spec.kid x.area (x.toChild.getD i 0)) (2 * dir + 1)
  rw [e1, e2, h.eq]
  have hs := side_kid hx k
  have hs' : side (Spec.kid (faceNeighbor x.area (2 * dir + 1)) k') = side (Spec.kid x.area k) := rfl
  refine congrArg₂ Quad.mk (funext fun j => ?_) rfl
  show (Spec.kid (faceNeighbor x.area (2 * dir + 1)) k').c j = (faceNeighbor (Spec.kid x.area k) (2 * dir + 1)).c j
  rw [kid_c, hs', neighbor_c, neighbor_c, kid_c]
  obtain ⟨b1, b2⟩ := h5 j j.2
  rw [b1]
  have c1 : (2 * dir + 1) / 2 = dir := by omega
  have c2 : (2 * dir + 1) % 2 = 1 := by omega
  rw [c1, c2]
  by_cases hj : (j : ℕ) = dir
  · have b3 := b2 hj
    simp only [hj, if_true] at b3 ⊢
    simp [b3]
    omega
  · simp [hj]

/-- The two areas have the same face. -/
theorem inner_same (hd : d = 2 ∨ d = 3) {conn : FaceConn} (hconn : FaceConsistent d conn) {t f : ℕ} (ht : t < conn.numTrees)
    (hf : f < 2 * d) {a : Quad d} (ha : Valid a) (hb : Valid (faceNeighbor a f)) :
    SameFace conn f (f ^^^ 1) (t, a) (t, faceNeighbor a f) ∧ ∀ b, CellAtFace f a b → ¬ AtFace f b := by
  have hno : ∀ b, CellAtFace f a b → ¬ AtFace f b := by
    intro b h1 h2
    have h3 := h1.1 ⟨f / 2, by omega⟩
    have h4 := h1.2 ⟨f / 2, by omega⟩ rfl
    have h5 := h2 ⟨f / 2, by omega⟩ rfl
    have h6 := hb.2.2 ⟨f / 2, by omega⟩
    have hs := side_pos a
    rw [neighbor_c, if_pos rfl] at h6
    split at h4 <;> rename_i c <;> simp only [c, if_true, if_false] at h5 h6 <;> omega
  refine ⟨?_, hno⟩
  have hlt : f ^^^ 1 < 2 * d := by rw [xor_one_eq]; split <;> omega
  obtain ⟨res, h1, -, h3⟩ := face_layer hd conn hconn a ha t f ht hf
  have h4 : res = some (t, faceNeighbor a f, f ^^^ 1) := by
    have := h1 fun _ => 0
    unfold faceNeighborExtra at this
    dsimp only at this
    rw [if_pos (isInsideRoot_iff.mpr hb.2.2)] at this
    exact (Option.some.inj this).symm
  obtain ⟨-, -, -, -, g1, g2, g3⟩ := h3 _ _ _ h4
  rw [Nat.mod_eq_of_lt hlt] at g1 g3
  refine ⟨ha, hb, rfl, ?_, ?_⟩
  · intro c hc
    obtain ⟨y, hy⟩ := g2 c hc
    obtain ⟨e, hl⟩ := g1 c hc y hy
    obtain ⟨yt, yb⟩ := y
    dsimp only at e hl
    subst e
    exact ⟨yb, hl, facetOf_inner (hno c hc) hy⟩
  · intro c hc
    obtain ⟨b, hb1, hb2⟩ := g3 (t, c) rfl hc
    exact ⟨b, hb1, facetOf_inner (hno b hb1) hb2⟩

/-! ### Faces of trees -/

/-- The quadrant lies at face `f` of its tree. -/
def TreeSide (f : ℕ) (a : Quad d) : Prop :=
  ∀ i : Fin d, (i : ℕ) = f / 2 → if f % 2 = 1 then a.c i + side a = 2 ^ 30 else a.c i = 0

theorem TreeSide.kid {f : ℕ} {a : Quad d} (h : TreeSide f a) (hl : a.level < 29) {k : ℕ} (hk : OnFaceBit f k) : TreeSide f (kid a k) := by
  intro i hi
  have h1 := h i hi
  have hs := side_kid hl k
  unfold OnFaceBit at hk
  rw [kid_c, hi, hk]
  split at h1 <;> rename_i c <;> simp [c] <;> omega

theorem TreeSide.out {f : ℕ} (hf : f < 2 * d) {a : Quad d} (h : TreeSide f a) : ¬ InRoot (faceNeighbor a f) := by
  intro hc
  have h1 := h ⟨f / 2, by omega⟩ rfl
  have h2 := hc ⟨f / 2, by omega⟩
  have hs := side_pos a
  rw [neighbor_c, if_pos rfl] at h2
  split at h1 <;> rename_i c <;> simp only [c, if_true, if_false] at h2 <;> omega

theorem TreeSide.cells {f : ℕ} {a : Quad d} (h : TreeSide f a) (b : Fin d → ℤ) (hb : CellAtFace f a b) : AtFace f b := by
  intro i hi
  have h1 := h i hi
  have h2 := hb.2 i hi
  split at h1 <;> rename_i c <;> simp only [c, if_true, if_false] at h2 ⊢ <;> omega

theorem treeSide_root (hd : 0 < d) (f : ℕ) : TreeSide f (root d) := by
  intro i _
  have h1 : side (root d) = 2 ^ 30 := rfl
  split
  · rw [h1]; rfl
  · rfl

/-- The corners `k` and `k'` of the faces of two trees touch. -/
def BitsMatch (d f nf : ℕ) (ft : FTransform) (k k' : ℕ) : Prop :=
  k < 2 ^ d ∧ k' < 2 ^ d ∧ OnFaceBit f k ∧ OnFaceBit nf k' ∧
  k'.testBit ft.target0 = (k.testBit ft.my0 != decide (ft.reverse0 ≠ 0)) ∧
  (d = 3 → k'.testBit ft.target1 = (k.testBit ft.my1 != decide (ft.reverse1 ≠ 0)))

instance (d f nf : ℕ) (ft : FTransform) (k k' : ℕ) : Decidable (BitsMatch d f nf ft k k') := by unfold BitsMatch; infer_instance

theorem touch_table2 : ∀ f nf : Fin 4, ∀ o : Fin 2, ∀ i : Fin 2, ∃ k k' ft, entry (faceCornersTable 2) f i = some k ∧
    touchingCorner 2 i f nf o = some k' ∧ expandFaceInternal 2 f nf o = some ft ∧ BitsMatch 2 f nf ft k k' := by
  intro f nf o i
  have h : ∀ f nf : Fin 4, ∀ o : Fin 2, ∀ i : Fin 2, (match entry (faceCornersTable 2) f i, touchingCorner 2 i f nf o, expandFaceInternal 2 f nf o with
    | some k, some k', some ft => decide (BitsMatch 2 f nf ft k k')
    | _, _, _ => false) = true := by decide +kernel
  have := h f nf o i
  split at this
  · rename_i k k' ft e1 e2 e3
    exact ⟨k, k', ft, e1, e2, e3, of_decide_eq_true this⟩
  · cases this

theorem touch_table3 : ∀ f nf : Fin 6, ∀ o : Fin 4, ∀ i : Fin 4, ∃ k k' ft, entry (faceCornersTable 3) f i = some k ∧
    touchingCorner 3 i f nf o = some k' ∧ expandFaceInternal 3 f nf o = some ft ∧ BitsMatch 3 f nf ft k k' := by
  intro f nf o i
  have h : ∀ f nf : Fin 6, ∀ o : Fin 4, ∀ i : Fin 4, (match entry (faceCornersTable 3) f i, touchingCorner 3 i f nf o, expandFaceInternal 3 f nf o with
    | some k, some k', some ft => decide (BitsMatch 3 f nf ft k k')
    | _, _, _ => false) = true := by decide +kernel
  have := h f nf o i
  split at this
  · rename_i k k' ft e1 e2 e3
    exact ⟨k, k', ft, e1, e2, e3, of_decide_eq_true this⟩
  · cases this

theorem touch_table (hd : d = 2 ∨ d = 3) {f nf o i : ℕ} (hf : f < 2 * d) (hnf : nf < 2 * d) (ho : o < 2 ^ (d - 1)) (hi : i < 2 ^ (d - 1)) :
    ∃ k k' ft, entry (faceCornersTable d) f i = some k ∧ touchingCorner d i f nf o = some k' ∧
      expandFaceInternal d f nf o = some ft ∧ BitsMatch d f nf ft k k' := by
  rcases hd with rfl | rfl
  · exact touch_table2 ⟨f, hf⟩ ⟨nf, hnf⟩ ⟨o, ho⟩ ⟨i, hi⟩
  · exact touch_table3 ⟨f, hf⟩ ⟨nf, hnf⟩ ⟨o, ho⟩ ⟨i, hi⟩

/-- The area in the next tree. -/
def imageQuad (ft : FTransform) (f : ℕ) (a : Quad d) : Quad d := ⟨faceImage ft (-side a) (faceNeighbor a f).c, a.level⟩

theorem tangent_kid {r : ℕ} {s c : ℤ} {b b' : Bool} (hb : b' = (b != decide (r ≠ 0))) :
    tangent r (-(2 * s)) c + (if b' then s else 0) = tangent r (-s) (c + if b then s else 0) := by
  unfold tangent
  subst hb
  by_cases hr : r = 0
  · cases b <;> simp [hr]
  · cases b <;> simp [hr] <;> omega

theorem image_kid {f nf : ℕ} {ft : FTransform} (h : FTGood d f nf ft) (hf : f < 2 * d) {a : Quad d} (ha : TreeSide f a) (hl : a.level < 29)
    {k k' : ℕ} (hk : BitsMatch d f nf ft k k') : kid (imageQuad ft f a) k' = imageQuad ft f (kid a k) := by
  obtain ⟨-, -, b1, b2, b3, b4⟩ := hk
  have hs := side_kid hl k
  have hs' : side (kid (imageQuad ft f a) k') = side (kid a k) := rfl
  refine congrArg₂ Quad.mk (funext fun j => ?_) rfl
  show (kid (imageQuad ft f a) k').c j = _
  rw [kid_c, hs']
  show faceImage ft (-side a) (faceNeighbor a f).c j + _ = faceImage ft (-side (kid a k)) (faceNeighbor (kid a k) f).c j
  by_cases hj : (j : ℕ) = ft.target2
  · obtain rfl : j = ⟨ft.target2, h.t2⟩ := Fin.ext hj
    rw [h.image2, h.image2, normal_eq h.rev, normal_eq h.rev, neighbor_c, neighbor_c, if_pos h.myf, if_pos h.myf, kid_c]
    have k1 := ha ⟨ft.my2, h.my2⟩ h.myf
    unfold OnFaceBit at b1 b2
    rw [← h.myf] at b1
    rw [← h.tf] at b2
    dsimp only at k1 ⊢
    rw [b2, b1]
    by_cases c1 : f % 2 = 1 <;> by_cases c2 : nf % 2 = 1 <;> simp [c1, c2] at k1 ⊢ <;> omega
  · by_cases hj0 : (j : ℕ) = ft.target0
    · obtain rfl : j = ⟨ft.target0, h.t0⟩ := Fin.ext hj0
      have hne : ¬ ft.my0 = f / 2 := fun c => h.myne (c.trans h.myf.symm)
      rw [h.image0, h.image0, neighbor_c, neighbor_c, if_neg hne, if_neg hne, kid_c, hs]
      exact tangent_kid b3
    · have hd3 : d = 3 := by
        rcases h.dim with rfl | rfl
        · exfalso
          have := h.t0; have := h.t2; have := h.tne; have := j.2
          omega
        · rfl
      have hj1 : (j : ℕ) = ft.target1 := by
        have := h.t0; have := h.t2; have := h.tne; have := j.2; have := h.t1 hd3
        omega
      obtain rfl : j = ⟨ft.target1, (h.t1 hd3).1⟩ := Fin.ext hj1
      have hne : ¬ ft.my1 = f / 2 := fun c => (h.my1 hd3).2.2 (c.trans h.myf.symm)
      rw [h.image1 hd3, h.image1 hd3, neighbor_c, neighbor_c, if_neg hne, if_neg hne, kid_c, hs]
      exact tangent_kid (b4 hd3)

/-- Two areas on the two sides of a face between trees. -/
structure TreePair (conn : FaceConn) (t f t' nf o : ℕ) (ft : FTransform) (x y : Spot d) : Prop where
  xt : x.tree = t
  yt : y.tree = t'
  xf : x.face = f
  yf : y.face = nf
  expand : expandFaceInternal d f nf o = some ft
  xc : ∀ i < 2 ^ (d - 1), entry (faceCornersTable d) f i = some (x.toChild.getD i 0)
  yc : ∀ i < 2 ^ (d - 1), touchingCorner d i f nf o = some (y.toChild.getD i 0)
  xv : Valid x.area
  yv : Valid y.area
  at_face : TreeSide f x.area
  eq : y.area = imageQuad ft f x.area

theorem TreePair.kid (hd : d = 2 ∨ d = 3) {conn : FaceConn} {t f t' nf o : ℕ} {ft : FTransform} (hf : f < 2 * d) (hnf : nf < 2 * d)
    (ho : o < 2 ^ (d - 1)) {x y : Spot d}
    (h : TreePair conn t f t' nf o ft x y) (hx : x.area.level < 29) {i : ℕ} (hi : i < 2 ^ (d - 1)) :
    TreePair conn t f t' nf o ft (x.kid i) (y.kid i) := by
  obtain ⟨k, k', ft', h1, h2, h3, h4⟩ := touch_table hd hf hnf ho hi
  obtain rfl : ft' = ft := by rw [h.expand] at h3; exact (Option.some.inj h3).symm
  have e1 : x.toChild.getD i 0 = k := by rw [h.xc i hi] at h1; exact Option.some.inj h1
  have e2 : y.toChild.getD i 0 = k' := by rw [h.yc i hi] at h2; exact Option.some.inj h2
  obtain ⟨ft2, he, hg⟩ := expand_good hd hf hnf ho
  obtain rfl : ft2 = ft' := by rw [h3] at he; exact (Option.some.inj he).symm
  have hy : y.area.level < 29 := by rw [h.eq]; exact hx
  refine ⟨h.xt, h.yt, h.xf, h.yf, h.expand, h.xc, h.yc, kid_valid h.xv hx _, kid_valid h.yv hy _, ?_, ?_⟩
  · show TreeSide f (Spec.kid x.area (x.toChild.getD i 0))
    rw [e1]
    exact h.at_face.kid hx h4.2.2.1
  · show Spec.kid y.area (y.toChild.getD i 0) = imageQuad ft2 f (Spec.kid x.area (x.toChild.getD i 0))
    rw [e1, e2, h.eq]
    exact image_kid hg hf h.at_face hx h4

theorem tree_same (hd : d = 2 ∨ d = 3) {conn : FaceConn} (hconn : FaceConsistent d conn) {t f t' nf o : ℕ} (ht : t < conn.numTrees)
    (hf : f < 2 * d) (hnf : nf < 2 * d) (ho : o < 2 ^ (d - 1)) (e1 : conn.treeToTree[2 * d * t + f]? = some t')
    (e2 : conn.treeToFace[2 * d * t + f]? = some (nf + 2 * d * o)) (hne : t' ≠ t ∨ nf ≠ f) {ft : FTransform}
    (he : expandFaceInternal d f nf o = some ft) {a : Quad d} (ha : Valid a) (hat : TreeSide f a) :
    SameFace conn f nf (t, a) (t', imageQuad ft f a) := by
  obtain ⟨res, h1, -, h3⟩ := face_layer hd conn hconn a ha t f ht hf
  obtain ⟨ft2, he', hg⟩ := expand_good hd hf hnf ho
  obtain rfl : ft2 = ft := by rw [he] at he'; exact (Option.some.inj he').symm
  have hout := hat.out hf
  have h4 : res = some (t', imageQuad ft2 f a, nf + 2 * d * o) := by
    have := h1 fun _ => 0
    unfold faceNeighborExtra at this
    dsimp only at this
    rw [if_neg (fun c => hout (isInsideRoot_iff.mp c))] at this
    unfold findFaceTransform at this
    rw [e1, e2] at this
    simp only [Option.bind_eq_bind, Option.bind_some] at this
    rw [code_mod hnf, code_div hnf, if_neg (by rintro ⟨c1, c2⟩; rcases hne with c | c; exacts [c c1, c c2]), he] at this
    simp only [Option.map_some, Option.bind_some] at this
    rw [hg.quadrant _ (show (faceNeighbor a f).level ≤ 29 from ha.1), Nat.mul_comm t, e2] at this
    exact (Option.some.inj this).symm
  obtain ⟨-, g0, g0', -, g1, g2, g3⟩ := h3 _ _ _ h4
  rw [code_mod hnf] at g1 g3
  refine ⟨ha, g0, rfl, ?_, ?_⟩
  · intro c hc
    obtain ⟨y, hy⟩ := g2 c hc
    obtain ⟨e, hl⟩ := g1 c hc y hy
    obtain ⟨yt, yb⟩ := y
    dsimp only at e hl
    subst e
    exact ⟨yb, hl, facetOf_tree hf hnf e1 e2 (hat.cells c hc) hy⟩
  · intro c hc
    obtain ⟨b, hb1, hb2⟩ := g3 (t', c) rfl hc
    exact ⟨b, hb1, facetOf_tree hf hnf e1 e2 (hat.cells b hb1) hb2⟩

/-! ### Leaves -/

section World

variable {conn : FaceConn} {Leaf : ℕ → Quad d → Prop} {Lt Gt : ℕ → List (Quad d)}

/-- Next to a leaf only children of the area are leaves. -/
theorem balanced_kid (hd : 0 < d) (W : IterWorld conn Leaf Lt Gt) {t t' g : ℕ} (hg : g < 2 * d) (ht : t < conn.numTrees)
    (ht' : t' < conn.numTrees) {a b : Quad d} (ha : Leaf t a)
    (hb : Valid b) (hlev : a.level = b.level) (hl : b.level < 29)
    (hs : ∀ c, CellAtFace g b c → ∃ c' ∈ Cells a, SharesFacet conn (t, c') (t', c)) {k : ℕ} (hk : k < 2 ^ d) (hkf : OnFaceBit g k)
    {q : Quad d} (hq : Leaf t' q) (hsub : Cells q ⊆ Cells (kid b k)) : q = kid b k := by
  have hkv := kid_valid hb hl k
  have hks := (kid_subset hd hb hl hk).1
  have hon : OnSide g (kid b k) b := (onSide_kid hg hl le_rfl).mpr ⟨onSide_self _ _, hkf⟩
  obtain ⟨c, hc⟩ : ∃ c, Layer g (kid b k) c := layer_nonempty (kid b k) g
  have hcb := ((onSide_layer hks hon).mp hc).1
  obtain ⟨y, hy, hcy⟩ := W.cover t' c ht' (layer_inTree hkv hc)
  obtain ⟨c', hc', hsh⟩ := hs c hcb
  have hbal := W.balance t a t' y ha hy ht ht' ⟨c', hc', c, hcy, hsh⟩
  have hyv := W.valid t' y hy
  have hkl : (kid b k).level = b.level + 1 := rfl
  have hky : Cells (kid b k) ⊆ Cells y := by
    rcases C03_nested_or_disjoint (kid b k) y hkv.extended hyv.extended with h | h | h
    · by_cases e : y = kid b k
      · rw [e]
      · have := ((valid_ssubset_iff hd hkv hyv).mp (valid_ssubset_of_ne hd hkv hyv h e)).1
        omega
    · exact h
    · exact absurd ⟨hc.1, hcy⟩ (h c)
  have hqy : q = y := W.disj t' q y q.c hq hy (corner_mem q) (hky (hsub (corner_mem q)))
  subst hqy
  by_contra e
  have h1 := ((valid_ssubset_iff hd hkv hyv).mp (valid_ssubset_of_ne hd hkv hyv hsub e)).1
  have h2 := ((valid_ssubset_iff hd hyv hkv).mp (valid_ssubset_of_ne hd hyv hkv hky (Ne.symm e))).1
  omega

/-- The search inside a tree. -/
theorem inner_search (hd : d = 2 ∨ d = 3) (hconn : FaceConsistent d conn) (W : IterWorld conn Leaf Lt Gt) {t dir : ℕ}
    (ht : t < conn.numTrees) : Search Lt Gt fun X => ∃ x y : Spot d, X = [x, y] ∧ InnerPair t dir x y ∧
      (∀ k ∈ x.toChild, k < 2 ^ d ∧ OnFaceBit x.face k) ∧ ∀ k ∈ y.toChild, k < 2 ^ d ∧ OnFaceBit y.face k := by
  have hd0 : 0 < d := by omega
  constructor
  · rintro X ⟨x, y, rfl, h, hcx, hcy⟩ ⟨z, hz, hk⟩ w hw hnk hl k hkm q hq hsub
    have hf : 2 * dir + 1 < 2 * d := by have := h.dir_lt; omega
    have hxor : (2 * dir + 1) ^^^ 1 = 2 * dir := by rw [xor_one_eq, if_neg (by omega)]; omega
    have hsame := (inner_same hd hconn ht hf h.xv (by rw [← h.eq]; exact h.yv)).1
    rw [hxor, ← h.eq] at hsame
    have hlev : y.area.level = x.area.level := by rw [h.eq]; rfl
    simp only [List.mem_cons, List.not_mem_nil, or_false] at hz hw
    have hqL := W.leaf hq
    rcases hz with rfl | rfl <;> rcases hw with rfl | rfl
    · exact absurd hk hnk
    · have hk' := W.leaf hk
      rw [h.xt] at hk'
      rw [h.yt] at hqL
      refine balanced_kid hd0 W (g := 2 * dir) (by omega) ht ht hk' h.yv hlev.symm hl ?_ (hcy k hkm).1 (by rw [← h.yf]; exact (hcy k hkm).2) hqL hsub
      intro c hc
      obtain ⟨a, ha, hs⟩ := hsame.2.2.2.2 c hc
      exact ⟨a, ha.1, facetOf_shares hf (by omega) hs⟩
    · have hk' := W.leaf hk
      rw [h.yt] at hk'
      rw [h.xt] at hqL
      refine balanced_kid hd0 W (g := 2 * dir + 1) (by omega) ht ht hk' h.xv hlev hl ?_ (hcx k hkm).1 (by rw [← h.xf]; exact (hcx k hkm).2) hqL hsub
      intro c hc
      obtain ⟨a, ha, hs⟩ := hsame.2.2.2.1 c hc
      exact ⟨a, ha.1, sharesFacet_symm hd conn hconn ht (facetOf_shares hf (by omega) hs)⟩
    · exact absurd hk hnk
  · rintro X ⟨x, y, rfl, h, hcx, hcy⟩ hlev i hi
    exact ⟨x.kid i, y.kid i, rfl, h.kid hd (hlev x (by simp)) hi, hcx, hcy⟩

/-- The search between trees. -/
theorem tree_search (hd : d = 2 ∨ d = 3) (hconn : FaceConsistent d conn) (W : IterWorld conn Leaf Lt Gt) {t f t' nf o : ℕ}
    {ft : FTransform} (ht : t < conn.numTrees) (ht' : t' < conn.numTrees)
    (hf : f < 2 * d) (hnf : nf < 2 * d) (ho : o < 2 ^ (d - 1)) (e1 : conn.treeToTree[2 * d * t + f]? = some t')
    (e2 : conn.treeToFace[2 * d * t + f]? = some (nf + 2 * d * o)) (hne : t' ≠ t ∨ nf ≠ f) :
    Search Lt Gt fun X => ∃ x y : Spot d, X = [x, y] ∧ TreePair conn t f t' nf o ft x y ∧
      (∀ k ∈ x.toChild, k < 2 ^ d ∧ OnFaceBit x.face k) ∧ ∀ k ∈ y.toChild, k < 2 ^ d ∧ OnFaceBit y.face k := by
  have hd0 : 0 < d := by omega
  constructor
  · rintro X ⟨x, y, rfl, h, hcx, hcy⟩ ⟨z, hz, hk⟩ w hw hnk hl k hkm q hq hsub
    have hsame := tree_same hd hconn ht hf hnf ho e1 e2 hne h.expand h.xv h.at_face
    rw [← h.eq] at hsame
    have hlev : y.area.level = x.area.level := by rw [h.eq]; rfl
    simp only [List.mem_cons, List.not_mem_nil, or_false] at hz hw
    have hqL := W.leaf hq
    rcases hz with rfl | rfl <;> rcases hw with rfl | rfl
    · exact absurd hk hnk
    · have hk' := W.leaf hk
      rw [h.xt] at hk'
      rw [h.yt] at hqL
      refine balanced_kid hd0 W (g := nf) (by omega) ht ht' hk' h.yv hlev.symm hl ?_ (hcy k hkm).1 (by rw [← h.yf]; exact (hcy k hkm).2) hqL hsub
      intro c hc
      obtain ⟨a, ha, hs⟩ := hsame.2.2.2.2 c hc
      exact ⟨a, ha.1, facetOf_shares hf (by omega) hs⟩
    · have hk' := W.leaf hk
      rw [h.yt] at hk'
      rw [h.xt] at hqL
      refine balanced_kid hd0 W (g := f) (by omega) ht' ht hk' h.xv hlev hl ?_ (hcx k hkm).1 (by rw [← h.xf]; exact (hcx k hkm).2) hqL hsub
      intro c hc
      obtain ⟨a, ha, hs⟩ := hsame.2.2.2.1 c hc
      exact ⟨a, ha.1, sharesFacet_symm hd conn hconn ht (facetOf_shares hf (by omega) hs)⟩
    · exact absurd hk hnk
  · rintro X ⟨x, y, rfl, h, hcx, hcy⟩ hlev i hi
    exact ⟨x.kid i, y.kid i, rfl, h.kid hd hf hnf ho (hlev x (by simp)) hi, hcx, hcy⟩

/-- The search at the boundary of the domain. -/
theorem outer_search {t f : ℕ} : Search Lt Gt fun X => ∃ x : Spot d, X = [x] ∧ x.tree = t ∧ x.face = f ∧ Valid x.area ∧ TreeSide f x.area ∧
      x.toChild.length = 2 ^ (d - 1) ∧ ∀ k ∈ x.toChild, k < 2 ^ d ∧ OnFaceBit f k := by
  constructor
  · rintro X ⟨x, rfl, -⟩ ⟨z, hz, hk⟩ w hw hnk
    simp only [List.mem_cons, List.not_mem_nil, or_false] at hz hw
    subst hz
    subst hw
    exact absurd hk hnk
  · rintro X ⟨x, rfl, h1, h2, h3, h4, h5, h6⟩ hlev i hi
    have hl := hlev x (by simp)
    refine ⟨x.kid i, rfl, h1, h2, kid_valid h3 hl _, h4.kid hl ?_, h5, h6⟩
    rw [List.getD_eq_getElem _ _ (by omega)]
    exact (h6 _ (List.getElem_mem _)).2

end World

end P4est
