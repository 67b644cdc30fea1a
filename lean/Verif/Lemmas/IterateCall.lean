import Verif.Lemmas.IterateRun

/-! # What a call shows -/

namespace P4est
open Spec

variable {d : ℕ}

/-! ### The two sides of a facet -/

theorem facetOf_unique (hd : d = 2 ∨ d = 3) {conn : FaceConn} (hconn : FaceConsistent d conn) {f g g' : ℕ} (hf : f < 2 * d)
    (hg : g < 2 * d) (hg' : g' < 2 * d) {x y y' : ℕ × (Fin d → ℤ)} (hx : x.1 < conn.numTrees) (h : FacetOf conn f g x y)
    (h' : FacetOf conn f g' x y') : g' = g ∧ y' = y := by
  have hmix : ∀ {y : ℕ × (Fin d → ℤ)}, InTree y.2 → (∀ i : Fin d, y.2 i = if (i : ℕ) = f / 2 then (if f % 2 = 1 then x.2 i + 1 else x.2 i - 1) else x.2 i) →
      AtFace f x.2 → False := by
    intro y h2 h3 ha
    have h4 := ha ⟨f / 2, by omega⟩ rfl
    have h5 := h2 ⟨f / 2, by omega⟩
    rw [h3, if_pos rfl] at h5
    split at h4 <;> rename_i c <;> simp only [c, if_true, if_false] at h5 <;> omega
  obtain ⟨h1, h2, ⟨e, p1, p2, h3⟩ | ⟨o, T, k1, k2, k3, k4, k5, k6, k7⟩⟩ := h
  · obtain ⟨h1', h2', ⟨e', p1', p2', h3'⟩ | ⟨o', T', k1', k2', k3', k4', k5', k6', k7'⟩⟩ := h'
    · refine ⟨by omega, Prod.ext (e'.symm.trans e) (funext fun i => ?_)⟩
      rw [h3, h3']
    · exact (hmix h2 h3 k5').elim
  · obtain ⟨h1', h2', ⟨e', p1', p2', h3'⟩ | ⟨o', T', k1', k2', k3', k4', k5', k6', k7'⟩⟩ := h'
    · exact (hmix h2' h3' k5).elim
    · have ho : o < 2 ^ (d - 1) := by
        have := (hconn.range x.1 f _ _ hx hf k1 k2).2
        exact Nat.lt_of_mul_lt_mul_left (a := 2 * d) (by omega)
      rw [k1, Option.some.injEq] at k1'
      rw [k2, Option.some.injEq] at k2'
      have c1 := code_split (o := o) hg
      have c2 := code_split (o := o') hg'
      rw [k2'] at c1
      obtain rfl : g' = g := c2.1.symm.trans c1.1
      obtain rfl : o' = o := c2.2.symm.trans c1.2
      obtain rfl := C37_unique hd f g' o' hf hg' ho T T' k4 k4'
      refine ⟨rfl, Prod.ext k1'.symm ?_⟩
      exact facet_inj h2' k6 k6' (by rw [← k7', ← k7])

theorem facetOf_symm (hd : d = 2 ∨ d = 3) {conn : FaceConn} (hconn : FaceConsistent d conn) {f g : ℕ} (hf : f < 2 * d)
    (hg : g < 2 * d) {x y : ℕ × (Fin d → ℤ)} (hx : x.1 < conn.numTrees) (h : FacetOf conn f g x y) : FacetOf conn g f y x := by
  obtain ⟨h1, h2, ⟨e, p1, p2, h3⟩ | ⟨o, T, e1, e2, hne, hT, ha, hb, hF⟩⟩ := h
  · refine ⟨h2, h1, Or.inl ⟨e.symm, p1.symm, p2.symm, fun i => ?_⟩⟩
    have := h3 i
    rw [p1]
    split at this
    · rename_i c
      rw [if_pos c]
      split at this <;> split <;> omega
    · rename_i c
      rw [if_neg c, this]
  · obtain ⟨b1, b2⟩ := hconn.back x.1 f y.1 g o hx hf hg e1 e2
    have ho : o < 2 ^ (d - 1) := by
      have := (hconn.range x.1 f _ _ hx hf e1 e2).2
      exact Nat.lt_of_mul_lt_mul_left (a := 2 * d) (by omega)
    obtain ⟨ft, he, h⟩ := expand_good hd hf hg ho
    obtain ⟨ft', he', h'⟩ := expand_good hd hg hf ho
    have hi := expand_inverse hd hf hg ho he he'
    have hi' := expand_inverse hd hg hf ho he' he
    rw [hT.eq_image hd hf hg ho he, h.facets h' hi' h2 ha hb] at hF
    refine ⟨h2, h1, Or.inr ⟨o, faceImage ft' 0, b1, b2, ?_, (expand_glues hd hg hf ho he').2, hb, ha, ?_⟩⟩
    · exact hne.imp Ne.symm Ne.symm
    · rw [h'.facets h hi h1 hb ha, hF, h.nb, hi.image h h']

section World

variable {conn : FaceConn} {Leaf : ℕ → Quad d → Prop} {Lt Gt : ℕ → List (Quad d)} {G : List (Quad d)} {goff : ℕ → ℕ}

/-! ### Entries -/

/-- The lists that are searched are what the rank knows. -/
structure KnownOk (conn : FaceConn) (K : Known d) (Lt Gt : ℕ → List (Quad d)) (G : List (Quad d)) (goff : ℕ → ℕ) : Prop where
  loc : ∀ t, K.loc t = Lt t
  gho : ∀ t q, (t, q) ∈ K.gho ↔ q ∈ Gt t
  num : ∀ t < conn.numTrees, ∀ n, goff t ≤ n → n < goff (t + 1) → ∀ q, G[n]? = some q → K.gho[n]? = some (t, q)

theorem KnownOk.has {K : Known d} (h : KnownOk conn K Lt Gt G goff) (x : ℕ × Quad d) : K.Has x ↔ Kn Lt Gt x.1 x.2 := by
  unfold Known.Has Kn
  rw [h.loc, ← h.gho]

theorem meet_nested {a b : Quad d} (ha : Valid a) (hb : Valid b) {c : Fin d → ℤ} (h1 : c ∈ Cells a) (h2 : c ∈ Cells b) :
    Cells a ⊆ Cells b ∨ Cells b ⊆ Cells a := by
  rcases C03_nested_or_disjoint a b ha.extended hb.extended with h | h | h
  · exact Or.inr h
  · exact Or.inl h
  · exact absurd ⟨h1, h2⟩ (h c)

theorem slot_none (hd : 0 < d) (W : IterWorld conn Leaf Lt Gt) {t : ℕ} {b : Quad d} (hb : Valid b)
    (hfree : ∀ q, Kn Lt Gt t q → ¬ Cells b ⊂ Cells q) (hno : ∀ q, Kn Lt Gt t q → ¬ Cells q ⊆ Cells b) {q : Quad d}
    (hq : Kn Lt Gt t q) {c : Fin d → ℤ} (h1 : c ∈ Cells q) (h2 : c ∈ Cells b) : False := by
  have hqv := W.valid t q (W.leaf hq)
  rcases meet_nested hqv hb h1 h2 with h | h
  · exact hno q hq h
  · exact hfree q hq (valid_ssubset_of_ne hd hqv hb h fun c => hno q hq (by rw [c]))

theorem SlotOk.shows (hd : 0 < d) (W : IterWorld conn Leaf Lt Gt) {K : Known d} (hK : KnownOk conn K Lt Gt G goff) {t : ℕ}
    (ht : t < conn.numTrees) {b : Quad d} (hb : Valid b) (hfree : ∀ q, Kn Lt Gt t q → ¬ Cells b ⊂ Cells q) {x : FaceSlot d}
    (h : SlotOk Lt Gt G goff t b x) : SlotShows K t b x := by
  rcases h with ⟨-, n, h1, rfl⟩ | ⟨-, -, n, h1, h2, h3, rfl⟩ | ⟨-, -, h1, rfl⟩
  · exact Or.inl ⟨n, by rw [hK.loc]; exact h1, rfl⟩
  · exact Or.inr (Or.inl ⟨n, hK.num t ht n h1 h2 b h3, rfl⟩)
  · refine Or.inr (Or.inr ⟨rfl, fun y hy hyt => Set.disjoint_left.mpr fun c c1 c2 => ?_⟩)
    have hy' := (hK.has y).mp hy
    rw [hyt] at hy'
    exact slot_none hd W hb hfree h1 hy' c1 c2

theorem SideOk.shows (hd : 0 < d) (W : IterWorld conn Leaf Lt Gt) {K : Known d} (hK : KnownOk conn K Lt Gt G goff) {fs : FaceSide d}
    {t f : ℕ} (ht : t < conn.numTrees) {a : Quad d} (h : SideOk Lt Gt G goff fs t f a) : SideShows K fs a := by
  have hdata := h.data
  unfold SideShows
  rw [h.tree, h.face]
  split at hdata
  · rename_i x e
    rw [e]
    exact hdata.shows hd W hK ht h.valid h.free
  · rename_i xs e
    obtain ⟨h1, h2, Y, rfl, h3⟩ := hdata
    rw [e]
    refine ⟨h1, fun c => h2 ((hK.has _).mp c), by simp, fun j hj => ?_⟩
    obtain ⟨k, k1, k2, k3, k4⟩ := h3 j hj
    refine ⟨k, Y j, k1, by simp [hj], k4.shows hd W hK ht (kid_valid h.valid h1 k) ?_⟩
    exact free_kid hd W h.valid h1 h2 h.free k2

theorem SideOk.leaf {K : Known d} (hK : KnownOk conn K Lt Gt G goff) {fs : FaceSide d} {t f : ℕ} {a : Quad d}
    (h : SideOk Lt Gt G goff fs t f a) (hk : Kn Lt Gt t a) : FullLeaf K fs a := by
  refine ⟨?_, h.full hk⟩
  rw [hK.has]
  dsimp only
  rw [h.tree]
  exact hk

/-- A known leaf at the face is listed. -/
theorem SideOk.lists (hd : d = 2 ∨ d = 3) (W : IterWorld conn Leaf Lt Gt) {fs : FaceSide d} {t f : ℕ} {a : Quad d}
    (h : SideOk Lt Gt G goff fs t f a) {q : Quad d} (hq : Kn Lt Gt t q) {b : Fin d → ℤ} (hbq : b ∈ Cells q) (hba : CellAtFace f a b) :
    Lists fs q := by
  have hd0 : 0 < d := by omega
  have hslot : ∀ {a : Quad d} {x : FaceSlot d}, Valid a → (∀ q, Kn Lt Gt t q → ¬ Cells a ⊂ Cells q) → SlotOk Lt Gt G goff t a x →
      b ∈ Cells a → x.quad = some q := by
    intro a x hav hfree hx hb
    have heq : Kn Lt Gt t a → a = q := fun hk => W.disj t a q b (W.leaf hk) (W.leaf hq) hb hbq
    rcases hx with ⟨h1, n, -, rfl⟩ | ⟨h1, -, n, -, -, -, rfl⟩ | ⟨-, -, h1, rfl⟩
    · rw [heq (Or.inl h1)]
    · rw [heq (Or.inr h1)]
    · exact (slot_none hd0 W hav hfree h1 hq hbq hb).elim
  have hdata := h.data
  unfold Lists
  split at hdata
  · rename_i x e
    rw [e]
    exact ⟨x, by simp [SideData.slots], hslot h.valid h.free hdata hba.1⟩
  · rename_i xs e
    obtain ⟨h1, h2, Y, rfl, h3⟩ := hdata
    rw [e]
    -- the child that has the cell
    obtain ⟨k, hk, hbk⟩ : ∃ k < 2 ^ d, b ∈ Cells (kid a k) := by
      have hc := cellOf_cell (valid_cells_inTree h.valid hba.1)
      have hcs : Cells (cellOf b) ⊂ Cells a := by
        refine valid_ssubset_of_ne hd0 h.valid hc.1 ?_ (fun c => by have := hc.2; rw [c] at this; omega)
        rcases meet_nested hc.1 h.valid (cellOf_mem b) hba.1 with g | g
        · exact g
        · exfalso
          by_cases ce : a = cellOf b
          · rw [ce, hc.2] at h1; omega
          · have := ((valid_ssubset_iff hd0 hc.1 h.valid).mp (valid_ssubset_of_ne hd0 hc.1 h.valid g ce)).1
            rw [hc.2] at this
            omega
      obtain ⟨-, k1, k2⟩ := kid_of_ssubset hd0 h.valid hc.1 hcs
      exact ⟨_, k1, (k2 _ k1).mpr rfl (cellOf_mem b)⟩
    have hface : OnFaceBit f k := by
      set i : Fin d := ⟨f / 2, by have := h.face_lt; omega⟩ with hi
      have g1 := hba.2 i rfl
      have g2 := hbk i
      have g3 := side_kid h1 k
      have g4 := side_pos (kid a k)
      rw [kid_c] at g2
      unfold OnFaceBit
      have hii : (i : ℕ) = f / 2 := rfl
      rw [hii] at g2
      by_cases cb : k.testBit (f / 2) = true <;> by_cases co : f % 2 = 1 <;> simp [cb, co] at g1 g2 ⊢ <;> omega
    obtain ⟨j, hj, -, hjk⟩ := corner_table hd h.face_lt hk hface
    obtain ⟨k', m1, m2, m3, m4⟩ := h3 j hj
    obtain rfl : k' = k := by rw [hjk] at m1; exact (Option.some.inj m1).symm
    refine ⟨Y j, ?_, hslot (kid_valid h.valid h1 k') (free_kid hd0 W h.valid h1 h2 h.free m2) m4 hbk⟩
    show Y j ∈ (List.range (2 ^ (d - 1))).map Y
    exact List.mem_map_of_mem (List.mem_range.mpr hj)

/-! ### Calls -/

/-- The form of a call: the areas on its sides. -/
inductive CallForm (conn : FaceConn) (Lt Gt : ℕ → List (Quad d)) (G : List (Quad d)) (goff : ℕ → ℕ) (c : FaceInfo d) : Prop
  | outside (fs : FaceSide d) (x : ℕ × ℕ) (a : Quad d) (sides : c.sides = [fs]) (ok : SideOk Lt Gt G goff fs x.1 x.2 a)
      (tree : x.1 < conn.numTrees) (mate : faceMate d conn x = x) (at_face : TreeSide x.2 a) (known : Kn Lt Gt x.1 a)
      (boundary : c.treeBoundary = true) (orientation : c.orientation = 0)
  | pair (fs fs' : FaceSide d) (x y : ℕ × ℕ) (a a' : Quad d) (sides : c.sides = [fs, fs']) (ok : SideOk Lt Gt G goff fs x.1 x.2 a)
      (ok' : SideOk Lt Gt G goff fs' y.1 y.2 a') (tree : x.1 < conn.numTrees) (tree' : y.1 < conn.numTrees)
      (same : SameFace conn x.2 y.2 (x.1, a) (y.1, a')) (known : Kn Lt Gt x.1 a ∨ Kn Lt Gt y.1 a')
      (kind : (c.treeBoundary = false ∧ c.orientation = 0 ∧ y.1 = x.1 ∧ x.2 % 2 = 1 ∧ y.2 + 1 = x.2 ∧
          ∀ b, CellAtFace x.2 a b → ¬ AtFace x.2 b) ∨
        (c.treeBoundary = true ∧ conn.treeToTree[2 * d * x.1 + x.2]? = some y.1 ∧
          conn.treeToFace[2 * d * x.1 + x.2]? = some (y.2 + 2 * d * c.orientation) ∧
          (x.1 < y.1 ∨ x.1 = y.1 ∧ x.2 < y.2) ∧ ∀ b, CellAtFace x.2 a b → AtFace x.2 b))

theorem InnerCall.form (hd : d = 2 ∨ d = 3) (hconn : FaceConsistent d conn) {t : ℕ} (ht : t < conn.numTrees) {c : FaceInfo d}
    (h : InnerCall Lt Gt G goff t c) : CallForm conn Lt Gt G goff c := by
  obtain ⟨dir, X, ⟨x, y, rfl, hp, -, -⟩, ho, hb, hs, hk, -⟩ := h
  have hdir := hp.dir_lt
  cases hs' : c.sides with
  | nil => rw [hs'] at hs; cases hs
  | cons fs rest =>
    rw [hs'] at hs
    cases hs with
    | cons s1 s2 =>
      cases s2 with
      | cons s2 s3 =>
        cases s3
        rename_i fs'
        rw [hp.xt, hp.xf] at s1
        rw [hp.yt, hp.yf] at s2
        have hx : (2 * dir + 1) ^^^ 1 = 2 * dir := by rw [xor_one_eq, if_neg (by omega)]; omega
        have hv : Valid (faceNeighbor x.area (2 * dir + 1)) := by rw [← hp.eq]; exact hp.yv
        obtain ⟨g1, g2⟩ := inner_same hd hconn ht (show 2 * dir + 1 < 2 * d by omega) hp.xv hv
        rw [hx, ← hp.eq] at g1
        refine .pair fs fs' (t, 2 * dir + 1) (t, 2 * dir) x.area y.area hs' s1 s2 ht ht g1 ?_
          (Or.inl ⟨hb, ho, rfl, by dsimp only; omega, rfl, g2⟩)
        obtain ⟨z, hz, hkz⟩ := hk
        simp only [List.mem_cons, List.not_mem_nil, or_false] at hz
        rcases hz with rfl | rfl
        · left; rw [hp.xt] at hkz; exact hkz
        · right; rw [hp.yt] at hkz; exact hkz

theorem TreeCall.form (hd : d = 2 ∨ d = 3) (hconn : FaceConsistent d conn) {x : ℕ × ℕ} (hx : IsFace d conn x)
    (htop : faceTop d conn x = x) {c : FaceInfo d} (h : TreeCall conn Lt Gt G goff x c) : CallForm conn Lt Gt G goff c := by
  rcases h with ⟨hm, X, ⟨z, rfl, z1, z2, z3, z4, -⟩, ho, hb, hs, hk, -⟩ | ⟨hm, o, ft, k1, k2, ho', X, ⟨z, w, rfl, hp, -, -⟩, ho, hb, hs, hk, -⟩
  · cases hs' : c.sides with
    | nil => rw [hs'] at hs; cases hs
    | cons fs rest =>
      rw [hs'] at hs
      cases hs with
      | cons s1 s2 =>
        cases s2
        rw [z1, z2] at s1
        refine .outside fs x z.area hs' s1 hx.1 hm z4 ?_ hb ho
        obtain ⟨u, hu, hku⟩ := hk
        simp only [List.mem_singleton] at hu
        subst hu
        rw [z1] at hku
        exact hku
  · cases hs' : c.sides with
    | nil => rw [hs'] at hs; cases hs
    | cons fs rest =>
      rw [hs'] at hs
      cases hs with
      | cons s1 s2 =>
        cases s2 with
        | cons s2 s3 =>
          cases s3
          rename_i fs'
          rw [hp.xt, hp.xf] at s1
          rw [hp.yt, hp.yf] at s2
          obtain ⟨-, -, -, hmf, -⟩ := mate_entries hconn hx
          have hle := mate_le htop
          have hlt : (faceMate d conn x).1 < x.1 ∨ ((faceMate d conn x).1 = x.1 ∧ (faceMate d conn x).2 < x.2) := by
            rcases hle with c | ⟨c, c'⟩
            · exact Or.inl c
            · refine Or.inr ⟨c, lt_of_le_of_ne c' fun c2 => hm (Prod.ext c c2)⟩
          have hne : x.1 ≠ (faceMate d conn x).1 ∨ x.2 ≠ (faceMate d conn x).2 := by omega
          have hsame := tree_same hd hconn hmf.1 hmf.2 hx.2 ho' k1 k2 hne hp.expand hp.xv hp.at_face
          rw [← hp.eq] at hsame
          refine .pair fs fs' (faceMate d conn x) x z.area w.area hs' s1 s2 hmf.1 hx.1 hsame ?_
            (Or.inr ⟨hb, k1, by rw [ho]; exact k2, hlt, hp.at_face.cells⟩)
          obtain ⟨u, hu, hku⟩ := hk
          simp only [List.mem_cons, List.not_mem_nil, or_false] at hu
          rcases hu with rfl | rfl
          · left; rw [hp.xt] at hku; exact hku
          · right; rw [hp.yt] at hku; exact hku

theorem CallForm.ok (hd : d = 2 ∨ d = 3) (hconn : FaceConsistent d conn) (W : IterWorld conn Leaf Lt Gt) {K : Known d}
    (hK : KnownOk conn K Lt Gt G goff) {c : FaceInfo d} (h : CallForm conn Lt Gt G goff c) : FaceCallOk conn K c := by
  have hd0 : 0 < d := by omega
  cases h with
  | outside fs x a sides ok tree mate at_face known boundary orientation =>
    have hx : IsFace d conn x := ⟨tree, ok.face_lt⟩
    obtain ⟨o, e1, e2, -, -⟩ := mate_entries hconn hx
    rw [mate] at e1 e2
    obtain rfl := hconn.boundary _ _ _ hx.1 hx.2 e1 e2
    refine .outside fs a sides boundary orientation ?_ ?_ ok.valid ?_ (ok.shows hd0 W hK tree) (ok.leaf hK known)
    · rw [ok.tree, ok.face]; exact e1
    · rw [ok.tree, ok.face]; simpa using e2
    · rw [ok.face]; exact at_face.cells
  | pair fs fs' x y a a' sides ok ok' tree tree' same known kind =>
    have hleaf : FullLeaf K fs a ∨ FullLeaf K fs' a' := known.imp (ok.leaf hK) (ok'.leaf hK)
    have hsame : SameFace conn fs.face fs'.face (fs.tree, a) (fs'.tree, a') := by
      rw [ok.tree, ok.face, ok'.tree, ok'.face]; exact same
    rcases kind with ⟨b1, b2, b3, b4, b5, b6⟩ | ⟨b1, b2, b3, b4, b5⟩
    · refine .inside fs fs' a a' sides b1 b2 ?_ ?_ ?_ hsame ?_ (ok.shows hd0 W hK tree) (ok'.shows hd0 W hK tree') hleaf
      · rw [ok.tree, ok'.tree, b3]
      · rw [ok.face, b4]
      · rw [ok.face, ok'.face, b5]
      · rw [ok.face]; exact b6
    · refine .between fs fs' a a' sides b1 ?_ ?_ ?_ hsame ?_ (ok.shows hd0 W hK tree) (ok'.shows hd0 W hK tree') hleaf
      · rw [ok.tree, ok.face, ok'.tree]; exact b2
      · rw [ok.tree, ok.face, ok'.face]; exact b3
      · rw [ok.tree, ok.face, ok'.tree, ok'.face]; exact b4
      · rw [ok.face]; exact b5

theorem CallForm.range {c : FaceInfo d} (h : CallForm conn Lt Gt G goff c) : ∀ s ∈ c.sides, s.tree < conn.numTrees ∧ s.face < 2 * d := by
  cases h with
  | outside fs x a sides ok tree mate at_face known boundary orientation =>
    rw [sides]
    intro s hs
    obtain rfl := List.mem_singleton.mp hs
    rw [ok.tree, ok.face]
    exact ⟨tree, ok.face_lt⟩
  | pair fs fs' x y a a' sides ok ok' tree tree' same known kind =>
    rw [sides]
    intro s hs
    rcases List.mem_pair.mp hs with rfl | rfl
    · rw [ok.tree, ok.face]
      exact ⟨tree, ok.face_lt⟩
    · rw [ok'.tree, ok'.face]
      exact ⟨tree', ok'.face_lt⟩

theorem SideOk.local {fs : FaceSide d} {t f : ℕ} {a : Quad d} (h : SideOk Lt Gt G goff fs t f a) {e : (ℕ × Quad d) × ℕ}
    (he : e ∈ sideFaces fs) : AtSide Lt e t f a := by
  have : 0 < (sideFaces fs).count e := List.count_pos_iff.mpr he
  rw [h.count] at this
  by_contra hn
  rw [ind_false hn] at this
  omega

theorem CallForm.both (hd : d = 2 ∨ d = 3) (hconn : FaceConsistent d conn) (W : IterWorld conn Leaf Lt Gt) {c : FaceInfo d}
    (h : CallForm conn Lt Gt G goff c) {x : ℕ × Quad d} {f : ℕ} (he : (x, f) ∈ localFaces (.face c)) {y : ℕ × Quad d} {g : ℕ}
    (hg : g < 2 * d) (hy : Kn Lt Gt y.1 y.2) (hm : FacesMeet conn f g x y) : BothListed c x f y g := by
  obtain ⟨b, b', hb, hb', hf⟩ := hm
  obtain ⟨s, hs, hes⟩ := List.mem_flatMap.mp he
  cases h with
  | outside fs z a sides ok tree mate at_face known boundary orientation =>
    exfalso
    rw [sides, List.mem_singleton] at hs
    subst hs
    obtain ⟨p1, p2, p3, p4, p5⟩ := ok.local hes
    dsimp only at p1 p2 p3 p4 p5
    have hz : IsFace d conn z := ⟨tree, ok.face_lt⟩
    obtain ⟨o, e1, e2, -, -⟩ := mate_entries hconn hz
    rw [mate] at e1 e2
    subst p2
    have hbx : CellAtFace z.2 a b := ((onSide_layer p4 p5).mp hb).1
    have hat := at_face.cells b hbx
    obtain ⟨h1, h2, ⟨e, q1, q2, h3⟩ | ⟨o', T, k1, k2, k3, -⟩⟩ := hf
    · have h4 := hat ⟨z.2 / 2, by have := hz.2; omega⟩ rfl
      have h5 := h2 ⟨z.2 / 2, by have := hz.2; omega⟩
      rw [h3, if_pos rfl] at h5
      split at h4 <;> rename_i c <;> simp only [c, if_true, if_false] at h5 <;> omega
    · dsimp only at k1 k2 k3
      rw [p1] at k1 k2 k3
      rw [e1, Option.some.injEq] at k1
      rw [e2, Option.some.injEq] at k2
      have c1 := code_split (o := o) hz.2
      have c2 := code_split (o := o') hg
      rw [k2] at c1
      have : g = z.2 := c2.1.symm.trans c1.1
      rcases k3 with k3 | k3
      · exact k3 k1.symm
      · exact k3 this
  | pair fs fs' u w a a' sides ok ok' tree tree' same known kind =>
    rw [sides] at hs
    simp only [List.mem_cons, List.not_mem_nil, or_false] at hs
    rcases hs with rfl | rfl
    · obtain ⟨p1, p2, p3, p4, p5⟩ := ok.local hes
      dsimp only at p1 p2 p3 p4 p5
      subst p2
      have hbx : CellAtFace u.2 a b := ((onSide_layer p4 p5).mp hb).1
      obtain ⟨b2, hb2, hf2⟩ := same.2.2.2.1 b hbx
      rw [p1] at hf
      obtain ⟨g1, g2⟩ := facetOf_unique hd hconn ok.face_lt ok'.face_lt hg tree hf2 hf
      obtain ⟨g3, g4⟩ := Prod.ext_iff.mp g2
      dsimp only at g3 g4
      subst g4
      refine ⟨s, fs', Or.inl sides, ok.tree.trans p1.symm, ok.face, ok.lists hd W (Or.inl p3) hb.1 hbx, ok'.tree.trans g3.symm,
        ok'.face.trans g1.symm, ok'.lists hd W (g3 ▸ hy) hb'.1 hb2⟩
    · obtain ⟨p1, p2, p3, p4, p5⟩ := ok'.local hes
      dsimp only at p1 p2 p3 p4 p5
      subst p2
      have hbx : CellAtFace w.2 a' b := ((onSide_layer p4 p5).mp hb).1
      obtain ⟨b2, hb2, hf2⟩ := same.2.2.2.2 b hbx
      rw [p1] at hf
      have hf3 := facetOf_symm hd hconn ok.face_lt ok'.face_lt tree hf2
      obtain ⟨g1, g2⟩ := facetOf_unique hd hconn ok'.face_lt ok.face_lt hg tree' hf3 hf
      obtain ⟨g3, g4⟩ := Prod.ext_iff.mp g2
      dsimp only at g3 g4
      subst g4
      refine ⟨s, fs, Or.inr sides, ok'.tree.trans p1.symm, ok'.face, ok'.lists hd W (Or.inl p3) hb.1 hbx, ok.tree.trans g3.symm,
        ok.face.trans g1.symm, ok.lists hd W (g3 ▸ hy) hb'.1 hb2⟩

end World

end P4est
