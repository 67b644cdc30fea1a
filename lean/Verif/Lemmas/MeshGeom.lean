import Verif.Spec.Mesh
import Verif.Lemmas.IterateRank
import Verif.Props.Connectivity

/-! # Quadrants on the two sides of a face, and their children -/

namespace P4est
open Spec

variable {d : ℕ}

/-- The quadrants `x` and `y` of the same size have a common face. -/
structure Joined (conn : FaceConn) (f g o : ℕ) (x y : ℕ × Quad d) : Prop where
  face : f < 2 * d
  face' : g < 2 * d
  orientation : o < 2 ^ (d - 1)
  tree : x.1 < conn.numTrees
  tree' : y.1 < conn.numTrees
  same : SameFace conn f g x y
  oriented : Oriented conn f g o x y.1

theorem sameFace_symm (hd : d = 2 ∨ d = 3) {conn : FaceConn} (hconn : FaceConsistent d conn) {f g : ℕ} (hf : f < 2 * d) (hg : g < 2 * d)
    {x y : ℕ × Quad d} (hx : x.1 < conn.numTrees) (h : SameFace conn f g x y) : SameFace conn g f y x := by
  obtain ⟨h1, h2, h3, h4, h5⟩ := h
  refine ⟨h2, h1, h3.symm, fun b hb => ?_, fun a ha => ?_⟩
  · obtain ⟨a, ha, hf'⟩ := h5 b hb
    exact ⟨a, ha, facetOf_symm hd hconn hf hg hx hf'⟩
  · obtain ⟨b, hb, hf'⟩ := h4 a ha
    exact ⟨b, hb, facetOf_symm hd hconn hf hg hx hf'⟩

theorem sameFace_unique (hd : d = 2 ∨ d = 3) {conn : FaceConn} (hconn : FaceConsistent d conn) {f g g' : ℕ} (hf : f < 2 * d) (hg : g < 2 * d)
    (hg' : g' < 2 * d) {x y y' : ℕ × Quad d} (hx : x.1 < conn.numTrees) (h : SameFace conn f g x y) (h' : SameFace conn f g' x y') :
    g' = g ∧ y' = y := by
  obtain ⟨h1, h2, h3, h4, -⟩ := h
  obtain ⟨-, h2', h3', h4', -⟩ := h'
  obtain ⟨a, ha⟩ : ∃ a, CellAtFace f x.2 a := layer_nonempty x.2 f
  obtain ⟨b, hb, e⟩ := h4 a ha
  obtain ⟨b', hb', e'⟩ := h4' a ha
  obtain ⟨e1, e2⟩ := facetOf_unique hd hconn hf hg hg' hx e e'
  obtain ⟨e3, e4⟩ := Prod.ext_iff.mp e2
  dsimp only at e3 e4
  subst e4
  refine ⟨e1, Prod.ext e3 ?_⟩
  have hd0 : 0 < d := by omega
  rcases meet_nested h2' h2 hb'.1 hb.1 with c | c
  · exact same_level_eq hd0 h2' h2 (by omega) c
  · exact (same_level_eq hd0 h2 h2' (by omega) c).symm

theorem treeSide_of_cells {f : ℕ} {a : Quad d} (h : ∀ b, CellAtFace f a b → AtFace f b) : TreeSide f a := by
  obtain ⟨b, hb⟩ : ∃ b, CellAtFace f a b := layer_nonempty a f
  intro i hi
  have h1 := hb.2 i hi
  have h2 := h b hb i hi
  split at h1 <;> rename_i c <;> simp only [c, if_true, if_false] at h2 ⊢ <;> omega

theorem side_dvd_root {q : Quad d} : side q ∣ 2 ^ 30 := by
  unfold side
  exact pow_dvd_pow _ (by omega)

theorem neighbor_inside {f : ℕ} {a : Quad d} (ha : Valid a) (h : ∀ b, CellAtFace f a b → ¬ AtFace f b) : Valid (faceNeighbor a f) := by
  refine ⟨ha.1, (C14_face_neighbor a ha f).2.1.2.1, fun i => ?_⟩
  have h1 := ha.2.2 i
  have hs := side_pos a
  rw [neighbor_c]
  by_cases hi : (i : ℕ) = f / 2
  · rw [if_pos hi]
    obtain ⟨b, hb⟩ : ∃ b, CellAtFace f a b := layer_nonempty a f
    have h2 := h b hb
    have h3 := hb.2 i hi
    obtain ⟨m, hm⟩ := ha.2.1.2 i
    obtain ⟨n, hn⟩ := side_dvd_root (q := a)
    have h4 : ¬ (b i = if f % 2 = 1 then 2 ^ 30 - 1 else 0) := by
      intro c
      refine h2 fun j hj => ?_
      obtain rfl : j = i := Fin.ext (hj.trans hi.symm)
      exact c
    rw [hm, hn] at h1
    by_cases c : f % 2 = 1
    · simp only [c, if_true] at h3 h4 ⊢
      rw [hm] at h3 ⊢
      have h5 : side a * m + side a ≠ side a * n := by rw [← hn]; omega
      have h6 : m < n := lt_of_mul_lt_mul_left h1.2 hs.le
      have h7 : m + 1 ≠ n := by
        rintro rfl
        exact h5 (by ring)
      have h8 : side a * (m + 1) < side a * n := mul_lt_mul_of_pos_left (by omega) hs
      rw [hn]
      constructor
      · omega
      · rw [mul_add, mul_one] at h8
        exact h8
    · simp only [c, if_false] at h3 h4 ⊢
      rw [hm] at h3 ⊢
      have h5 : m ≠ 0 := by
        rintro rfl
        rw [mul_zero] at h3
        exact h4 h3
      have h6 : 0 ≤ m := by
        by_contra c
        have : side a * m < 0 := mul_neg_of_pos_of_neg hs (by omega)
        omega
      have h7 : side a * 1 ≤ side a * m := mul_le_mul_of_nonneg_left (by omega) hs.le
      rw [mul_one] at h7
      rw [hn]
      omega
  · rw [if_neg hi]
    exact h1

/-! ### The other side -/

theorem facetOf_at {conn : FaceConn} {f g : ℕ} (hf : f < 2 * d) {x y : ℕ × (Fin d → ℤ)} (h : FacetOf conn f g x y) (ha : AtFace f x.2) :
    ∃ o, ∃ T : (Fin d → ℤ) → Fin d → ℤ, conn.treeToTree[2 * d * x.1 + f]? = some y.1 ∧ conn.treeToFace[2 * d * x.1 + f]? = some (g + 2 * d * o) ∧
      (y.1 ≠ x.1 ∨ g ≠ f) ∧ Glues f g o T ∧ AtFace g y.2 := by
  obtain ⟨h1, h2, ⟨e, -, -, h3⟩ | ⟨o, T, k1, k2, k3, k4, -, k5, -⟩⟩ := h
  · exfalso
    have h4 := ha ⟨f / 2, by omega⟩ rfl
    have h5 := h2 ⟨f / 2, by omega⟩
    rw [h3, if_pos rfl] at h5
    split at h4 <;> rename_i c <;> simp only [c, if_true, if_false] at h5 <;> omega
  · exact ⟨o, T, k1, k2, k3, k4, k5⟩

theorem facetOf_off {conn : FaceConn} {f g : ℕ} (hg : g < 2 * d) {x y : ℕ × (Fin d → ℤ)} (h : FacetOf conn f g x y)
    (ha : ¬ AtFace f x.2) : x.1 = y.1 ∧ g = f ^^^ 1 ∧ ¬ AtFace g y.2 := by
  obtain ⟨h1, h2, ⟨e, p1, p2, h3⟩ | ⟨o, T, k1, k2, k3, k4, k5, -⟩⟩ := h
  · refine ⟨e, ?_, fun hc => ?_⟩
    · rw [xor_one_eq]; split <;> omega
    · have h4 := hc ⟨g / 2, by omega⟩ rfl
      have h5 := h1 ⟨g / 2, by omega⟩
      rw [h3, if_pos p1] at h4
      split at h4 <;> rename_i c <;> split at h4 <;> omega
  · exact absurd k5 ha

theorem Joined.kind {conn : FaceConn} {f g o : ℕ} {x y : ℕ × Quad d} (h : Joined conn f g o x y) :
    (y.1 = x.1 ∧ g = f ^^^ 1 ∧ o = 0 ∧ (∀ b, CellAtFace f x.2 b → ¬ AtFace f b) ∧ ∀ b, CellAtFace g y.2 b → ¬ AtFace g b) ∨
    ((∀ b, CellAtFace f x.2 b → AtFace f b) ∧ (∀ b, CellAtFace g y.2 b → AtFace g b) ∧ (y.1 ≠ x.1 ∨ g ≠ f) ∧
      conn.treeToTree[2 * d * x.1 + f]? = some y.1 ∧ conn.treeToFace[2 * d * x.1 + f]? = some (g + 2 * d * o)) := by
  obtain ⟨b0, hb0⟩ : ∃ b, CellAtFace g y.2 b := layer_nonempty y.2 g
  obtain ⟨a0, ha0, h0⟩ := h.same.2.2.2.2 b0 hb0
  rcases h.oriented with ⟨e1, e2, e3⟩ | ⟨e1, e2, e3⟩
  · left
    refine ⟨e1, (facetOf_off h.face' h0 (e3 a0 ha0)).2.1, e2, e3, fun b hb => ?_⟩
    obtain ⟨a, ha, h1⟩ := h.same.2.2.2.2 b hb
    exact (facetOf_off h.face' h1 (e3 a ha)).2.2
  · right
    obtain ⟨o', T, -, -, hne, -⟩ := facetOf_at h.face h0 (e1 a0 ha0)
    refine ⟨e1, fun b hb => ?_, hne, e2, e3⟩
    obtain ⟨a, ha, h1⟩ := h.same.2.2.2.2 b hb
    obtain ⟨-, -, -, -, -, -, hat⟩ := facetOf_at h.face h1 (e1 a ha)
    exact hat

theorem Joined.symm (hd : d = 2 ∨ d = 3) {conn : FaceConn} (hconn : FaceConsistent d conn) {f g o : ℕ} {x y : ℕ × Quad d}
    (h : Joined conn f g o x y) : Joined conn g f o y x := by
  refine ⟨h.face', h.face, h.orientation, h.tree', h.tree, sameFace_symm hd hconn h.face h.face' h.tree h.same, ?_⟩
  rcases h.kind with ⟨e1, -, e3, -, e5⟩ | ⟨-, e2, -, e4, e5⟩
  · exact Or.inl ⟨e1.symm, e3, e5⟩
  · obtain ⟨b1, b2⟩ := hconn.back _ _ _ _ _ h.tree h.face h.face' e4 e5
    exact Or.inr ⟨e2, b1, b2⟩

/-! ### Children -/

/-- The corners of opposite faces. -/
def OppositeBits (d f k k' : ℕ) : Prop :=
  k < 2 ^ d ∧ k' < 2 ^ d ∧ OnFaceBit f k ∧ OnFaceBit (f ^^^ 1) k' ∧ ∀ j < d, j ≠ f / 2 → k.testBit j = k'.testBit j

instance (d f k k' : ℕ) : Decidable (OppositeBits d f k k') := by unfold OppositeBits OnFaceBit; infer_instance

theorem opposite2 : ∀ f : Fin 4, ∀ h : Fin 2, (match faceCorner 2 f h, faceNeighborFaceCorner 2 h f (f ^^^ 1 : ℕ) 0, faceCorner 2 (f ^^^ 1 : ℕ) h with
    | some k, some pos, some k' => decide (pos = h ∧ OppositeBits 2 f k k')
    | _, _, _ => false) = true := by decide +kernel

theorem opposite3 : ∀ f : Fin 6, ∀ h : Fin 4, (match faceCorner 3 f h, faceNeighborFaceCorner 3 h f (f ^^^ 1 : ℕ) 0, faceCorner 3 (f ^^^ 1 : ℕ) h with
    | some k, some pos, some k' => decide (pos = h ∧ OppositeBits 3 f k k')
    | _, _, _ => false) = true := by decide +kernel

theorem opposite (hd : d = 2 ∨ d = 3) {f h : ℕ} (hf : f < 2 * d) (hh : h < 2 ^ (d - 1)) : ∃ k k', faceCorner d f h = some k ∧
    faceNeighborFaceCorner d h f (f ^^^ 1) 0 = some h ∧ faceCorner d (f ^^^ 1) h = some k' ∧ OppositeBits d f k k' := by
  rcases hd with rfl | rfl
  · have := opposite2 ⟨f, hf⟩ ⟨h, hh⟩
    split at this
    · rename_i k pos k' e1 e2 e3
      obtain ⟨rfl, h2⟩ := of_decide_eq_true this
      exact ⟨k, k', e1, e2, e3, h2⟩
    · cases this
  · have := opposite3 ⟨f, hf⟩ ⟨h, hh⟩
    split at this
    · rename_i k pos k' e1 e2 e3
      obtain ⟨rfl, h2⟩ := of_decide_eq_true this
      exact ⟨k, k', e1, e2, e3, h2⟩
    · cases this

theorem neighbor_kid {f : ℕ} {a : Quad d} (hl : a.level < 29) {k k' : ℕ} (h : OppositeBits d f k k') :
    kid (faceNeighbor a f) k' = faceNeighbor (kid a k) f := by
  obtain ⟨-, -, b1, b2, b3⟩ := h
  have hs := side_kid hl k
  have hs' : side (kid (faceNeighbor a f) k') = side (kid a k) := rfl
  refine congrArg₂ Quad.mk (funext fun j => ?_) rfl
  show (kid (faceNeighbor a f) k').c j = (faceNeighbor (kid a k) f).c j
  rw [kid_c, hs', neighbor_c, neighbor_c, kid_c]
  unfold OnFaceBit at b1 b2
  rw [xor_half] at b2
  by_cases hj : (j : ℕ) = f / 2
  · simp only [hj, if_true]
    rw [b1, b2]
    by_cases c : f % 2 = 1
    · simp [c]; omega
    · simp [c]; omega
  · simp only [hj, if_false]
    rw [b3 j j.2 hj]

/-- The corners that touch, by their numbers on the faces. -/
theorem touch2 : ∀ f nf : Fin 4, ∀ o : Fin 2, ∀ h : Fin 2, (match faceCorner 2 f h, faceNeighborFaceCorner 2 h f nf o, expandFaceInternal 2 f nf o with
    | some k, some pos, some ft => (match faceCorner 2 nf pos with
      | some k' => decide (pos < 2 ∧ BitsMatch 2 f nf ft k k' ∧ faceNeighborFaceCorner 2 pos nf f o = some (h : ℕ))
      | none => false)
    | _, _, _ => false) = true := by decide +kernel

theorem touch3 : ∀ f nf : Fin 6, ∀ o : Fin 4, ∀ h : Fin 4, (match faceCorner 3 f h, faceNeighborFaceCorner 3 h f nf o, expandFaceInternal 3 f nf o with
    | some k, some pos, some ft => (match faceCorner 3 nf pos with
      | some k' => decide (pos < 4 ∧ BitsMatch 3 f nf ft k k' ∧ faceNeighborFaceCorner 3 pos nf f o = some (h : ℕ))
      | none => false)
    | _, _, _ => false) = true := by decide +kernel

theorem touch (hd : d = 2 ∨ d = 3) {f nf o h : ℕ} (hf : f < 2 * d) (hnf : nf < 2 * d) (ho : o < 2 ^ (d - 1)) (hh : h < 2 ^ (d - 1)) :
    ∃ k pos k' ft, faceCorner d f h = some k ∧ faceNeighborFaceCorner d h f nf o = some pos ∧ expandFaceInternal d f nf o = some ft ∧
      faceCorner d nf pos = some k' ∧ pos < 2 ^ (d - 1) ∧ BitsMatch d f nf ft k k' ∧ faceNeighborFaceCorner d pos nf f o = some h := by
  rcases hd with rfl | rfl
  · have := touch2 ⟨f, hf⟩ ⟨nf, hnf⟩ ⟨o, ho⟩ ⟨h, hh⟩
    split at this
    · rename_i k pos ft e1 e2 e3
      split at this
      · rename_i k' e4
        obtain ⟨h1, h2, h3⟩ := of_decide_eq_true this
        exact ⟨k, pos, k', ft, e1, e2, e3, e4, h1, h2, h3⟩
      · cases this
    · cases this
  · have := touch3 ⟨f, hf⟩ ⟨nf, hnf⟩ ⟨o, ho⟩ ⟨h, hh⟩
    split at this
    · rename_i k pos ft e1 e2 e3
      split at this
      · rename_i k' e4
        obtain ⟨h1, h2, h3⟩ := of_decide_eq_true this
        exact ⟨k, pos, k', ft, e1, e2, e3, e4, h1, h2, h3⟩
      · cases this
    · cases this

/-- The children at corner `h` of the face and at the touching corner of the face of the neighbor have a common face. -/
theorem Joined.kid (hd : d = 2 ∨ d = 3) {conn : FaceConn} (hconn : FaceConsistent d conn) {f g o : ℕ} {x y : ℕ × Quad d}
    (j : Joined conn f g o x y) (hl : x.2.level < 29) {h : ℕ} (hh : h < 2 ^ (d - 1)) : ∃ pos k k', pos < 2 ^ (d - 1) ∧
      faceNeighborFaceCorner d h f g o = some pos ∧ faceNeighborFaceCorner d pos g f o = some h ∧ faceCorner d f h = some k ∧
      faceCorner d g pos = some k' ∧ Joined conn f g o (x.1, kid x.2 k) (y.1, kid y.2 k') := by
  obtain ⟨k, pos, k', ft, e1, e2, e3, e4, e5, e6, e7⟩ := touch hd j.face j.face' j.orientation hh
  suffices hs : SameFace conn f g (x.1, Spec.kid x.2 k) (y.1, Spec.kid y.2 k') ∧ Oriented conn f g o (x.1, Spec.kid x.2 k) y.1 from
    ⟨pos, k, k', e5, e2, e7, e1, e4, j.face, j.face', j.orientation, j.tree, j.tree', hs.1, hs.2⟩
  have hxv := j.same.1
  have hkv := kid_valid hxv hl k
  obtain ⟨t, a⟩ := x
  obtain ⟨t', a'⟩ := y
  have jt : t < conn.numTrees := j.tree
  rcases j.kind with ⟨c1, c2, c3, c4, c5⟩ | ⟨c1, c2, c3, c4, c5⟩
  · -- inside a tree
    dsimp only at c1 c2 c3 c4 c5 e1 e4 hl hxv ⊢
    subst c1
    subst c3
    have hnv := neighbor_inside hxv c4
    have h1 := (inner_same hd hconn jt j.face hxv hnv).1
    subst c2
    obtain ⟨-, h2⟩ := sameFace_unique hd hconn j.face j.face' j.face' jt j.same h1
    obtain rfl : faceNeighbor a f = a' := (Prod.ext_iff.mp h2).2
    obtain ⟨m, m', g1, g2, g3, g4⟩ := opposite hd j.face hh
    rw [e1, Option.some.injEq] at g1
    rw [e2, Option.some.injEq] at g2
    subst g1
    subst g2
    rw [e4, Option.some.injEq] at g3
    subst g3
    have hoff : ∀ b, CellAtFace f (Spec.kid a k) b → ¬ AtFace f b := by
      intro b hb
      have hon : OnSide f (Spec.kid a k) a := (onSide_kid j.face hl le_rfl).mpr ⟨onSide_self _ _, g4.2.2.1⟩
      exact c4 b ((onSide_layer (kid_subset (by omega) hxv hl g4.1).1 hon).mp hb).1
    have hnv' := neighbor_inside hkv hoff
    rw [neighbor_kid hl g4]
    exact ⟨(inner_same hd hconn jt j.face hkv hnv').1, Or.inl ⟨rfl, rfl, hoff⟩⟩
  · dsimp only at c1 c2 c3 c4 c5 e1 e4 hl hxv ⊢
    obtain ⟨ft2, he, hgood⟩ := expand_good hd j.face j.face' j.orientation
    obtain rfl : ft2 = ft := by rw [e3] at he; exact (Option.some.inj he).symm
    have hts := treeSide_of_cells c1
    have h1 := tree_same hd hconn jt j.face j.face' j.orientation c4 c5 c3 e3 hxv hts
    obtain ⟨-, h2⟩ := sameFace_unique hd hconn j.face j.face' j.face' jt j.same h1
    obtain rfl : imageQuad ft2 f a = a' := (Prod.ext_iff.mp h2).2
    have hts' := hts.kid hl e6.2.2.1
    rw [image_kid hgood j.face hts hl e6]
    exact ⟨tree_same hd hconn jt j.face j.face' j.orientation c4 c5 c3 e3 hkv hts', Or.inr ⟨hts'.cells, c4, c5⟩⟩

end P4est
