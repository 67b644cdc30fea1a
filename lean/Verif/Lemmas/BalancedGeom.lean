import Verif.Lemmas.IterateCall
import Verif.Model.Balanced
import Verif.Spec.Balanced
import Verif.Lemmas.FamilyList

/-! # Neighbors of half, equal and double size across a face -/

namespace P4est
open Spec

variable {d : ℕ}

theorem valid_eq_of_level (hd : 0 < d) {a b : Quad d} (ha : Valid a) (hb : Valid b) (h : Cells a ⊆ Cells b) (hl : a.level ≤ b.level) :
    a = b := by
  by_contra hne
  have h1 := (valid_ssubset_of_ne hd hb ha h hne)
  have h2 := ((valid_ssubset_iff hd hb ha).mp h1)
  omega

/-- The quadrant `n` of tree `t'` is what lies across face `f` of the quadrant `K` of tree `t`. -/
structure Across (conn : FaceConn) (t f : ℕ) (K : Quad d) (t' : ℕ) (n : Quad d) : Prop where
  tree : t' < conn.numTrees
  valid : Valid n
  level : n.level = K.level
  into : ∀ a, Layer f K a → ∀ y, Beside conn f (t, a) y → y.1 = t' ∧ y.2 ∈ Cells n
  some : ∀ a, Layer f K a → ∃ y, Beside conn f (t, a) y
  inner : InRoot (faceNeighbor K f) → t' = t ∧ n = faceNeighbor K f

/-- There is nothing across face `f` of `K`. -/
structure NothingAcross (conn : FaceConn) (t f : ℕ) (K : Quad d) : Prop where
  none : ∀ a, Layer f K a → ∀ y, ¬ Beside conn f (t, a) y
  tree : conn.treeToTree[2 * d * t + f]? = some t
  face : conn.treeToFace[2 * d * t + f]? = some f
  out : ¬ InRoot (faceNeighbor K f)

/-- The first quadrant lies at the face of the second one, and is smaller or equal. -/
def AtSameFace (f : ℕ) (K1 K2 : Quad d) : Prop := K2.level ≤ K1.level ∧ ∀ a, Layer f K1 a → Layer f K2 a

theorem across_sub (hd : 0 < d) {conn : FaceConn} {t f : ℕ} {K1 K2 : Quad d} (h : AtSameFace f K1 K2) {t1 t2 : ℕ} {n1 n2 : Quad d}
    (h1 : Across conn t f K1 t1 n1) (h2 : Across conn t f K2 t2 n2) : t1 = t2 ∧ Cells n1 ⊆ Cells n2 := by
  obtain ⟨a, ha⟩ := layer_nonempty K1 f
  obtain ⟨y, hy⟩ := h1.some a ha
  obtain ⟨e1, m1⟩ := h1.into a ha y hy
  obtain ⟨e2, m2⟩ := h2.into a (h.2 a ha) y hy
  refine ⟨e1.symm.trans e2, ?_⟩
  rcases meet_nested h1.valid h2.valid m1 m2 with c | c
  · exact c
  · have hl : n2.level ≤ n1.level := by rw [h1.level, h2.level]; exact h.1
    rw [valid_eq_of_level hd h2.valid h1.valid c hl]

/-- The face of the tree that a face neighbor crosses. -/
theorem faceBeyond_neighbor {f : ℕ} (hf : f < 2 * d) {K : Quad d} (hK : Valid K) (h : ¬ InRoot (faceNeighbor K f)) :
    faceBeyond (faceNeighbor K f) = some f := by
  have hs := side_pos K
  set ax : Fin d := ⟨f / 2, by omega⟩ with hax
  have hR : rootLen = 2 ^ 30 := rfl
  have h1 := outside_face hK h ax rfl
  have h2 := hK.2.2
  have h3 := valid_le hK
  have hP : ∀ i : Fin d, ((decide ((faceNeighbor K f).c i < 0) || decide ((faceNeighbor K f).c i ≥ rootLen)) = true) ↔ i = ax := by
    intro i
    rw [Bool.or_eq_true, decide_eq_true_eq, decide_eq_true_eq, neighbor_c, hR]
    constructor
    · intro hc
      by_contra hne
      rw [if_neg (fun e => hne (Fin.ext e))] at hc
      have := h2 i; omega
    · rintro rfl
      rw [if_pos (show (ax : ℕ) = f / 2 from rfl)]
      split at h1
      · rename_i c; rw [if_pos c]; omega
      · rename_i c; rw [if_neg c]; omega
  have hfil : (List.finRange d).filter (fun i => decide ((faceNeighbor K f).c i < 0) || decide ((faceNeighbor K f).c i ≥ rootLen)) = [ax] := by
    refine eq_singleton ((List.nodup_finRange d).filter _) ?_ ?_
    · exact List.mem_filter.mpr ⟨List.mem_finRange _, (hP ax).mpr rfl⟩
    · intro x hx
      exact (hP x).mp (List.mem_filter.mp hx).2
  unfold faceBeyond
  rw [hfil]
  dsimp only
  rw [neighbor_c, if_pos (show (ax : ℕ) = f / 2 from rfl), hR]
  congr 1
  have hv := h2 ax
  have hle := h3 ax
  show 2 * (f / 2) + _ = f
  split at h1
  · rename_i c; rw [if_pos c, if_pos (by omega)]; omega
  · rename_i c; rw [if_neg c, if_neg (by omega)]; omega

/-- The map between trees that lie side by side. -/
theorem straight_image (hd : d = 2 ∨ d = 3) {f : ℕ} (hf : f < 2 * d) {ft : FTransform}
    (he : expandFaceInternal d f (if f % 2 = 0 then f + 1 else f - 1) 0 = some ft) (s : ℤ) (x : Fin d → ℤ) (i : Fin d) :
    faceImage ft s x i = x i + if (i : ℕ) = f / 2 then (if f % 2 = 1 then -2 ^ 30 else 2 ^ 30) else 0 := by
  rcases hd with rfl | rfl
  · interval_cases f <;> cases he <;> fin_cases i <;> simp [faceImage, tangent, normal, axis, rootLen, MAXLEVEL] <;> ring
  · interval_cases f <;> cases he <;> fin_cases i <;> simp [faceImage, tangent, normal, axis, rootLen, MAXLEVEL] <;> ring

/-- The last cell of the neighbor, across the face of the tree. -/
theorem upper_out {f : ℕ} (hf : f < 2 * d) {K : Quad d} (hK : Valid K) (h : ¬ InRoot (faceNeighbor K f)) :
    ¬ InRoot (lastDesc (faceNeighbor K f) 29) := by
  intro hr
  set ax : Fin d := ⟨f / 2, by omega⟩ with hax
  have h1 := outside_face hK h ax rfl
  have h2 := hr ax
  have hc : (lastDesc (faceNeighbor K f) 29).c ax = (faceNeighbor K f).c ax + (side K - 2) := by
    show (faceNeighbor K f).c ax + (qlen K.level - qlen 29) = _
    rw [qlen_eq_side]
    norm_num [qlen, MAXLEVEL]
  have hs : 2 ≤ side K := by
    have := hK.1
    unfold side
    calc (2 : ℤ) = 2 ^ 1 := by norm_num
      _ ≤ 2 ^ (30 - K.level) := by gcongr; norm_num; omega
  rw [hc, neighbor_c, if_pos (show (ax : ℕ) = f / 2 from rfl)] at h2
  split at h1
  · rename_i c; rw [if_pos c] at h2; omega
  · rename_i c; rw [if_neg c] at h2; omega

theorem box_mono {a b : Quad d} (h : Cells a ⊆ Cells b) : Box a ⊆ Box b := by
  intro x hx i
  have h1 := subset_coords h i
  have h2 := hx i
  omega

/-- What the functions do with the face neighbor of a quadrant. -/
theorem across_cases (hd : d = 2 ∨ d = 3) {conn : FaceConn} (hconn : FaceConsistent d conn) {K : Quad d} (hK : Valid K) {t f : ℕ}
    (ht : t < conn.numTrees) (hf : f < 2 * d) (bs : (Quad d → ℤ) → List (Quad d) → Option ℕ) (mem : Fin d → ℤ)
    (gfp : List (GPos d)) (P r : ℕ) (mine : List (ℕ × Quad d)) (g : GhostLayer d) :
    (∃ t' n, Across conn t f K t' n ∧
      quadrantExists bs mem conn gfp P r mine g t (some (faceNeighbor K f)) = lookUp bs gfp P r mine g t' n ∧
      quadrantFindOwner mem conn gfp P r t f (faceNeighbor K f) = findOwner gfp P t' n r ∧
      ∃ u, quadrantFindOwner mem conn gfp P r t f (lastDesc (faceNeighbor K f) 29) = findOwner gfp P t' u r ∧ u.c ∈ Cells n ∧
        (SideBySide d conn → u = lastDesc n 29)) ∨
    (NothingAcross conn t f K ∧ quadrantExists bs mem conn gfp P r mine g t (some (faceNeighbor K f)) = some false ∧
      quadrantFindOwner mem conn gfp P r t f (faceNeighbor K f) = some (-1) ∧
      quadrantFindOwner mem conn gfp P r t f (lastDesc (faceNeighbor K f) 29) = some (-1)) := by
  obtain ⟨res, h1, h2, h3⟩ := face_layer hd conn hconn K hK t f ht hf
  have h1 := h1 mem
  unfold faceNeighborExtra at h1
  dsimp only at h1
  unfold quadrantExists quadrantFindOwner
  dsimp only
  by_cases hin : isInsideRoot (faceNeighbor K f) = true
  · rw [if_pos hin] at h1
    rw [if_pos hin, if_pos hin]
    rw [Option.some.injEq] at h1
    subst h1
    obtain ⟨g1, g2, g3, -, g5, g6, -⟩ := h3 _ _ _ rfl
    refine Or.inl ⟨t, _, ⟨g1, g2, g3, fun a ha y hy => ⟨(g5 a ha y hy).1, (g5 a ha y hy).2.1⟩, g6, fun _ => ⟨rfl, rfl⟩⟩, rfl, rfl,
      lastDesc (faceNeighbor K f) 29, ?_, lastDesc_mem hK.1, fun _ => rfl⟩
    rw [if_pos]
    exact isInsideRoot_iff.mpr ((C10_descendants_bound (by omega) _ g2.extended 29 g2.1 le_rfl).2.2.1 g2).2.2.2
  · have hout : ¬ InRoot (faceNeighbor K f) := fun h => hin (isInsideRoot_iff.mpr h)
    rw [if_neg hin] at h1
    have hin2 : ¬ isInsideRoot (lastDesc (faceNeighbor K f) 29) = true := fun h => upper_out hf hK hout (isInsideRoot_iff.mp h)
    rw [if_neg hin, if_neg hin, if_neg hin2, faceBeyond_neighbor hf hK hout]
    obtain ⟨t', nf, o, e1, e2, ht', hnf, ho⟩ := hconn.entries ht hf
    cases hff : findFaceTransform d conn t f with
    | none => rw [hff] at h1; simp at h1
    | some z =>
      rw [hff] at h1
      cases z with
      | none =>
        simp only [Option.bind_some, Option.some.injEq] at h1
        subst h1
        obtain ⟨k1, k2, k3⟩ := h2 rfl
        refine Or.inr ⟨⟨k1, k2, k3, hout⟩, ?_, ?_, ?_⟩
        · simp [hff]
        · rw [k2, k3]; simp
        · rw [k2, k3]; simp
      | some z =>
        obtain ⟨nt, ft⟩ := z
        simp only [Option.bind_some] at h1
        have hent : nt = t' ∧ ¬ (t' = t ∧ nf = f) ∧ expandFaceInternal d f nf o = some ft := by
          unfold findFaceTransform at hff
          rw [e1, e2] at hff
          simp only [Option.bind_eq_bind, Option.bind_some] at hff
          rw [code_mod hnf, code_div hnf] at hff
          split at hff
          · simp at hff
          · rename_i c
            obtain ⟨ft', he', he⟩ := Option.map_eq_some_iff.mp hff
            rw [Option.some.injEq, Prod.mk.injEq] at he
            exact ⟨he.1.symm, c, by rw [he', he.2]⟩
        obtain ⟨rfl, hne, hex⟩ := hent
        have hself : ¬ (nt = t ∧ nf + 2 * d * o = f) := by
          rintro ⟨c1, c2⟩
          refine hne ⟨c1, ?_⟩
          have := congrArg (· % (2 * d)) c2
          try dsimp only at this
          rwa [code_mod hnf, Nat.mod_eq_of_lt hf] at this
        cases hqt : quadrantTransformFace mem (faceNeighbor K f) ft with
        | none => rw [hqt] at h1; simp at h1
        | some n =>
          rw [hqt] at h1
          cases hcode : conn.treeToFace[t * (2 * d) + f]? with
          | none => rw [hcode] at h1; simp at h1
          | some code =>
            rw [hcode] at h1
            simp only [Option.bind_some, Option.map_some, Option.some.injEq] at h1
            subst h1
            obtain ⟨g1, g2, g3, -, g5, g6, -⟩ := h3 _ _ _ rfl
            refine Or.inl ⟨nt, n, ⟨g1, g2, g3, fun a ha y hy => ⟨(g5 a ha y hy).1, (g5 a ha y hy).2.1⟩, g6,
              fun h => absurd h hout⟩, ?_, ?_, ?_⟩
            · simp [hff, hqt]
            · rw [e1, e2]
              simp only [Option.bind_eq_bind, Option.bind_some]
              rw [if_neg hself, hqt]; rfl
            · obtain ⟨ft0, hex0, hg⟩ := expand_good hd hf hnf ho
              obtain rfl : ft0 = ft := by rw [hex0] at hex; exact Option.some.inj hex
              obtain ⟨ft', hex', hg'⟩ := expand_good hd hnf hf ho
              have hi' := expand_inverse hd hnf hf ho hex' hex
              have en : n = ⟨faceImage ft0 (-side K) (faceNeighbor K f).c, K.level⟩ := by
                rw [hg.quadrant mem (show (faceNeighbor K f).level ≤ 29 from hK.1)] at hqt
                exact (Option.some.inj hqt).symm
              refine ⟨⟨faceImage ft0 (-side (lastDesc (faceNeighbor K f) 29)) (lastDesc (faceNeighbor K f) 29).c, 29⟩, ?_, ?_, ?_⟩
              · rw [e1, e2]
                simp only [Option.bind_eq_bind, Option.bind_some]
                rw [if_neg hself, hg.quadrant mem (show (lastDesc (faceNeighbor K f) 29).level ≤ 29 from le_rfl)]
                rfl
              · rw [unit_subset]
                intro y hy
                have ey := hi'.image hg' hg 0 y
                set v := lastDesc (faceNeighbor K f) 29 with hv
                have hyb : y ∈ Box (⟨faceImage ft0 (-side v) v.c, v.level⟩ : Quad d) := by
                  intro i
                  have := hy i
                  have hs := side_pos v
                  have : side (⟨faceImage ft0 (-side v) v.c, v.level⟩ : Quad d) = side v := rfl
                  have := hy i
                  dsimp only at this ⊢
                  omega
                rw [← ey] at hyb ⊢
                have h5 := (hg.box v _).mpr hyb
                have h6 : Cells v ⊆ Cells (faceNeighbor K f) :=
                  (C10_descendants_bound (by omega) _ (C14_face_neighbor K hK f).2.1 29 hK.1 le_rfl).2.1.2.2
                have h7 := (hg.box (faceNeighbor K f) _).mp (box_mono h6 h5)
                rw [en]
                exact h7
              · intro hst
                have hcode : nf + 2 * d * o = if f % 2 = 0 then f + 1 else f - 1 := by
                  rcases hst t ht f hf with c | c
                  · exfalso
                    rw [e1, e2] at c
                    exact hself ⟨Option.some.inj c.1, Option.some.inj c.2⟩
                  · rw [e2] at c
                    exact Option.some.inj c
                have ho0 : o = 0 := by
                  rcases Nat.eq_zero_or_pos o with c | c
                  · exact c
                  · have : 2 * d ≤ 2 * d * o := Nat.le_mul_of_pos_right _ c
                    split at hcode <;> omega
                rw [ho0, Nat.mul_zero, Nat.add_zero] at hcode
                rw [ho0, hcode] at hex
                have hsi := straight_image hd hf hex
                rw [en]
                refine Quad.ext' (fun i => ?_) rfl
                show faceImage ft0 _ (lastDesc (faceNeighbor K f) 29).c i = faceImage ft0 _ (faceNeighbor K f).c i + (qlen K.level - qlen 29)
                rw [hsi, hsi]
                show (faceNeighbor K f).c i + (qlen K.level - qlen 29) + _ = _
                ring

/-! ### Children at a face -/

/-- Bits of the number of a small neighbor and of the child beside it. -/
def HalfOf (d f i k : ℕ) : Prop :=
  i < 2 ^ (d - 1) ∧ k < 2 ^ d ∧ OnFaceBit f k ∧
  ∀ a < d, a ≠ f / 2 → i.testBit (if a < f / 2 then a else a - 1) = k.testBit a

theorem halfOf_right {f i : ℕ} (hf : f < 2 * d) (hi : i < 2 ^ (d - 1)) : ∃ k, HalfOf d f i k := by
  obtain ⟨k, hk, hb⟩ := exists_bits d fun a => if a = f / 2 then decide (f % 2 = 1) else i.testBit (if a < f / 2 then a else a - 1)
  refine ⟨k, hi, hk, ?_, fun a ha hne => ?_⟩
  · unfold OnFaceBit
    rw [hb _ (by omega), if_pos rfl]
  · rw [hb a ha, if_neg hne]

theorem halfOf_left {f k : ℕ} (hf : f < 2 * d) (hk : k < 2 ^ d) (h : OnFaceBit f k) : ∃ i, HalfOf d f i k := by
  obtain ⟨i, hi, hb⟩ := exists_bits (d - 1) fun j => k.testBit (if j < f / 2 then j else j + 1)
  refine ⟨i, hi, hk, h, fun a ha hne => ?_⟩
  by_cases c : a < f / 2
  · rw [if_pos c]
    rw [hb a (by omega), if_pos c]
  · rw [if_neg c, hb (a - 1) (by omega), if_neg (by omega)]
    congr 1; omega

theorem half_eq {q : Quad d} (hl : q.level < 29) {f i k : ℕ} (hf : f < 2 * d) (h : HalfOf d f i k) :
    halfFaceNeighbor q f i = faceNeighbor (kid q k) f := by
  obtain ⟨-, -, hk, hb⟩ := h
  refine Quad.ext' (fun a => ?_) rfl
  have hs : side (kid q k) = 2 ^ (29 - q.level) := by
    unfold side kid; dsimp only; congr 1; omega
  have h2 : (2 : ℤ) ^ (30 - q.level) = 2 * 2 ^ (29 - q.level) := by
    rw [show 30 - q.level = (29 - q.level) + 1 by omega, pow_succ]; ring
  rw [halfFace_c q hl, neighbor_c, kid_c, hs, h2]
  by_cases ha : (a : ℕ) = f / 2
  · rw [if_pos ha, if_pos ha, ha]
    unfold OnFaceBit at hk
    rw [hk]
    by_cases c : f % 2 = 1
    · rw [if_neg (by omega), if_pos c, if_pos (by simpa using c)]; ring
    · rw [if_pos (by omega), if_neg c, if_neg (by simpa using c)]; ring
  · rw [if_neg ha, if_neg ha, hb a a.2 ha]

theorem kid_atFace (hd : 0 < d) {q : Quad d} (hq : Valid q) (hl : q.level < 29) {f k : ℕ} (hf : f < 2 * d) (hk : OnFaceBit f k) :
    AtSameFace f (kid q k) q := by
  refine ⟨by show q.level ≤ q.level + 1; omega, fun a ha => ?_⟩
  have hsub := (kid_ssubset hd hq k).1
  exact ((onSide_layer hsub ((onSide_kid hf hl subset_rfl).mpr ⟨onSide_self f _, hk⟩)).mp ha).1

/-- A cell at the face is at the face of a child. -/
theorem layer_kid (hd : 0 < d) {q : Quad d} (hq : Valid q) (hl : q.level < 29) {f : ℕ} (hf : f < 2 * d) {a : Fin d → ℤ} (ha : Layer f q a) :
    ∃ i k, HalfOf d f i k ∧ Layer f (kid q k) a := by
  obtain ⟨k, hk, hb⟩ := exists_bits d fun j => if h : j < d then decide (q.c ⟨j, h⟩ + 2 ^ (29 - q.level) ≤ a ⟨j, h⟩) else false
  have hs : side (kid q k) = 2 ^ (29 - q.level) := by
    unfold side kid; dsimp only; congr 1; omega
  have h2 : side q = 2 * 2 ^ (29 - q.level) := by
    unfold side
    rw [show 30 - q.level = (29 - q.level) + 1 by omega, pow_succ]; ring
  have hpos : (0 : ℤ) < 2 ^ (29 - q.level) := by positivity
  have hmem : a ∈ Cells (kid q k) := by
    intro i
    have h1 := ha.1 i
    have h3 := hb i i.2
    rw [dif_pos i.2] at h3
    rw [kid_c, hs, h3]
    by_cases c : q.c i + 2 ^ (29 - q.level) ≤ a i
    · rw [if_pos (by simpa using c)]; omega
    · rw [if_neg (by simpa using c)]; omega
  have hside := layer_onSide (kid_ssubset hd hq k).1 hmem ha
  have hbit := ((onSide_kid hf hl subset_rfl).mp hside).2
  obtain ⟨i, hi⟩ := halfOf_left hf hk hbit
  exact ⟨i, k, hi, (onSide_layer (kid_ssubset hd hq k).1 hside).mpr ⟨ha, hmem⟩⟩

/-! ### The parent -/

/-- The neighbor of double size. -/
theorem double_cases (hd : 0 < d) {q : Quad d} (hq : Valid q) {f : ℕ} (hf : f < 2 * d) :
    ((allFaceNeighbors q f).2.2 = none ∧ (q.level = 0 ∨ Valid (parent q) ∧ (parent q).level + 1 = q.level ∧ Cells q ⊆ Cells (parent q) ∧
      Cells (faceNeighbor q f) ⊆ Cells (parent q))) ∨
    ((allFaceNeighbors q f).2.2 = some (faceNeighbor (parent q) f) ∧ Valid (parent q) ∧ (parent q).level + 1 = q.level ∧
      AtSameFace f q (parent q)) := by
  by_cases h0 : q.level = 0
  · left
    refine ⟨?_, Or.inl h0⟩
    simp [allFaceNeighbors, h0]
  have hpos : 0 < q.level := Nat.pos_of_ne_zero h0
  have hpv : Valid (parent q) := parent_valid hq hpos
  have hpl : (parent q).level + 1 = q.level := by rw [parent_level]; omega
  have hkid : kid (parent q) (childId q) = q := by rw [kid_eq_child hpv, child_parent hq.aligned hpos]
  have hl : (parent q).level < 29 := by have := hq.1; omega
  have hsub : Cells q ⊆ Cells (parent q) := by
    conv_lhs => rw [← hkid]
    exact (kid_ssubset hd hpv _).1
  by_cases hb : (childId q >>> (f / 2)) % 2 ≠ f % 2
  · left
    have e : (allFaceNeighbors q f).2.2 = none := by simp [allFaceNeighbors, hb]
    refine ⟨e, Or.inr ⟨hpv, hpl, hsub, ?_⟩⟩
    exact ((C14_all_face_neighbors hd q hq f hf).2.2.1.mp e).resolve_left h0
  · right
    rw [ne_eq, not_not] at hb
    have e : (allFaceNeighbors q f).2.2 = some (faceNeighbor (parent q) f) := by simp [allFaceNeighbors, hb, h0]
    refine ⟨e, hpv, hpl, ?_⟩
    have hbit : OnFaceBit f (childId q) := by
      unfold OnFaceBit
      rw [Nat.testBit, Nat.one_and_eq_mod_two, hb]
      rcases Nat.mod_two_eq_zero_or_one f with c | c <;> simp [c]
    have := kid_atFace hd hpv hl hf hbit
    rwa [hkid] at this

end P4est
