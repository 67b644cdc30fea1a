import Verif.Lemmas.CornerGeom

/-! # The ranks that a leaf is sent to across its corners -/

namespace P4est
open Spec

/-! ### The smallest quadrant at a corner -/

section Desc

variable {q : Quad 2} (hq : Valid q) {c : ℕ}

theorem desc_side : side (cornerDesc q c 29) = 2 := by unfold side cornerDesc; norm_num

include hq in
theorem side_two : (2 : ℤ) ∣ side q ∧ 2 ≤ side q := by
  have h := hq.1
  unfold side
  rw [show 30 - q.level = (29 - q.level) + 1 by omega, pow_succ]
  have : (0 : ℤ) < 2 ^ (29 - q.level) := by positivity
  exact ⟨Dvd.intro_left _ rfl, by omega⟩

theorem desc_c (i : Fin 2) : (cornerDesc q c 29).c i = q.c i + if c.testBit i then side q - 2 else 0 := by
  unfold cornerDesc
  simp only [qlen_eq_side]
  norm_num [qlen, MAXLEVEL, side]

include hq in
theorem desc_valid : Valid (cornerDesc q c 29) := by
  obtain ⟨s1, s2⟩ := side_two hq
  have ha := hq.aligned
  refine ⟨le_rfl, ⟨by show (29 : ℕ) ≤ 30; norm_num, fun i => ?_⟩, fun i => ?_⟩
  · rw [desc_side, desc_c]
    have h1 := ha.2 i
    have h2 : (2 : ℤ) ∣ q.c i := dvd_trans s1 h1
    split <;> omega
  · have h1 := hq.2.2 i
    have h2 := valid_le hq i
    rw [desc_c]
    split <;> omega

theorem desc_end : endCell (cornerDesc q c 29) c = endCell q c := by
  funext i
  unfold endCell
  rw [desc_side, desc_c]
  split <;> omega

theorem cornerNeighbor_step {i j : Fin 2} (hij : i ≠ j) (m : Quad 2) :
    cornerNeighbor m c = faceNeighbor (faceNeighbor m (faceOf c j)) (faceOf c i) := by
  have e : (cornerNeighbor m c).c = (faceNeighbor (faceNeighbor m (faceOf c j)) (faceOf c i)).c := by
    funext k
    rw [neighbor_faceOf, neighbor_faceOf]
    have hs : side (faceNeighbor m (faceOf c j)) = side m := rfl
    rw [hs]
    unfold cornerNeighbor
    simp only [qlen_eq_side]
    by_cases hk : k = i
    · subst hk
      rw [if_pos rfl, if_neg hij]
      split <;> ring
    · obtain rfl : k = j := fin2_ne (Ne.symm hij) hk
      rw [if_neg hk, if_pos rfl]
      split <;> ring
  calc cornerNeighbor m c = ⟨(cornerNeighbor m c).c, m.level⟩ := rfl
    _ = _ := by rw [e]; rfl

end Desc

section

variable {conn : FaceConn} {cc : CornerConn} {trees : List (List (Quad 2))} {P : ℕ} {leaves : ℕ → List (ℕ × Quad 2)}

theorem testAdd_small (gfp : List (GPos 2)) (P nt r touch : ℕ) (n : Quad 2) :
    testAdd gfp P 29 n nt touch r = ownerTargets gfp P r nt n := by
  unfold testAdd ownerTargets
  simp [QMAXLEVEL]

/-- Across a corner that is in the tree or beyond one face. -/
theorem cornerTargets_face (hconn : FaceConsistent 2 conn) (gfp : List (GPos 2)) (r : ℕ) {t : ℕ} (ht : t < conn.numTrees)
    {q : Quad 2} (hq : Valid q) {c : ℕ} (hc : c < 4) {i j : Fin 2} (hij : i ≠ j)
    (hin : InRoot (faceNeighbor (cornerDesc q c 29) (faceOf c j))) :
    cornerTargets conn cc gfp P r t q c =
      faceTargets (cornerDesc q c 29).c conn gfp P r t (faceNeighbor (cornerDesc q c 29) (faceOf c j)) (faceOf c i) := by
  set m := faceNeighbor (cornerDesc q c 29) (faceOf c j) with hm
  have hlev : m.level = 29 := rfl
  have hn : cornerNeighbor (cornerDesc q c 29) c = faceNeighbor m (faceOf c i) := cornerNeighbor_step hij _
  unfold cornerTargets faceTargets
  rw [show cornerDesc q c QMAXLEVEL = cornerDesc q c 29 from rfl]
  dsimp only
  rw [hn, hlev]
  split
  · rw [testAdd_small]
  · rename_i hout
    have hout' : ¬ InRoot (faceNeighbor m (faceOf c i)) := fun h => hout (isInsideRoot_iff.mpr h)
    have hj : 0 ≤ (faceNeighbor m (faceOf c i)).c j ∧ (faceNeighbor m (faceOf c i)).c j < 2 ^ 30 := by
      rw [neighbor_faceOf, if_neg (Ne.symm hij)]; exact hin j
    have hi : ¬ (0 ≤ (faceNeighbor m (faceOf c i)).c i ∧ (faceNeighbor m (faceOf c i)).c i < 2 ^ 30) := by
      intro h
      apply hout'
      intro k
      by_cases hk : k = i
      · rw [hk]; exact h
      · rw [fin2_ne (Ne.symm hij) hk]; exact hj
    have hof : isOutsideFace (faceNeighbor m (faceOf c i)) = true := by
      unfold isOutsideFace rootLen MAXLEVEL
      simp only [decide_eq_true_eq, Fin.sum_univ_two]
      fin_cases i <;> fin_cases j
      · exact absurd rfl hij
      · simp only [Fin.zero_eta, Fin.mk_one] at hi hj ⊢
        rw [if_pos (by omega), if_neg (by omega)]
      · simp only [Fin.zero_eta, Fin.mk_one] at hi hj ⊢
        rw [if_neg (by omega), if_pos (by omega)]
      · exact absurd rfl hij
    rw [if_pos hof]
    have hface : entry cornerFacesTable c (if (faceNeighbor m (faceOf c i)).c 0 < 0 ∨ (faceNeighbor m (faceOf c i)).c 0 ≥ rootLen
        then 0 else 1) = some (faceOf c i) := by
      rw [← entry_faceOf hc i]
      unfold rootLen MAXLEVEL
      fin_cases i <;> fin_cases j
      · exact absurd rfl hij
      · simp only [Fin.zero_eta, Fin.mk_one] at hi hj ⊢
        rw [if_pos (by omega)]
      · simp only [Fin.zero_eta, Fin.mk_one] at hi hj ⊢
        rw [if_neg (by omega)]
      · exact absurd rfl hij
    rw [hface]
    simp only [Option.bind_eq_bind, Option.bind_some]
    have hf := faceOf_lt c i
    obtain ⟨t', nf, o, e1, e2, -⟩ := hconn.entries ht hf
    have e2' : conn.treeToFace[t * (2 * 2) + faceOf c i]? = some (nf + 2 * 2 * o) := by rw [← e2, Nat.mul_comm t]
    cases findFaceTransform 2 conn t (faceOf c i) with
    | none => rfl
    | some z =>
      cases z with
      | none => rfl
      | some z =>
        simp only [Option.bind_some]
        rw [e2']
        simp only [Option.bind_some]
        cases quadrantTransformFace (cornerDesc q c 29).c (faceNeighbor m (faceOf c i)) z.2 with
        | none => rfl
        | some s =>
          simp only [Option.bind_some]
          rw [testAdd_small]

/-- Two quadrants that have a common cell, the second of the smallest size. -/
theorem small_subset {y r : Quad 2} (hy : Valid y) (hr : Valid r) (hl : r.level = 29) {b : Fin 2 → ℤ} (hby : b ∈ Cells y)
    (hbr : b ∈ Cells r) : Cells r ⊆ Cells y := by
  rcases C03_nested_or_disjoint y r hy.extended hr.extended with h | h | h
  · exact h
  · have h2 := (cells_subset_iff (by norm_num) hr.aligned hy.aligned).mp h
    have : y.level ≤ r.level := by have := hy.1; omega
    have e := h2.2
    exact (cells_subset_iff (by norm_num) hy.aligned hr.aligned).mpr ⟨this, by
      have hle : y.level = 29 := by have := hy.1; omega
      have hs : side y = side r := by unfold side; rw [hle, hl]
      have h3 : y.c = r.c := by
        funext i
        have h1 := e i
        have h4 := hy.aligned.2 i; have h5 := hr.aligned.2 i
        have h6 : side r = 2 := by unfold side; rw [hl]; norm_num
        rw [hs] at h4
        rw [h6] at h1 h4 h5
        omega
      rw [← h3]; exact corner_mem y⟩
  · exact absurd ⟨hby, hbr⟩ (h b)

/-- All cells of a smallest quadrant at a face lie beside the same leaf. -/
theorem layer_small (hconn : FaceConsistent 2 conn) {t : ℕ} (ht : t < conn.numTrees) {m : Quad 2} (hm : Valid m)
    (hl : m.level = 29) {f : ℕ} (hf : f < 4) {y : ℕ × Quad 2} (hy : Valid y.2) {a b : Fin 2 → ℤ} (ha : Layer f m a)
    (hb : b ∈ Cells y.2) (hab : Beside conn f (t, a) (y.1, b)) {a' : Fin 2 → ℤ} (ha' : Layer f m a') :
    ∃ b' ∈ Cells y.2, Beside conn f (t, a') (y.1, b') := by
  obtain ⟨res, -, r2, r3⟩ := face_layer (Or.inl rfl) conn hconn m hm t f ht hf
  cases res with
  | none => exact absurd hab ((r2 rfl).1 a ha _)
  | some z =>
    obtain ⟨t'', r, code⟩ := z
    obtain ⟨-, g2, g3, -, g5, g6, -⟩ := r3 _ _ _ rfl
    obtain ⟨k1, k2⟩ := g5 a ha _ hab
    obtain ⟨⟨zt, b'⟩, hz⟩ := g6 a' ha'
    obtain ⟨k3, k4⟩ := g5 a' ha' _ hz
    dsimp only at k1 k2 k3 k4
    have hsub := small_subset hy g2 (by rw [g3, hl]) hb k2.1
    refine ⟨b', hsub k4.1, ?_⟩
    rw [k1, ← k3]
    exact hz

/-- The part within the tree or beyond one face. -/
theorem cornerTargets_diag (hconn : FaceConsistent 2 conn) (hn : conn.numTrees = trees.length) (h : Distributed trees P leaves)
    (hone : ∀ p < P, ∀ x, leaves p = [x] → x.2.level ≠ 29) {r : ℕ} (hr : r < P) {x : ℕ × Quad 2} (hx : x ∈ leaves r)
    {c : ℕ} (hc : c < 4) {i j : Fin 2} (hij : i ≠ j) (hin : InRoot (faceNeighbor (cornerDesc x.2 c 29) (faceOf c j))) :
    ∃ ps, cornerTargets conn cc (globalPartition leaves P trees.length) P r x.1 x.2 c = some ps ∧
      ∀ p, p ∈ ps ↔ p < P ∧ p ≠ r ∧ ∃ y ∈ leaves p, Diag conn x y c i j := by
  obtain ⟨s, hs⟩ := h.segments (by norm_num)
  obtain ⟨htl, hxv⟩ := hs.leaf r hr _ hx
  have htc : x.1 < conn.numTrees := by rw [hn]; exact htl
  set M := cornerDesc x.2 c 29 with hM
  have hMv : Valid M := desc_valid hxv
  have hmv : Valid (faceNeighbor M (faceOf c j)) := ⟨hMv.1, (C14_face_neighbor M hMv _).2.1.2.1, hin⟩
  have hf := faceOf_lt c i
  have hlay : Layer (faceOf c i) (faceNeighbor M (faceOf c j)) (nbCell (faceOf c j) (endCell x.2 c)) := by
    rw [← desc_end]
    refine ⟨nb_layer (endCell_layer _ _ _), fun k hk => ?_⟩
    rw [faceOf_div] at hk
    obtain rfl : k = i := Fin.ext hk
    have := (endCell_layer M c k).2 k (faceOf_div c k).symm
    rw [nbCell_faceOf, if_neg hij, neighbor_faceOf, if_neg hij]
    exact this
  rw [cornerTargets_face hconn _ r htc hxv hc hij hin]
  obtain ⟨ps, h1, h2⟩ := faceTargets_layer (Or.inl rfl) hconn hn h hone hr htl hmv hf M.c
  refine ⟨ps, h1, fun p => ?_⟩
  rw [h2]
  refine and_congr_right fun hp => and_congr_right fun hpr => exists_congr fun y => and_congr_right fun hy => ?_
  constructor
  · rintro ⟨a, ha, b, hb, hab⟩
    obtain ⟨b', hb', hab'⟩ := layer_small hconn htc hmv rfl hf (hs.leaf p hp y hy).2 ha hb hab hlay
    exact ⟨hij, hab'.1, b', hb', hab'⟩
  · rintro ⟨-, -, b, hb, hab⟩
    exact ⟨_, hlay, b, hb, hab⟩

/-- The diagonal neighbor can be reached within the tree across axis `j`. -/
theorem diag_inRoot {q : Quad 2} (hq : Valid q) {c : ℕ} {j : Fin 2} (h : InTree (nbCell (faceOf c j) (endCell q c))) :
    InRoot (faceNeighbor (cornerDesc q c 29) (faceOf c j)) := by
  have hM := desc_valid hq (c := c)
  intro k
  rw [neighbor_faceOf]
  by_cases hk : k = j
  · subst hk
    rw [if_pos rfl, desc_side]
    have h1 := h k
    have h2 := hM.aligned.2 k
    have h3 := hM.2.2 k
    rw [desc_side] at h2
    rw [nbCell_faceOf, if_pos rfl, ← desc_end] at h1
    unfold endCell at h1
    rw [desc_side] at h1
    split at h1 <;> rename_i hb
    · rw [if_pos hb]; omega
    · rw [if_neg hb]; omega
  · rw [if_neg hk]; exact hM.2.2 k

/-! ### Corners of trees -/

theorem mapM_pairs {l : List ℕ} {f : ℕ → Option (ℕ × ℕ)} (h : ∀ i ∈ l, ∃ e, f i = some e) :
    ∃ es, l.mapM f = some es ∧ ∀ e, e ∈ es ↔ ∃ i ∈ l, f i = some e := by
  induction l with
  | nil => exact ⟨[], rfl, by simp⟩
  | cons a l ih =>
    obtain ⟨e, he⟩ := h a (by simp)
    obtain ⟨es, h1, h2⟩ := ih fun i hi => h i (by simp [hi])
    refine ⟨e :: es, by rw [List.mapM_cons, he, h1]; rfl, fun e' => ?_⟩
    rw [List.mem_cons, h2]
    constructor
    · rintro (rfl | ⟨i, hi, hf⟩)
      · exact ⟨a, by simp, he⟩
      · exact ⟨i, by simp [hi], hf⟩
    · rintro ⟨i, hi, hf⟩
      rcases List.mem_cons.mp hi with rfl | hi
      · rw [he, Option.some.injEq] at hf; exact Or.inl hf.symm
      · exact Or.inr ⟨i, hi, hf⟩

/-- The corner of the neighbor across the face of a corner. -/
theorem corner_across {c : ℕ} (hc : c < 4) (i : Fin 2) {nf o : ℕ} (hnf : nf < 4) (ho : o < 2) :
    ∃ nc, faceNeighborCorner 2 c (faceOf c i) nf o = some nc ∧
      ∀ T : (Fin 2 → ℤ) → Fin 2 → ℤ, Glues (faceOf c i) nf o T → T (cornerPoint c) = cornerPoint nc := by
  have hd : (2 : ℕ) = 2 ∨ (2 : ℕ) = 3 := Or.inl rfl
  have hj : ∃ j < 2, faceCorner 2 (faceOf c i) j = some c := by
    fin_cases i <;> interval_cases c
    · exact ⟨0, by norm_num, by decide⟩
    · exact ⟨0, by norm_num, by decide⟩
    · exact ⟨1, by norm_num, by decide⟩
    · exact ⟨1, by norm_num, by decide⟩
    · exact ⟨0, by norm_num, by decide⟩
    · exact ⟨1, by norm_num, by decide⟩
    · exact ⟨0, by norm_num, by decide⟩
    · exact ⟨1, by norm_num, by decide⟩
  obtain ⟨j, hj, hfc⟩ := hj
  have hf := faceOf_lt c i
  obtain ⟨ft, he, -⟩ := expand_good hd hf hnf (show o < 2 ^ (2 - 1) from ho)
  have key : ∀ T : (Fin 2 → ℤ) → Fin 2 → ℤ, Glues (faceOf c i) nf o T →
      ∃ nc, faceNeighborCorner 2 c (faceOf c i) nf o = some nc ∧ T (cornerPoint c) = cornerPoint nc := by
    intro T hT
    obtain ⟨c1, j', c', g1, -, g3, -, g5, -⟩ := C38_face_corners hd _ nf o hf hnf ho T hT j hj
    rw [hfc, Option.some.injEq] at g1
    subst g1
    exact ⟨c', g3, g5⟩
  obtain ⟨nc, h1, -⟩ := key _ (expand_glues hd hf hnf (show o < 2 ^ (2 - 1) from ho) he).2
  refine ⟨nc, h1, fun T hT => ?_⟩
  obtain ⟨nc', h2, h3⟩ := key T hT
  rw [h1, Option.some.injEq] at h2
  rw [h3, h2]

/-- A corner that is met across a face. -/
def AcrossFace (conn : FaceConn) (t c : ℕ) (e : ℕ × ℕ) : Prop :=
  ∃ (i : Fin 2) (nf o : ℕ), nf < 4 ∧ o < 2 ∧ conn.treeToTree[4 * t + faceOf c i]? = some e.1 ∧
    conn.treeToFace[4 * t + faceOf c i]? = some (nf + 4 * o) ∧ (e.1 ≠ t ∨ nf ≠ faceOf c i) ∧
    faceNeighborCorner 2 c (faceOf c i) nf o = some e.2

theorem cornerDistinct_spec (hconn : FaceConsistent 2 conn) {t c : ℕ} (ht : t < conn.numTrees) (hc : c < 4) :
    ∃ l, cornerDistinct conn t c = some l ∧ ∀ e ∈ l, e = (t, c) ∨ AcrossFace conn t c e := by
  unfold cornerDistinct
  have step : ∀ (i : Fin 2) (l : List (ℕ × ℕ)), (∀ e ∈ l, e = (t, c) ∨ AcrossFace conn t c e) →
      ∃ l', cornerDistinctStep conn t c l i = some l' ∧ ∀ e ∈ l', e = (t, c) ∨ AcrossFace conn t c e := by
    intro i l hl
    have hf := faceOf_lt c i
    obtain ⟨t', nf, o, e1, e2, -, hnf, ho⟩ := hconn.entries ht hf
    have hnf : nf < 4 := hnf
    have ho : o < 2 := ho
    unfold cornerDistinctStep
    rw [entry_faceOf hc]
    simp only [Option.bind_eq_bind, Option.bind_some]
    rw [show 2 * 2 = 4 from rfl] at e1 e2
    rw [e1, e2]
    simp only [Option.bind_some]
    by_cases hb : t' ≠ t ∨ nf + 4 * o ≠ faceOf c i
    · rw [if_pos hb, show (nf + 4 * o) % 4 = nf by omega, show (nf + 4 * o) / 4 = o by omega]
      obtain ⟨nc, h1, -⟩ := corner_across hc i hnf ho
      rw [h1]
      refine ⟨_, rfl, fun e he => ?_⟩
      split at he
      · exact hl e he
      · rcases List.mem_append.mp he with he | he
        · exact hl e he
        · rw [List.mem_singleton] at he
          subst he
          refine Or.inr ⟨i, nf, o, hnf, ho, e1, e2, ?_, h1⟩
          by_contra hc2
          push Not at hc2
          obtain ⟨k1, k2⟩ := hc2
          dsimp only at k1
          have ho0 : o = 0 := hconn.boundary t (faceOf c i) o ht hf (by rw [show 2 * 2 = 4 from rfl, e1, k1])
            (by rw [show 2 * 2 = 4 from rfl, e2, k2])
          rcases hb with hb | hb
          · exact hb k1
          · exact hb (by omega)
    · rw [if_neg hb]
      exact ⟨l, rfl, hl⟩
  obtain ⟨l1, h1, h2⟩ := step 0 [(t, c)] (by simp)
  obtain ⟨l2, h3, h4⟩ := step 1 l1 h2
  refine ⟨l2, ?_, h4⟩
  have h1 : cornerDistinctStep conn t c [(t, c)] 0 = some l1 := h1
  have h3 : cornerDistinctStep conn t c l1 1 = some l2 := h3
  rw [show List.range 2 = [0, 1] from rfl, List.foldlM_cons, h1]
  simp only [Option.bind_eq_bind, Option.bind_some, List.foldlM_cons, h3, List.foldlM_nil]
  rfl

/-- The list of a corner ends within the array. -/
theorem Spec.CornerArrays.bound {numTrees : ℕ} (h : CornerArrays numTrees cc)
    (hord : ∀ k a b, cc.cttOffset[k]? = some a → cc.cttOffset[k + 1]? = some b → a ≤ b) {k b : ℕ}
    (hb : cc.cttOffset[k]? = some b) : b ≤ cc.cornerToTree.length := by
  have hk : k ≤ cc.numCorners := by
    have := (List.getElem?_eq_some_iff.mp hb).1
    rw [h.offsets] at this; omega
  obtain ⟨m, hm⟩ : ∃ m, cc.numCorners = k + m := ⟨cc.numCorners - k, by omega⟩
  have hall : ∀ m, k + m ≤ cc.numCorners → ∃ v, cc.cttOffset[k + m]? = some v ∧ b ≤ v := by
    intro m
    induction m with
    | zero => intro _; exact ⟨b, hb, le_rfl⟩
    | succ m ih =>
      intro hm
      obtain ⟨v, h1, h2⟩ := ih (by omega)
      have hlt : k + m + 1 < cc.cttOffset.length := by rw [h.offsets]; omega
      refine ⟨_, List.getElem?_eq_getElem hlt, ?_⟩
      have := hord _ _ _ h1 (List.getElem?_eq_getElem hlt)
      omega
  obtain ⟨v, h1, h2⟩ := hall m (by omega)
  rw [← hm, h.trees, Option.some.injEq] at h1
  omega

theorem Spec.CornerConsistent.listed {numTrees : ℕ} (h : CornerConsistent numTrees cc) {k t c : ℕ} (hl : Listed cc k t c) :
    t < numTrees ∧ c < 4 := by
  obtain ⟨a, b, i, -, -, -, -, h1, h2⟩ := hl
  exact ⟨h.tree t (List.mem_of_getElem? h1), h.corner c (List.mem_of_getElem? h2)⟩

theorem sameCorner_symm {numTrees : ℕ} (h : CornerConsistent numTrees cc) {x y : ℕ × ℕ} (hx : x.1 < numTrees) (hc : x.2 < 4)
    (hs : SameCorner cc x y) : SameCorner cc y x := by
  obtain ⟨k, hk, h1, h2⟩ := hs
  refine ⟨k, hk, h.back _ _ k _ _ hx hc hk h1 h2, ?_⟩
  rcases h.range (by omega) _ _ _ hx hc h1 with h3 | ⟨k', h3, -, h4⟩
  · omega
  · obtain rfl : k = k' := by omega
    exact h4

/-- The entries found are corners listed as the same; those left out are the corner itself or met across a face. -/
theorem findCornerTransform_spec (hconn : FaceConsistent 2 conn) (hcc : CornerConsistent conn.numTrees cc) {t c : ℕ}
    (ht : t < conn.numTrees) (hc : c < 4) :
    ∃ l, findCornerTransform conn cc t c = some l ∧ (∀ e ∈ l, SameCorner cc (t, c) e) ∧
      ∀ e, SameCorner cc (t, c) e → e ∈ l ∨ e = (t, c) ∨ AcrossFace conn t c e := by
  unfold findCornerTransform
  by_cases h0 : cc.numCorners = 0
  · rw [if_pos h0]
    refine ⟨[], rfl, by simp, ?_⟩
    rintro e ⟨k, hk, -⟩
    omega
  · rw [if_neg h0]
    have hlen : 4 * t + c < cc.treeToCorner.length := by rw [hcc.arrays.entries h0]; omega
    have hv := List.getElem?_eq_getElem hlen
    set v := cc.treeToCorner[4 * t + c] with hvd
    rw [hv]
    simp only [Option.bind_eq_bind, Option.bind_some]
    rcases hcc.range h0 t c v ht hc hv with h1 | ⟨k, h1, hk, hself⟩
    · rw [if_pos h1]
      refine ⟨[], rfl, by simp, ?_⟩
      rintro e ⟨k, hk, hl, -⟩
      dsimp only at hl
      rw [hv, Option.some.injEq] at hl
      omega
    · rw [if_neg (by omega), h1]
      have hidx : index (k : ℤ) = some k := by unfold index; simp
      rw [hidx]
      simp only [Option.bind_some]
      have hself' := hself
      obtain ⟨a, b, i0, ha, hb, -⟩ := hself'
      rw [ha, hb]
      simp only [Option.bind_some]
      obtain ⟨D, hD, hD2⟩ := cornerDistinct_spec hconn ht hc
      rw [hD]
      simp only [Option.bind_some]
      have hab := hcc.ordered k a b ha hb
      have hbl := hcc.arrays.bound hcc.ordered hb
      have hcl := hcc.arrays.corners
      obtain ⟨es, h2, h3⟩ := mapM_pairs (l := List.range' a (b - a)) (f := fun j =>
          (cc.cornerToTree[j]?).bind fun nctree => (cc.cornerToCorner[j]?).bind fun ncorner => some (nctree, ncorner)) (by
        intro j hj
        rw [List.mem_range'_1] at hj
        rw [List.getElem?_eq_getElem (show j < cc.cornerToTree.length by omega),
          List.getElem?_eq_getElem (show j < cc.cornerToCorner.length by omega)]
        exact ⟨_, rfl⟩)
      rw [h2]
      simp only [Option.bind_some]
      have hmem : ∀ e : ℕ × ℕ, e ∈ es ↔ Listed cc k e.1 e.2 := by
        rintro ⟨t', c'⟩
        rw [h3]
        constructor
        · rintro ⟨j, hj, hf⟩
          rw [List.mem_range'_1] at hj
          obtain ⟨z, hz, hf⟩ := Option.bind_eq_some_iff.mp hf
          obtain ⟨w, hw, hf⟩ := Option.bind_eq_some_iff.mp hf
          simp only [Option.some.injEq, Prod.mk.injEq] at hf
          rw [hf.1] at hz
          rw [hf.2] at hw
          exact ⟨a, b, j, ha, hb, hj.1, by omega, hz, hw⟩
        · rintro ⟨a', b', j, ha', hb', h4, h5, h6, h7⟩
          rw [ha, Option.some.injEq] at ha'
          rw [hb, Option.some.injEq] at hb'
          subst ha' hb'
          refine ⟨j, List.mem_range'_1.mpr ⟨h4, by omega⟩, ?_⟩
          rw [h6, h7]; rfl
      refine ⟨_, rfl, fun e he => ?_, fun e he => ?_⟩
      · exact ⟨k, hk, by rw [hv, h1], (hmem e).mp (List.mem_filter.mp he).1⟩
      · obtain ⟨k', hk', hl, hl'⟩ := he
        dsimp only at hl
        rw [hv, Option.some.injEq] at hl
        obtain rfl : k' = k := by omega
        by_cases hd : e ∈ D
        · exact Or.inr (hD2 e hd)
        · refine Or.inl (List.mem_filter.mpr ⟨(hmem e).mpr hl', ?_⟩)
          simp [hd]

end

end P4est
