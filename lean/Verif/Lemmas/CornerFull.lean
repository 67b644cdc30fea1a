import Verif.Lemmas.CornerTargets

/-! # The leaves met across corners of trees -/

namespace P4est
open Spec

section

variable {conn : FaceConn} {cc : CornerConn} {trees : List (List (Quad 2))} {P : ℕ} {leaves : ℕ → List (ℕ × Quad 2)}

/-- The cell at corner `c` of a tree. -/
def rootCell (c : ℕ) : Fin 2 → ℤ := fun i => if c.testBit i then 2 ^ 30 - 1 else 0

/-- A leaf at a corner of its tree contains the cell there. -/
theorem rootCell_mem {y : Quad 2} (hy : Valid y) {c : ℕ} (h : (cornerPoint c : Fin 2 → ℤ) ∈ Box y) : rootCell c ∈ Cells y := by
  intro i
  have h1 := h i
  have h2 := hy.2.2 i
  have h3 := valid_le hy i
  have h4 := side_pos y
  unfold cornerPoint at h1
  unfold rootCell
  try dsimp only at h1 ⊢
  split <;> rename_i hb
  · rw [if_pos hb] at h1; omega
  · rw [if_neg hb] at h1; omega

theorem cornerPoint_mem {y : Quad 2} {c : ℕ} (h : rootCell c ∈ Cells y) : (cornerPoint c : Fin 2 → ℤ) ∈ Box y := by
  intro i
  have h1 := h i
  unfold rootCell at h1
  unfold cornerPoint
  try dsimp only at h1 ⊢
  split <;> rename_i hb
  · rw [if_pos hb] at h1; omega
  · rw [if_neg hb] at h1; omega

/-- The smallest quadrant at a corner of a tree. -/
theorem transformCorner_valid {n : Quad 2} (hn : n.level = 29) (c : ℕ) :
    Valid (transformCorner n c) ∧ rootCell c ∈ Cells (transformCorner n c) := by
  have hc : ∀ i, (transformCorner n c).c i = if c.testBit i then 2 ^ 30 - 2 else 0 := by
    intro i
    unfold transformCorner rootLen qlen MAXLEVEL
    rw [hn]
    norm_num
  have hs : side (transformCorner n c) = 2 := by
    unfold side transformCorner
    rw [hn]; norm_num
  refine ⟨⟨by show n.level ≤ 29; omega, ⟨by show n.level ≤ 30; omega, fun i => ?_⟩, fun i => ?_⟩, fun i => ?_⟩
  · rw [hs, hc]; split <;> norm_num
  · rw [hc]; split <;> norm_num
  · rw [hs, hc]; unfold rootCell; split <;> norm_num

/-- The owner of a smallest quadrant. -/
theorem ownerTargets_spec (h : Distributed trees P leaves) {r : ℕ} (hr : r < P) {t : ℕ} (ht : t < trees.length) {n : Quad 2}
    (hn : Valid n) (hl : n.level = 29) {b : Fin 2 → ℤ} (hb : b ∈ Cells n) :
    ∃ ps, ownerTargets (globalPartition leaves P trees.length) P r t n = some ps ∧
      ∀ p, p ∈ ps ↔ p < P ∧ p ≠ r ∧ ∃ y ∈ leaves p, y.1 = t ∧ b ∈ Cells y.2 := by
  obtain ⟨s, hs⟩ := h.segments (by norm_num)
  obtain ⟨p0, hp0, ⟨y, hy, hyt, hny⟩, huniq, ho, -⟩ := C27_find_owner (by norm_num) trees P leaves h t ht n (valid_inTree hn) r hr
  have hby : ∀ p < P, ∀ z ∈ leaves p, z.1 = t → (b ∈ Cells z.2 ↔ n.c ∈ Cells z.2) := by
    intro p hp z hz hzt
    have hzv := (hs.leaf p hp z hz).2
    exact ⟨fun k => small_subset hzv hn hl k hb (corner_mem n), fun k => small_subset hzv hn hl k (corner_mem n) hb⟩
  unfold ownerTargets
  rw [ho]
  simp only [Option.bind_eq_bind, Option.bind_some]
  refine ⟨_, rfl, fun p => ?_⟩
  have hiff : (p < P ∧ p ≠ r ∧ ∃ y ∈ leaves p, y.1 = t ∧ b ∈ Cells y.2) ↔ p = p0 ∧ p ≠ r := by
    constructor
    · rintro ⟨hp, hpr, z, hz, hzt, hbz⟩
      exact ⟨huniq p hp ⟨z, hz, hzt, (hby p hp z hz hzt).mp hbz⟩, hpr⟩
    · rintro ⟨rfl, hpr⟩
      exact ⟨hp0, hpr, y, hy, hyt, (hby p hp0 y hy hyt).mpr hny⟩
  rw [hiff]
  split
  · rename_i hne
    simp only [List.mem_singleton, Int.toNat_natCast]
    constructor
    · rintro rfl; exact ⟨rfl, fun e => hne (by rw [e])⟩
    · exact fun k => k.1
  · rename_i hne
    simp only [List.not_mem_nil, false_iff, not_and, not_not]
    rintro rfl
    push Not at hne
    exact_mod_cast hne

/-- Leaves at corners that are the same across a face share a part of that face. -/
theorem share_of_across (hconn : FaceConsistent 2 conn) {x y : ℕ × Quad 2} (hxt : x.1 < conn.numTrees) (hx : Valid x.2)
    (hy : Valid y.2) {c c' : ℕ} (hc : c < 4) (h : AcrossFace conn x.1 c (y.1, c')) (hcx : (cornerPoint c : Fin 2 → ℤ) ∈ Box x.2)
    (hcy : (cornerPoint c' : Fin 2 → ℤ) ∈ Box y.2) : ShareFace conn x y := by
  obtain ⟨i, nf, o, hnf, ho, e1, e2, hne, hnc⟩ := h
  dsimp only at e1 hne hnc
  have hf := faceOf_lt c i
  have hd : (2 : ℕ) = 2 ∨ (2 : ℕ) = 3 := Or.inl rfl
  obtain ⟨ft, he, -⟩ := expand_good hd hf hnf (show o < 2 ^ (2 - 1) from ho)
  have hT := (expand_glues hd hf hnf (show o < 2 ^ (2 - 1) from ho) he).2
  set T : (Fin 2 → ℤ) → Fin 2 → ℤ := faceImage ft 0 with hTd
  obtain ⟨nc, h1, h2⟩ := corner_across hc i hnf ho
  rw [hnc, Option.some.injEq] at h1
  subst h1
  have h3 := h2 T hT
  have hon : OnFace (faceOf c i) (cornerPoint c : Fin 2 → ℤ) := by
    refine ⟨fun k => ?_, fun k hk => ?_⟩
    · unfold cornerPoint; (try dsimp only); split <;> norm_num
    · rw [faceOf_div] at hk
      obtain rfl : k = i := Fin.ext hk
      unfold cornerPoint
      simp only [faceOf_mod]
  have hon' : OnFace nf (cornerPoint c' : Fin 2 → ℤ) := by rw [← h3]; exact (hT.face _).mp hon
  have hb := rootCell_mem hy hcy
  have hbf : AtFace nf (rootCell c' : Fin 2 → ℤ) := by
    intro k hk
    have := hon'.2 k hk
    unfold cornerPoint at this
    unfold rootCell
    try dsimp only at this ⊢
    split at this <;> rename_i h4
    · rw [if_pos h4]; split at this <;> rename_i h5
      · rw [if_pos h5]
      · norm_num at this
    · rw [if_neg h4]; split at this <;> rename_i h5
      · norm_num at this
      · rw [if_neg h5]
  obtain ⟨a, hbes, haf, hF⟩ := beside_before hconn hxt hf hnf e1 e2 hne hT hy hb hbf
  have hmem : (cornerPoint c : Fin 2 → ℤ) ∈ Facet (faceOf c i) a := by
    have : T (cornerPoint c) ∈ Facet nf (rootCell c') := by
      rw [h3]
      refine ⟨fun k => ?_, hon'⟩
      unfold cornerPoint rootCell
      try dsimp only
      split <;> norm_num
    rw [← hF] at this
    obtain ⟨w, hw, hwu⟩ := this
    rwa [glue_inj hf hnf ho hT hwu] at hw
  have ha : a = rootCell c := by
    funext k
    have g1 := hmem.1 k
    have g2 := hbes.1 k
    unfold cornerPoint at g1
    unfold rootCell
    dsimp only at g1 g2 ⊢
    split at g1 <;> rename_i hk
    · rw [if_pos hk]; omega
    · rw [if_neg hk]; omega
  rw [ha] at hbes
  exact ⟨_, rootCell_mem hx hcx, _, hb, (sharesFacet_iff _ _ _).mpr ⟨_, hf, hbes⟩⟩

/-- The diagonal neighbor is beyond both faces exactly if the leaf lies at the corner of the tree. -/
theorem at_corner {q : Quad 2} (hq : Valid q) {c : ℕ} :
    (∀ j, ¬ InRoot (faceNeighbor (cornerDesc q c 29) (faceOf c j))) ↔ (cornerPoint c : Fin 2 → ℤ) ∈ Box q := by
  have hM := desc_valid hq (c := c)
  have hs := side_pos q
  constructor
  · intro h i
    have h1 := outside_face hM (h i) i (faceOf_div c i).symm
    have h2 := hq.2.2 i
    have h3 := valid_le hq i
    simp only [faceOf_mod, desc_side, desc_c] at h1
    unfold cornerPoint
    try dsimp only
    split at h1 <;> rename_i hb
    · rw [if_pos hb]; omega
    · rw [if_neg hb]; omega
  · intro h j hin
    have h1 := hin j
    have h2 := h j
    have h3 := valid_le hq j
    have h4 := hq.2.2 j
    rw [neighbor_faceOf, if_pos rfl, desc_side, desc_c] at h1
    unfold cornerPoint at h2
    try dsimp only at h2
    split at h2 <;> rename_i hb
    · simp only [if_pos hb] at h1; omega
    · simp only [if_neg hb] at h1; omega

/-- The corner loop for one corner. -/
theorem cornerTargets_spec (hconn : FaceConsistent 2 conn) (hcc : CornerConsistent conn.numTrees cc)
    (hn : conn.numTrees = trees.length) (h : Distributed trees P leaves)
    (hone : ∀ p < P, ∀ x, leaves p = [x] → x.2.level ≠ 29) {r : ℕ} (hr : r < P) {x : ℕ × Quad 2} (hx : x ∈ leaves r)
    {c : ℕ} (hc : c < 4) :
    ∃ ps, cornerTargets conn cc (globalPartition leaves P trees.length) P r x.1 x.2 c = some ps ∧
      (∀ p ∈ ps, p < P ∧ p ≠ r ∧ ∃ y ∈ leaves p, Meet conn cc x y) ∧
      ∀ p < P, p ≠ r → ∀ y ∈ leaves p, ¬ ShareFace conn x y →
        ((∃ i j, Diag conn x y c i j) ∨ ∃ c' < 4, SameCorner cc (x.1, c) (y.1, c') ∧ (cornerPoint c : Fin 2 → ℤ) ∈ Box x.2 ∧
          (cornerPoint c' : Fin 2 → ℤ) ∈ Box y.2) → p ∈ ps := by
  obtain ⟨s, hs⟩ := h.segments (by norm_num)
  obtain ⟨htl, hxv⟩ := hs.leaf r hr _ hx
  have htc : x.1 < conn.numTrees := by rw [hn]; exact htl
  by_cases hcor : (cornerPoint c : Fin 2 → ℤ) ∈ Box x.2
  · have hout := (at_corner hxv).mpr hcor
    set n := cornerNeighbor (cornerDesc x.2 c 29) c with hnd
    have hnl : n.level = 29 := rfl
    have hnc : ∀ k : Fin 2, n.c k < 0 ∨ n.c k ≥ 2 ^ 30 := by
      intro k
      by_contra hk
      push Not at hk
      have hij : (1 - k) ≠ k := by fin_cases k <;> decide
      apply hout k
      intro l
      by_cases hl : l = k
      · subst hl
        have : n.c l = (faceNeighbor (cornerDesc x.2 c 29) (faceOf c l)).c l := by
          rw [hnd, cornerNeighbor_step hij, neighbor_faceOf, if_neg (Ne.symm hij)]
        rw [← this]; exact hk
      · rw [neighbor_faceOf, if_neg hl]; exact (desc_valid hxv).2.2 l
    have hin1 : ¬ isInsideRoot n = true := by
      rw [isInsideRoot_iff]
      intro hi
      have := hi 0; have := hnc 0; omega
    have hin2 : ¬ isOutsideFace n = true := by
      unfold isOutsideFace rootLen MAXLEVEL
      simp only [decide_eq_true_eq, Fin.sum_univ_two]
      rw [if_pos (hnc 0), if_pos (hnc 1)]
      norm_num
    obtain ⟨l, h1, h2, h3⟩ := findCornerTransform_spec hconn hcc htc hc
    have hrange : ∀ e ∈ l, e.1 < trees.length := by
      intro e he
      obtain ⟨k, hk, -, hl⟩ := h2 e he
      rw [← hn]; exact (hcc.listed hl).1
    obtain ⟨ls, h4, h5⟩ := mapM_collect (l := l) fun e he =>
      ownerTargets_spec h hr (hrange e he) (transformCorner_valid hnl e.2).1 hnl (transformCorner_valid hnl e.2).2
    refine ⟨ls.flatten, ?_, fun p hp => ?_, fun p hp hpr y hy hsh hd => ?_⟩
    · unfold cornerTargets
      rw [show cornerDesc x.2 c QMAXLEVEL = cornerDesc x.2 c 29 from rfl]
      dsimp only
      rw [← hnd, if_neg hin1, if_neg hin2, h1]
      simp only [Option.bind_eq_bind, Option.bind_some]
      rw [h4]; rfl
    · obtain ⟨e, he, hp, hpr, y, hy, hyt, hb⟩ := (h5 p).mp hp
      refine ⟨hp, hpr, y, hy, Or.inr ⟨c, e.2, hc, ?_, ?_, hcor, cornerPoint_mem hb⟩⟩
      · obtain ⟨k, hk, -, hl⟩ := h2 e he
        exact (hcc.listed hl).2
      · rw [hyt]; exact h2 e he
    · have hyv := (hs.leaf p hp y hy).2
      rcases hd with ⟨i, j, hij, ht, -⟩ | ⟨c', hc', hsame, -, hcy⟩
      · exact absurd (diag_inRoot hxv ht) (hout j)
      · rcases h3 _ hsame with he | he | he
        · exact (h5 p).mpr ⟨_, he, hp, hpr, y, hy, rfl, rootCell_mem hyv hcy⟩
        · exfalso
          rw [Prod.mk.injEq] at he
          have hb := rootCell_mem hyv hcy
          rw [he.2] at hb
          exact hpr (owner_unique (by norm_num) h hr hp hx hy he.1.symm (rootCell_mem hxv hcor) hb)
        · exact absurd (share_of_across hconn htc hxv hyv hc he hcor hcy) hsh
  · have hin : ∃ j, InRoot (faceNeighbor (cornerDesc x.2 c 29) (faceOf c j)) := by
      by_contra hc2
      push Not at hc2
      exact hcor ((at_corner hxv).mp hc2)
    obtain ⟨j, hj⟩ := hin
    have hij : (1 - j) ≠ j := by fin_cases j <;> decide
    obtain ⟨ps, h1, h2⟩ := cornerTargets_diag (cc := cc) hconn hn h hone hr hx hc hij hj
    refine ⟨ps, h1, fun p hp => ?_, fun p hp hpr y hy hsh hd => ?_⟩
    · obtain ⟨hp, hpr, y, hy, hd⟩ := (h2 p).mp hp
      exact ⟨hp, hpr, y, hy, Or.inl (meet_of_diag hxv hd)⟩
    · rcases hd with ⟨i', j', hd⟩ | ⟨c', hc', -, hcx, -⟩
      · obtain ⟨ps', h1', h2'⟩ := cornerTargets_diag (cc := cc) hconn hn h hone hr hx hc hd.1 (diag_inRoot hxv hd.2.1)
        rw [h1, Option.some.injEq] at h1'
        rw [h1']
        exact (h2' p).mpr ⟨hp, hpr, y, hy, hd⟩
      · exact absurd hcx hcor

/-- The relation is symmetric. -/
theorem meet_symm (hconn : FaceConsistent 2 conn) (hcc : CornerConsistent conn.numTrees cc) {x y : ℕ × Quad 2}
    (hxt : x.1 < conn.numTrees) (h : Meet conn cc x y) : Meet conn cc y x := by
  rcases h with h | ⟨c, c', hc, hc', hs, h3, h4⟩
  · exact Or.inl (meetFace_symm hconn hxt h)
  · exact Or.inr ⟨c', c, hc', hc, sameCorner_symm hcc hxt hc hs, h4, h3⟩

/-- All faces and corners. -/
theorem allTargets_spec (hconn : FaceConsistent 2 conn) (hcc : CornerConsistent conn.numTrees cc)
    (hn : conn.numTrees = trees.length) (h : Distributed trees P leaves)
    (hone : ∀ p < P, ∀ x, leaves p = [x] → x.2.level ≠ 29) {r : ℕ} (hr : r < P) {x : ℕ × Quad 2} (hx : x ∈ leaves r)
    (mem : Fin 2 → ℤ) :
    ∃ ps, allTargets mem conn cc (globalPartition leaves P trees.length) P r x = some ps ∧
      ∀ p, p ∈ ps ↔ p < P ∧ p ≠ r ∧ ∃ y ∈ leaves p, Meet conn cc x y := by
  obtain ⟨s, hs⟩ := h.segments (by norm_num)
  obtain ⟨htl, hxv⟩ := hs.leaf r hr _ hx
  have htc : x.1 < conn.numTrees := by rw [hn]; exact htl
  obtain ⟨fs, f1, f2⟩ := allFaceTargets_spec (Or.inl rfl) hconn hn h hone hr hx mem
  have hcorners : ∀ c, c ∈ List.range 4 → ∃ ps, cornerTargets conn cc (globalPartition leaves P trees.length) P r x.1 x.2 c = some ps ∧
      ∀ p, p ∈ ps ↔ ∃ ps, cornerTargets conn cc (globalPartition leaves P trees.length) P r x.1 x.2 c = some ps ∧ p ∈ ps := by
    intro c hc
    obtain ⟨ps, h1, -⟩ := cornerTargets_spec hconn hcc hn h hone hr hx (List.mem_range.mp hc)
    exact ⟨ps, h1, fun p => ⟨fun hp => ⟨ps, h1, hp⟩, fun ⟨ps', h2, hp⟩ => by
      rw [h1, Option.some.injEq] at h2; rw [h2]; exact hp⟩⟩
  obtain ⟨ls, l1, l2⟩ := mapM_collect hcorners
  refine ⟨fs ++ ls.flatten, ?_, fun p => ?_⟩
  · unfold allTargets
    rw [f1]
    simp only [Option.bind_eq_bind, Option.bind_some]
    rw [l1]; rfl
  · rw [List.mem_append, f2, l2]
    constructor
    · rintro (⟨hp, hpr, y, hy, hsh⟩ | ⟨c, hc, ps, h1, hp⟩)
      · exact ⟨hp, hpr, y, hy, Or.inl (meet_of_share hsh)⟩
      · obtain ⟨ps', h1', h2', -⟩ := cornerTargets_spec hconn hcc hn h hone hr hx (List.mem_range.mp hc)
        rw [h1, Option.some.injEq] at h1'
        exact h2' p (h1' ▸ hp)
    · rintro ⟨hp, hpr, y, hy, hm⟩
      by_cases hsh : ShareFace conn x y
      · exact Or.inl ⟨hp, hpr, y, hy, hsh⟩
      · right
        have hyv := (hs.leaf p hp y hy).2
        have hcase : ∃ c < 4, (∃ i j, Diag conn x y c i j) ∨ ∃ c' < 4, SameCorner cc (x.1, c) (y.1, c') ∧
            (cornerPoint c : Fin 2 → ℤ) ∈ Box x.2 ∧ (cornerPoint c' : Fin 2 → ℤ) ∈ Box y.2 := by
          rcases hm with hm | ⟨c, c', hc, hc', h1, h2, h3⟩
          · rcases meet_cases hconn htc hxv hyv (fun e b hb hb' =>
              hpr (owner_unique (by norm_num) h hr hp hx hy e hb hb')) hm with k | ⟨c, hc, k⟩
            · exact absurd k hsh
            · exact ⟨c, hc, Or.inl k⟩
          · exact ⟨c, hc, Or.inr ⟨c', hc', h1, h2, h3⟩⟩
        obtain ⟨c, hc, hcase⟩ := hcase
        obtain ⟨ps, h1, -, h3⟩ := cornerTargets_spec hconn hcc hn h hone hr hx hc
        exact ⟨c, List.mem_range.mpr hc, ps, h1, h3 p hp hpr y hy hsh hcase⟩

/-- A leaf that is skipped meets no leaf on another rank. -/
theorem owned_no_meet (hconn : FaceConsistent 2 conn) (hcf : CornersOnFaces conn cc)
    (hn : conn.numTrees = trees.length) (h : Distributed trees P leaves) {r : ℕ} (hr : r < P) {x x0 xl : ℕ × Quad 2} (hx : x ∈ leaves r)
    (h0 : (leaves r).head? = some x0) (hl : (leaves r).getLast? = some xl) {full : Bool × Bool}
    (hfull : fullTree (globalPartition leaves P trees.length) r x0.1 xl.1 x.1 = some full)
    (hown : neighborhoodOwned (globalPartition leaves P trees.length) P r x.1 full
      (treeContact (fun t f => conn.treeToTree.getD (2 * 2 * t + f) 0) (fun t f => conn.treeToFace.getD (2 * 2 * t + f) 0) x.1)
      x.2 = some true) {p : ℕ} (hp : p < P) (hpr : p ≠ r) {y : ℕ × Quad 2} (hy : y ∈ leaves p) : ¬ Meet conn cc x y := by
  have hd0 : 0 < 2 := by omega
  obtain ⟨k1, k2⟩ := C48_neighborhood_owned_partial hd0 trees P leaves h r hr x.1 x.2 hx x0 xl h0 hl full hfull _ _ hown
  obtain ⟨s, hs⟩ := h.segments hd0
  obtain ⟨htl, hxv⟩ := hs.leaf r hr _ hx
  have htc : x.1 < conn.numTrees := by rw [hn]; exact htl
  have hyv := (hs.leaf p hp y hy).2
  have hsp := side_pos x.2
  -- a point of the leaf on a face of the tree lies on a boundary
  have hbd : ∀ f < 4, ∀ u : Fin 2 → ℤ, u ∈ Box x.2 → OnFace f u →
      conn.treeToTree[4 * x.1 + f]? = some x.1 ∧ conn.treeToFace[4 * x.1 + f]? = some f := by
    intro f hf u hu hon
    obtain ⟨a, ha, -, haf⟩ := cell_atFace hxv hu hon
    have hlt : f / 2 < 2 := by omega
    have h1 := ha ⟨f / 2, hlt⟩
    have h2 := haf ⟨f / 2, hlt⟩ rfl
    rcases k2 with k2 | k2
    · exfalso
      have hnb : nbCell f a ∈ Around x.2 := by
        intro i
        have h1 := ha i
        rw [nbCell_apply]
        split
        · split <;> omega
        · omega
      have h3 := k2 _ hnb ⟨f / 2, hlt⟩
      rw [nbCell_apply, if_pos rfl] at h3
      split at h2 <;> split at h3 <;> omega
    · obtain ⟨m1, m2⟩ := k2 ⟨f / 2, hlt⟩
      have hle := valid_le hxv ⟨f / 2, hlt⟩
      have hv := hxv.2.2 ⟨f / 2, hlt⟩
      have hget : ∀ (l : List ℕ) (i v w : ℕ), l[i]? = some w → l.getD i 0 = v → l[i]? = some v := by
        intro l i v w hw hv; rw [List.getD_eq_getElem?_getD, hw] at hv; rw [hw, ← hv]; rfl
      dsimp only at m1 m2
      obtain ⟨t', nf, o, e1, e2, -⟩ := hconn.entries htc (show f < 2 * 2 from hf)
      have hself : conn.treeToTree.getD (2 * 2 * x.1 + f) 0 = x.1 ∧ conn.treeToFace.getD (2 * 2 * x.1 + f) 0 = f := by
        by_cases c : f % 2 = 1
        · rw [if_pos c] at h2
          have := m2 (by omega)
          rwa [show 2 * (f / 2) + 1 = f by omega] at this
        · rw [if_neg c] at h2
          have := m1 (by omega)
          rwa [show 2 * (f / 2) = f by omega] at this
      exact ⟨hget _ _ _ _ e1 hself.1, hget _ _ _ _ e2 hself.2⟩
  rintro ((⟨e, v, hv1, hv2⟩ | ⟨f, nf, o, T, u, hf, hnf, e1, e2, hne, hT, hu, hux, huy⟩) | ⟨c, c', hc, hc', hsame, hcx, hcy⟩)
  · obtain ⟨b, hb, hb', -⟩ := cell_at hv2
    have har : b ∈ Around x.2 := by
      intro i
      have h1 := hv1 i
      have h2 := hb' i
      constructor <;> omega
    obtain ⟨z, hz, hzt, hbz⟩ := k1 b har (valid_cells_inTree hyv hb)
    exact hpr (owner_unique hd0 h hr hp hz hy (hzt.trans e) hbz hb)
  · obtain ⟨b1, b2⟩ := hbd f hf u hux hu
    rw [e1, Option.some.injEq] at b1
    rw [e2, Option.some.injEq] at b2
    rcases hne with k | k
    · exact k b1
    · omega
  · by_cases hself : (y.1, c') = (x.1, c)
    · rw [Prod.mk.injEq] at hself
      have hb := rootCell_mem hyv hcy
      rw [hself.2] at hb
      exact hpr (owner_unique hd0 h hr hp hx hy hself.1.symm (rootCell_mem hxv hcx) hb)
    · obtain ⟨f, hf, hon, hcon⟩ := hcf x.1 c y.1 c' hc hc' hsame hself
      exact hcon (hbd f hf _ hcx hon)

end

end P4est
