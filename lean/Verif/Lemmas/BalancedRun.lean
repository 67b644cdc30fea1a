import Verif.Lemmas.BalancedTest

/-! # The test for face balance on all ranks -/

namespace P4est
open Spec

variable {d : ℕ}

section

variable {conn : FaceConn} {trees : List (List (Quad d))} {P : ℕ} {leaves : ℕ → List (ℕ × Quad d)}

/-! ### Ghost layers -/

theorem table_of_layer (hn : conn.numTrees = trees.length) (h : Distributed trees P leaves) {rel : ℕ × Quad d → ℕ × Quad d → Prop} {r : ℕ}
    {g : GhostLayer d} (hg : IsGhostLayer rel leaves P conn.numTrees r g) : GhostTable trees P leaves g := by
  classical
  obtain ⟨h1, h2, h3, -⟩ := hg
  refine ⟨?_, ⟨_, by rw [← hn]; exact h3, fun t _ x hx => by simpa using (List.mem_filter.mp hx).2⟩, ⟨_, h2, fun p _ x hx => ?_⟩⟩
  · rw [h1, ← h.split]
    unfold ghostsOf
    rw [List.map_flatMap]
    refine flatMap_sublist (fun p => ?_) _
    have := ((List.filter_sublist (l := (leaves p).zipIdx)
      (p := fun x => decide (p ≠ r ∧ ∃ y ∈ leaves r, rel x.1 y))).map Prod.fst)
    rw [List.zipIdx_map_fst] at this
    exact this
  · have := (mem_seenBy.mp hx).1
    have := List.mem_map_of_mem (f := Prod.fst) this
    rw [List.zipIdx_map_fst] at this
    exact this

theorem sees_related {rel : ℕ × Quad d → ℕ × Quad d → Prop} (h : Distributed trees P leaves) {r : ℕ} {g : GhostLayer d}
    (hg : IsGhostLayer rel leaves P conn.numTrees r g) {z : ℕ × Quad d} (hz : z ∈ forestLeaves trees)
    {y : ℕ × Quad d} (hy : y ∈ leaves r) (hrel : rel z y) : Sees leaves r g z := by
  obtain ⟨p, hp, hm⟩ := h.mem_forest.mp hz
  by_cases hpr : p = r
  · subst hpr; exact Or.inl hm
  · right
    rw [← List.zipIdx_map_fst 0 (leaves p)] at hm
    obtain ⟨x, hx, rfl⟩ := List.mem_map.mp hm
    refine ⟨x, ?_, rfl⟩
    rw [hg.1]
    unfold ghostsOf
    exact List.mem_flatMap.mpr ⟨p, List.mem_range.mpr hp, mem_seenBy.mpr ⟨hx, hpr, y, hy, hrel⟩⟩

/-! ### One face of a leaf -/

/-- Each cell is in a leaf. -/
theorem cell_leaf (h : Distributed trees P leaves) {t : ℕ} (ht : t < trees.length) {b : Fin d → ℤ} (hb : InTree b) :
    ∃ z, (t, z) ∈ forestLeaves trees ∧ b ∈ Cells z := by
  have hl : trees[t] ∈ trees := List.getElem_mem ht
  have hc := h.complete _ hl
  obtain ⟨z, hz, hm⟩ := hc.cover b hb
  refine ⟨z, mem_forest_iff.mpr ?_, hm⟩
  show z ∈ trees.getD t []
  rw [List.getD_eq_getElem?_getD, List.getElem?_eq_getElem ht]
  exact hz

/-- A quadrant that contains a leaf properly, or is properly inside of one, is not a leaf. -/
theorem not_leaf (h : Distributed trees P leaves) {r : ℕ} (hr : r < P) {g : GhostLayer d} (hg : GhostTable trees P leaves g)
    {t : ℕ} {z n : Quad d} (hz : (t, z) ∈ forestLeaves trees) {b : Fin d → ℤ} (h1 : b ∈ Cells z) (h2 : b ∈ Cells n)
    (hne : n.level ≠ z.level) : ¬ Sees leaves r g (t, n) := by
  intro hs
  have := forest_disjoint h hz (sees_leaf h hg hr hs) h1 h2
  rw [this] at hne
  exact hne rfl

theorem eq_of_meet (hd : 0 < d) {a b : Quad d} (ha : Valid a) (hb : Valid b) {c : Fin d → ℤ} (h1 : c ∈ Cells a) (h2 : c ∈ Cells b)
    (hl : a.level = b.level) : a = b := by
  rcases meet_nested ha hb h1 h2 with k | k
  · exact valid_eq_of_level hd ha hb k hl.le
  · exact (valid_eq_of_level hd hb ha k hl.ge).symm

theorem sub_of_meet (hd : 0 < d) {a b : Quad d} (ha : Valid a) (hb : Valid b) {c : Fin d → ℤ} (h1 : c ∈ Cells a) (h2 : c ∈ Cells b)
    (hl : b.level ≤ a.level) : Cells a ⊆ Cells b := by
  rcases meet_nested ha hb h1 h2 with k | k
  · exact k
  · rw [valid_eq_of_level hd hb ha k hl]

theorem across_into (hd : d = 2 ∨ d = 3) (hconn : FaceConsistent d conn) {t f : ℕ} (ht : t < conn.numTrees) (hf : f < 2 * d)
    {K : Quad d} (hK : Valid K) {a : Fin d → ℤ} (ha : Layer f K a) {y : ℕ × (Fin d → ℤ)} (hy : Beside conn f (t, a) y) :
    ∃ n, Across conn t f K y.1 n ∧ y.2 ∈ Cells n := by
  rcases across_or hd hconn ht hf hK with ⟨t', n, hc⟩ | hc
  · obtain ⟨e, m⟩ := hc.into a ha y hy
    rw [e]
    exact ⟨n, hc, m⟩
  · exact absurd hy (hc.none a ha y)

/-- The test passes at the faces of a leaf of a balanced mesh. -/
theorem face_good (hd : d = 2 ∨ d = 3) (hconn : FaceConsistent d conn) (hn : conn.numTrees = trees.length)
    (h : Distributed trees P leaves) (hbal : MeshBalanced conn trees) {g : GhostLayer d} {r : ℕ} (hr : r < P)
    (hg : IsGhostLayer (ShareFace conn) leaves P conn.numTrees r g)
    {bs : (Quad d → ℤ) → List (Quad d) → Option ℕ} (hbs : Searches bs) {x : ℕ × Quad d} (hx : x ∈ leaves r) {f : ℕ}
    (hf : f < 2 * d) (mem : Fin d → ℤ) :
    faceFails (quadrantExists bs mem conn (globalPartition leaves P trees.length) P r (leaves r) g x.1) conn x.1 x.2 f = some false := by
  have hd0 : 0 < d := by omega
  have htab := table_of_layer hn h hg
  obtain ⟨sg, hs⟩ := h.segments hd0
  obtain ⟨t, q⟩ := x
  obtain ⟨ht, hq⟩ := hs.leaf r hr _ hx
  dsimp only at ht hq ⊢
  have hxf : (t, q) ∈ forestLeaves trees := h.mem_forest.mpr ⟨r, hr, hx⟩
  have htn : t < conn.numTrees := by omega
  obtain ⟨v, hv1, hv2⟩ := boundary_spec hd hconn htn hf hq
  cases v with
  | true =>
    unfold faceFails
    rw [hv1]
    rfl
  | false =>
    rcases across_or hd hconn htn hf hq with ⟨t', n, hac⟩ | hno
    swap
    · exact absurd (hv2.mpr hno) (by simp)
    obtain ⟨s, e2, e3, k1, k2, k3, k4, k5, k6, k7⟩ := face_values hd hconn hn h htab hbs hr ht hf hq mem
    obtain ⟨-, m2, m3, -⟩ := faceFails_eval hv1 k1 k2 k3
    -- leaves beside the leaf
    have hshare : ∀ a, Layer f q a → ∀ y, Beside conn f (t, a) y → ∀ z, (y.1, z) ∈ forestLeaves trees → y.2 ∈ Cells z →
        z.level ≤ q.level + 1 ∧ q.level ≤ z.level + 1 ∧ Sees leaves r g (y.1, z) := by
      intro a ha y hy z hz hyz
      have h1 : ShareFace conn (t, q) (y.1, z) := ⟨a, ha.1, y.2, hyz, (sharesFacet_iff _ _ _).mpr ⟨f, hf, hy⟩⟩
      have h2 : ShareFace conn (y.1, z) (t, q) := ⟨y.2, hyz, a, ha.1, sharesFacet_symm hd conn hconn htn ((sharesFacet_iff _ _ _).mpr ⟨f, hf, hy⟩)⟩
      exact ⟨hbal _ hxf _ hz h1, hbal _ hz _ hxf h2, sees_related h hg hz hx h2⟩
    obtain ⟨a, hla⟩ := layer_nonempty q f
    obtain ⟨y, hy⟩ := hac.some a hla
    obtain ⟨y1, y2⟩ := hac.into a hla y hy
    have hyt : InTree y.2 := hy.2.1
    obtain ⟨z, hz, hyz⟩ := cell_leaf h (t := y.1) (by rw [y1, ← hn]; exact hac.tree) hyt
    obtain ⟨l1, l2, hsee⟩ := hshare a hla y hy z hz hyz
    have hzv : Valid z := forest_valid h hz
    have hNz : ∀ u, Valid u → ∀ u', Across conn t f u y.1 u' → y.2 ∈ Cells u' → u.level ≠ z.level → ¬ SeesAcross conn leaves r g t f u := by
      rintro u hu u' hu' hm hne ⟨t1, n1, ha1, hs1⟩
      obtain ⟨rfl, rfl⟩ := across_unique hd0 hu' ha1
      exact not_leaf h hr htab hz hyz hm (by rw [hu'.level]; exact hne) hs1
    have hac' : Across conn t f q y.1 n := by rw [y1]; exact hac
    have hN : ∀ (hp : Valid (parent q)), AtSameFace f q (parent q) → ∃ N, Across conn t f (parent q) y.1 N ∧ y.2 ∈ Cells N := by
      intro hp hat
      exact across_into hd hconn htn hf hp (hat.2 a hla) hy
    have he3 : z.level + 1 ≠ q.level → e3 = false := by
      intro hne
      rw [← Bool.not_eq_true, k7]
      rintro ⟨hh1, hh2, hh3⟩
      rcases double_cases hd0 hq hf with ⟨c, -⟩ | ⟨-, -, c1, c2⟩
      · rw [hh1] at c; cases c
      · obtain ⟨N, hN1, hN2⟩ := hN hh2 c2
        exact hNz _ hh2 N hN1 hN2 (by omega) hh3
    have he2 : z.level ≠ q.level → e2 = false := by
      intro hne
      rw [← Bool.not_eq_true, k6]
      exact hNz q hq n hac' y2 (fun e => hne e.symm)
    have hsm : z.level ≤ q.level → ∀ j < 2 ^ (d - 1), s j = false := by
      intro hle j hj
      by_cases h29 : q.level = 29
      · exact k4 h29 j
      · have hl : q.level < 29 := by have := hq.1; omega
        obtain ⟨k, hk⟩ := halfOf_right (d := d) hf hj
        rw [← Bool.not_eq_true, k5 hl j k hk]
        rintro ⟨t1, n1, ha1, hs1⟩
        obtain ⟨e, hsub⟩ := across_sub hd0 (kid_atFace hd0 hq hl hf hk.2.2.1) ha1 hac'
        have hsub2 : Cells n1 ⊆ Cells z := hsub.trans (sub_of_meet hd0 hac.valid hzv y2 hyz (by rw [hac.level]; exact hle))
        rw [e] at hs1
        refine not_leaf h hr htab hz (hsub2 (corner_mem n1)) (corner_mem n1) ?_ hs1
        rw [ha1.level]
        show q.level + 1 ≠ z.level
        omega
    rcases Nat.lt_trichotomy z.level q.level with c | c | c
    · -- the neighbor is larger
      refine m2 (hsm c.le) ?_
      have : e3 = true := by
        rw [k7]
        rcases double_cases hd0 hq hf with ⟨-, c0 | ⟨c1, c2, c3, c4⟩⟩ | ⟨c0, c1, c2, c3⟩
        · omega
        · exfalso
          have hin : InRoot (faceNeighbor q f) := by
            intro i
            have := valid_cells_inTree c1 (c4 (corner_mem _)) i
            exact this
          obtain ⟨e1, e2⟩ := hac.inner hin
          have hpz : parent q = z := by
            refine eq_of_meet hd0 c1 hzv (c := y.2) ?_ hyz (by omega)
            rw [e2] at y2
            exact c4 y2
          have ht1 : y.1 = t := y1.trans e1
          rw [ht1, ← hpz] at hz
          have := forest_disjoint h hz hxf (c3 (corner_mem q)) (corner_mem q)
          rw [this] at c2
          omega
        · obtain ⟨N, hN1, hN2⟩ := hN c1 c3
          refine ⟨c0, c1, y.1, N, hN1, ?_⟩
          have : N = z := eq_of_meet hd0 hN1.valid hzv hN2 hyz (by rw [hN1.level]; omega)
          rw [this]
          exact hsee
      rw [this, he2 (by omega)]
      rfl
    · -- a neighbor of the same size
      refine m2 (hsm c.le) ?_
      have : e2 = true := by
        rw [k6]
        refine ⟨y.1, n, hac', ?_⟩
        have : n = z := eq_of_meet hd0 hac.valid hzv y2 hyz (by rw [hac.level, c])
        rw [this]
        exact hsee
      rw [this, he3 (by omega)]
      rfl
    · -- smaller neighbors
      have hl : q.level < 29 := by have := hzv.1; omega
      refine m3 (fun j hj => ?_) (he2 (by omega)) (he3 (by omega))
      obtain ⟨k, hk⟩ := halfOf_right (d := d) hf hj
      rw [k5 hl j k hk]
      have hkv := kid_valid hq hl k
      have hat := kid_atFace hd0 hq hl hf hk.2.2.1
      obtain ⟨a', hla'⟩ := layer_nonempty (kid q k) f
      obtain ⟨y', hy'⟩ := hac.some a' (hat.2 a' hla')
      obtain ⟨nk, hnk1, hnk2⟩ := across_into hd hconn htn hf hkv hla' hy'
      obtain ⟨z', hz', hyz'⟩ := cell_leaf h (t := y'.1) (by rw [← hn]; exact hnk1.tree) hy'.2.1
      obtain ⟨l1', l2', hsee'⟩ := hshare a' (hat.2 a' hla') y' hy' z' hz' hyz'
      have hzv' := forest_valid h hz'
      refine ⟨y'.1, nk, hnk1, ?_⟩
      have hnl : nk.level = q.level + 1 := hnk1.level
      have : nk = z' := by
        refine eq_of_meet hd0 hnk1.valid hzv' hnk2 hyz' ?_
        by_contra hne
        have hle : z'.level ≤ q.level := by omega
        obtain ⟨w1, w2⟩ := hac.into a' (hat.2 a' hla') y' hy'
        have hs1 : Cells n ⊆ Cells z' := sub_of_meet hd0 hac.valid hzv' w2 hyz' (by rw [hac.level]; exact hle)
        have e : y.1 = y'.1 := y1.trans w1.symm
        rw [e] at hz
        have := forest_disjoint h hz hz' hyz (hs1 y2)
        rw [this] at c
        omega
      rw [this]
      exact hsee'

/-- The test fails at a leaf with a much smaller neighbor. -/
theorem face_bad (hd : d = 2 ∨ d = 3) (hconn : FaceConsistent d conn) (hn : conn.numTrees = trees.length)
    (h : Distributed trees P leaves) {g : GhostLayer d} {r : ℕ} (hr : r < P) (htab : GhostTable trees P leaves g)
    {bs : (Quad d → ℤ) → List (Quad d) → Option ℕ} (hbs : Searches bs) {x : ℕ × Quad d} (hx : x ∈ leaves r)
    {y : ℕ × Quad d} (hy : y ∈ forestLeaves trees) (hsh : ShareFace conn x y) (hlev : x.2.level + 1 < y.2.level) (mem : Fin d → ℤ) :
    ∃ f < 2 * d, faceFails (quadrantExists bs mem conn (globalPartition leaves P trees.length) P r (leaves r) g x.1) conn x.1 x.2 f =
      some true := by
  have hd0 : 0 < d := by omega
  obtain ⟨sg, hs⟩ := h.segments hd0
  obtain ⟨t, q⟩ := x
  obtain ⟨ht, hq⟩ := hs.leaf r hr _ hx
  dsimp only at ht hq hlev ⊢
  have hxf : (t, q) ∈ forestLeaves trees := h.mem_forest.mpr ⟨r, hr, hx⟩
  have htn : t < conn.numTrees := by omega
  have hyv := forest_valid h hy
  obtain ⟨a, ha, b, hb, hab⟩ := hsh
  dsimp only at ha hb hab
  obtain ⟨f, hf, hbe⟩ := (sharesFacet_iff _ _ _).mp hab
  refine ⟨f, hf, ?_⟩
  have hla : Layer f q a := by
    by_contra hl
    obtain ⟨w1, w2⟩ := beside_inner hq ha hl hbe
    dsimp only at w1 w2
    have hy' : (t, y.2) ∈ forestLeaves trees := by
      have : (t, y.2) = y := Prod.ext w1.symm rfl
      rw [this]; exact hy
    have := forest_disjoint h hxf hy' w2 hb
    rw [this] at hlev
    omega
  obtain ⟨v, hv1, hv2⟩ := boundary_spec hd hconn htn hf hq
  have hvf : v = false := by
    rw [← Bool.not_eq_true, hv2]
    intro hno
    exact hno.none a hla _ hbe
  subst hvf
  obtain ⟨s, e2, e3, k1, k2, k3, k4, k5, k6, k7⟩ := face_values hd hconn hn h htab hbs hr ht hf hq mem
  obtain ⟨m1, -⟩ := faceFails_eval hv1 k1 k2 k3
  have hno : ∀ u, Valid u → Layer f u a → u.level < y.2.level → ¬ SeesAcross conn leaves r g t f u := by
    rintro u hu hlu hul ⟨t1, n1, ha1, hs1⟩
    obtain ⟨w1, w2⟩ := ha1.into a hlu _ hbe
    dsimp only at w1 w2
    refine not_leaf h hr htab (z := y.2) (t := t1) ?_ hb w2 (by rw [ha1.level]; omega) hs1
    rw [← w1]; exact hy
  have hl : q.level < 29 := by have := hyv.1; omega
  obtain ⟨i, k, hk, hlk⟩ := layer_kid hd0 hq hl hf hla
  refine m1 ⟨i, hk.1, ?_⟩ ?_ ?_
  · rw [← Bool.not_eq_true, k5 hl i k hk]
    exact hno _ (kid_valid hq hl k) hlk hlev
  · rw [← Bool.not_eq_true, k6]
    exact hno _ hq hla (by omega)
  · rw [← Bool.not_eq_true, k7]
    rintro ⟨hh1, hh2, hh3⟩
    rcases double_cases hd0 hq hf with ⟨c, -⟩ | ⟨-, -, c1, c2⟩
    · rw [hh1] at c; cases c
    · exact hno _ hh2 (c2.2 a hla) (by omega) hh3

theorem face_total (hd : d = 2 ∨ d = 3) (hconn : FaceConsistent d conn) (hn : conn.numTrees = trees.length)
    (h : Distributed trees P leaves) {g : GhostLayer d} {r : ℕ} (hr : r < P) (htab : GhostTable trees P leaves g)
    {bs : (Quad d → ℤ) → List (Quad d) → Option ℕ} (hbs : Searches bs) {x : ℕ × Quad d} (hx : x ∈ leaves r) {f : ℕ}
    (hf : f < 2 * d) (mem : Fin d → ℤ) :
    ∃ v, faceFails (quadrantExists bs mem conn (globalPartition leaves P trees.length) P r (leaves r) g x.1) conn x.1 x.2 f = some v := by
  have hd0 : 0 < d := by omega
  obtain ⟨sg, hs⟩ := h.segments hd0
  obtain ⟨ht, hq⟩ := hs.leaf r hr _ hx
  obtain ⟨v, hv1, hv2⟩ := boundary_spec hd hconn (t := x.1) (by omega) hf hq
  cases v with
  | true =>
    unfold faceFails
    rw [hv1]
    exact ⟨false, rfl⟩
  | false =>
    obtain ⟨s, e2, e3, k1, k2, k3, -⟩ := face_values hd hconn hn h htab hbs hr ht hf hq mem
    exact (faceFails_eval hv1 k1 k2 k3).2.2.2

/-! ### The loops -/

theorem fold_any {β : Type} {F : β → Option Bool} : ∀ {l : List β}, (∀ x ∈ l, ∃ v, F x = some v) →
    ∃ v, l.foldlM (fun failed x => if failed then some true else F x) false = some v ∧ (v = true ↔ ∃ x ∈ l, F x = some true) := by
  intro l
  have htrue : ∀ l : List β, l.foldlM (fun failed x => if failed then some true else F x) true = some true := by
    intro l
    induction l with
    | nil => rfl
    | cons x l ih => rw [List.foldlM_cons]; exact ih
  induction l with
  | nil => intro _; exact ⟨false, rfl, by simp⟩
  | cons x l ih =>
    intro h
    obtain ⟨w, hw⟩ := h x (by simp)
    rw [List.foldlM_cons]
    simp only [Bool.false_eq_true, if_false, hw, Option.bind_eq_bind, Option.bind_some]
    cases w with
    | true => exact ⟨true, htrue l, by simp [hw]⟩
    | false =>
      obtain ⟨v, h1, h2⟩ := ih fun y hy => h y (by simp [hy])
      exact ⟨v, h1, by rw [h2]; simp [hw]⟩

theorem rankFails_spec (hd : d = 2 ∨ d = 3) (hconn : FaceConsistent d conn) (hn : conn.numTrees = trees.length)
    (h : Distributed trees P leaves) {g : GhostLayer d} {r : ℕ} (hr : r < P) (htab : GhostTable trees P leaves g)
    {bs : (Quad d → ℤ) → List (Quad d) → Option ℕ} (hbs : Searches bs) (mem : Fin d → ℤ) :
    ∃ v, rankFails (fun t => quadrantExists bs mem conn (globalPartition leaves P trees.length) P r (leaves r) g t) conn (leaves r) = some v ∧
      (v = true ↔ ∃ x ∈ leaves r, ∃ f < 2 * d,
        faceFails (quadrantExists bs mem conn (globalPartition leaves P trees.length) P r (leaves r) g x.1) conn x.1 x.2 f = some true) := by
  have hin : ∀ x ∈ leaves r, ∃ v, (List.range (2 * d)).foldlM (fun failed face => if failed then some true else
      faceFails (quadrantExists bs mem conn (globalPartition leaves P trees.length) P r (leaves r) g x.1) conn x.1 x.2 face) false = some v ∧
      (v = true ↔ ∃ f ∈ List.range (2 * d),
        faceFails (quadrantExists bs mem conn (globalPartition leaves P trees.length) P r (leaves r) g x.1) conn x.1 x.2 f = some true) :=
    fun x hx => fold_any fun f hf => face_total hd hconn hn h hr htab hbs hx (List.mem_range.mp hf) mem
  unfold rankFails
  obtain ⟨v, h1, h2⟩ := fold_any (l := leaves r) (F := fun x : ℕ × Quad d => (List.range (2 * d)).foldlM (fun failed face => if failed then some true else
      faceFails (quadrantExists bs mem conn (globalPartition leaves P trees.length) P r (leaves r) g x.1) conn x.1 x.2 face) false)
    fun x hx => ⟨_, (hin x hx).choose_spec.1⟩
  refine ⟨v, h1, ?_⟩
  rw [h2]
  constructor
  · rintro ⟨x, hx, e⟩
    obtain ⟨w, e1, e2⟩ := hin x hx
    rw [e1, Option.some.injEq] at e
    obtain ⟨f, hf, e3⟩ := e2.mp e
    exact ⟨x, hx, f, List.mem_range.mp hf, e3⟩
  · rintro ⟨x, hx, f, hf, e⟩
    obtain ⟨w, e1, e2⟩ := hin x hx
    exact ⟨x, hx, e1.trans (by rw [e2.mpr ⟨f, List.mem_range.mpr hf, e⟩])⟩

theorem mapM_any {β : Type} {F : β → Option Bool} {Q : β → Prop} : ∀ {l : List β}, (∀ x ∈ l, ∃ v, F x = some v ∧ (v = true ↔ Q x)) →
    ∃ vs, l.mapM F = some vs ∧ (vs.any id = true ↔ ∃ x ∈ l, Q x) := by
  intro l
  induction l with
  | nil => intro _; exact ⟨[], rfl, by simp⟩
  | cons x l ih =>
    intro h
    obtain ⟨v, e, hv⟩ := h x (by simp)
    obtain ⟨vs, e', hvs⟩ := ih fun y hy => h y (by simp [hy])
    refine ⟨v :: vs, ?_, ?_⟩
    · rw [List.mapM_cons, e, e']; rfl
    · rw [List.any_cons, Bool.or_eq_true, hvs]
      simp [hv]

/-- The leaf is not skipped. -/
def Looked (conn : FaceConn) (trees : List (List (Quad d))) (P : ℕ) (leaves : ℕ → List (ℕ × Quad d)) (r : ℕ) (x : ℕ × Quad d) : Prop :=
  ∃ x0 xl full, (leaves r).head? = some x0 ∧ (leaves r).getLast? = some xl ∧
    fullTree (globalPartition leaves P trees.length) r x0.1 xl.1 x.1 = some full ∧
    neighborhoodOwned (globalPartition leaves P trees.length) P r x.1 full
      (treeContact (fun t f => conn.treeToTree.getD (2 * d * t + f) 0) (fun t f => conn.treeToFace.getD (2 * d * t + f) 0) x.1) x.2 = some false

theorem smallFails_spec (hd : d = 2 ∨ d = 3) (hconn : FaceConsistent d conn) (hn : conn.numTrees = trees.length)
    (h : Distributed trees P leaves) {r : ℕ} (hr : r < P) (mem : Fin d → ℤ) :
    ∃ v, smallFails conn (globalPartition leaves P trees.length) P r (leaves r)
        (smallTargets mem conn (globalPartition leaves P trees.length) P r) = some v ∧
      (v = true ↔ ∃ x ∈ leaves r, Looked conn trees P leaves r x ∧
        smallTargets mem conn (globalPartition leaves P trees.length) P r x = some none) := by
  have hd0 : 0 < d := by omega
  obtain ⟨sg, hs⟩ := h.segments hd0
  unfold smallFails
  cases h0 : (leaves r).head? with
  | none =>
    have : leaves r = [] := by simpa using h0
    exact ⟨false, rfl, by simp [this]⟩
  | some x0 =>
    cases hl : (leaves r).getLast? with
    | none =>
      have : leaves r = [] := by simpa using hl
      rw [this] at h0; cases h0
    | some xl =>
      dsimp only
      have hval : ∀ x ∈ leaves r, ∃ v, (do
          let full ← fullTree (globalPartition leaves P trees.length) r x0.1 xl.1 x.1
          let contact := treeContact (fun t f => conn.treeToTree.getD (2 * d * t + f) 0)
            (fun t f => conn.treeToFace.getD (2 * d * t + f) 0) x.1
          if ← neighborhoodOwned (globalPartition leaves P trees.length) P r x.1 full contact x.2 then some false
          else do
            let r ← smallTargets mem conn (globalPartition leaves P trees.length) P r x
            some r.isNone) = some v ∧ (v = true ↔ Looked conn trees P leaves r x ∧
              smallTargets mem conn (globalPartition leaves P trees.length) P r x = some none) := by
        intro x hx
        obtain ⟨ht, hq⟩ := hs.leaf r hr x hx
        obtain ⟨full, hf⟩ := fullTree_some hd0 h hr x0.1 xl.1 x.1
        obtain ⟨w, hw⟩ := neighborhoodOwned_some hd0 h hr ht hq full
          (treeContact (fun t f => conn.treeToTree.getD (2 * d * t + f) 0) (fun t f => conn.treeToFace.getD (2 * d * t + f) 0) x.1)
        obtain ⟨res, hres, -⟩ := smallTargets_total hd hconn hn h hr ht hq mem
        rw [hf]
        simp only [Option.bind_eq_bind, Option.bind_some]
        rw [hw]
        simp only [Option.bind_some]
        cases w with
        | true =>
          refine ⟨false, rfl, iff_of_false (by simp) ?_⟩
          rintro ⟨⟨x0', xl', full', a1, a2, a3, a4⟩, -⟩
          rw [h0, Option.some.injEq] at a1
          rw [hl, Option.some.injEq] at a2
          subst a1; subst a2
          rw [hf, Option.some.injEq] at a3
          subst a3
          rw [hw] at a4
          cases a4
        | false =>
          rw [hres]
          refine ⟨res.isNone, rfl, ?_⟩
          rw [Option.isNone_iff_eq_none, Option.some.injEq]
          exact ⟨fun e => ⟨⟨x0, xl, full, h0, hl, hf, hw⟩, e⟩, fun e => e.2⟩
      obtain ⟨v, e1, e2⟩ := fold_any (l := leaves r) (F := fun x => do
          let full ← fullTree (globalPartition leaves P trees.length) r x0.1 xl.1 x.1
          let contact := treeContact (fun t f => conn.treeToTree.getD (2 * d * t + f) 0)
            (fun t f => conn.treeToFace.getD (2 * d * t + f) 0) x.1
          if ← neighborhoodOwned (globalPartition leaves P trees.length) P r x.1 full contact x.2 then some false
          else do
            let r ← smallTargets mem conn (globalPartition leaves P trees.length) P r x
            some r.isNone) fun x hx => ⟨_, (hval x hx).choose_spec.1⟩
      refine ⟨v, e1, ?_⟩
      rw [e2]
      refine exists_congr fun x => and_congr_right fun hx => ?_
      obtain ⟨w, w1, w2⟩ := hval x hx
      rw [← w2]
      dsimp only
      constructor
      · intro e
        exact Option.some.inj (w1.symm.trans e)
      · intro e
        rw [e] at w1
        exact w1

/-- The construction of the ghost layers: either some check fails, or the layers are built from the targets. -/
theorem ghostNewSmall_cases (hd : d = 2 ∨ d = 3) (hconn : FaceConsistent d conn) (hn : conn.numTrees = trees.length)
    (h : Distributed trees P leaves) (mem : Fin d → ℤ) :
    (ghostNewSmall mem conn P leaves = some none ∧ ∃ r < P, ∃ x ∈ leaves r, Looked conn trees P leaves r x ∧
      smallTargets mem conn (globalPartition leaves P trees.length) P r x = some none) ∨
    (ghostNewSmall mem conn P leaves = (ghostNewWith conn (globalPartition leaves P trees.length) P leaves fun r x =>
        (smallTargets mem conn (globalPartition leaves P trees.length) P r x).map fun o => o.getD []).map some ∧
      ∀ r < P, ∀ x ∈ leaves r, Looked conn trees P leaves r x →
        ∃ ps, smallTargets mem conn (globalPartition leaves P trees.length) P r x = some (some ps)) := by
  have hd0 : 0 < d := by omega
  obtain ⟨sg, hs⟩ := h.segments hd0
  obtain ⟨vs, e1, e2⟩ := mapM_any (l := List.range P) (F := fun r => smallFails conn (globalPartition leaves P trees.length) P r (leaves r)
      (smallTargets mem conn (globalPartition leaves P trees.length) P r)) fun r hr => smallFails_spec hd hconn hn h (List.mem_range.mp hr) mem
  unfold ghostNewSmall
  rw [hn]
  dsimp only
  rw [e1]
  simp only [Option.bind_eq_bind, Option.bind_some]
  by_cases c : vs.any id = true
  · left
    rw [if_pos c]
    obtain ⟨r, hr, hx⟩ := e2.mp c
    exact ⟨rfl, r, List.mem_range.mp hr, hx⟩
  · right
    rw [if_neg c]
    refine ⟨rfl, fun r hr x hx hlk => ?_⟩
    obtain ⟨ht, hq⟩ := hs.leaf r hr x hx
    obtain ⟨res, hres, -⟩ := smallTargets_total hd hconn hn h hr ht hq mem
    cases res with
    | none => exact absurd (e2.mpr ⟨r, List.mem_range.mpr hr, x, hx, hlk, hres⟩) c
    | some ps => exact ⟨ps, hres⟩

/-- The ghost layers if all small neighbors belong to one rank each. -/
theorem layers_whole (hd : d = 2 ∨ d = 3) (hconn : FaceConsistent d conn) (hn : conn.numTrees = trees.length)
    (h : Distributed trees P leaves) (mem : Fin d → ℤ)
    (hw : ∀ r < P, ∀ x ∈ leaves r, Looked conn trees P leaves r x → WholeOwned conn P leaves x) :
    ∃ gs, ghostNewWith conn (globalPartition leaves P trees.length) P leaves (fun r x =>
        (smallTargets mem conn (globalPartition leaves P trees.length) P r x).map fun o => o.getD []) = some gs ∧ gs.length = P ∧
      ∀ r < P, ∃ g, gs[r]? = some g ∧ IsGhostLayer (ShareFace conn) leaves P conn.numTrees r g := by
  have hd0 : 0 < d := by omega
  obtain ⟨sg, hs⟩ := h.segments hd0
  refine ghostNewWith_owned hd0 hn h (Or.inr ?_) ?_
  · rintro r hr p hp x hx y hy ⟨a, ha, b, hb, hab⟩
    exact ⟨b, hb, a, ha, sharesFacet_symm hd conn hconn (by rw [hn]; exact (hs.leaf r hr x hx).1) hab⟩
  · intro r hr x hx x0 xl h0 hl full v hf hv
    refine ⟨fun hvt p hp hpr y hy => ?_, fun hvf => ?_⟩
    · subst hvt
      exact owned_no_neighbor hd hconn hn h hr hx h0 hl hf hv hp hpr hy
    · subst hvf
      obtain ⟨ps, e1, e2⟩ := smallTargets_whole hd hconn hn h hr hx mem (hw r hr x hx ⟨x0, xl, full, h0, hl, hf, hv⟩)
      exact ⟨ps, by rw [e1]; rfl, e2⟩

/-- The ghost layers if there are any. -/
theorem layers_some (hd : d = 2 ∨ d = 3) (hconn : FaceConsistent d conn) (hn : conn.numTrees = trees.length)
    (h : Distributed trees P leaves) (mem : Fin d → ℤ)
    (hps : ∀ r < P, ∀ x ∈ leaves r, Looked conn trees P leaves r x →
        ∃ ps, smallTargets mem conn (globalPartition leaves P trees.length) P r x = some (some ps))
    (hne : ghostNewWith conn (globalPartition leaves P trees.length) P leaves (fun r x =>
        (smallTargets mem conn (globalPartition leaves P trees.length) P r x).map fun o => o.getD []) ≠ none) :
    ∃ gs, ghostNewWith conn (globalPartition leaves P trees.length) P leaves (fun r x =>
        (smallTargets mem conn (globalPartition leaves P trees.length) P r x).map fun o => o.getD []) = some gs ∧ gs.length = P ∧
      ∀ r < P, (∃ g, gs[r]? = some g ∧ GhostTable trees P leaves g) ∧
        ∀ p < P, p ≠ r → (∃ x ∈ leaves p, Looked conn trees P leaves p x ∧
            ∃ ps, smallTargets mem conn (globalPartition leaves P trees.length) P p x = some (some ps) ∧ r ∈ ps) →
          ∃ x ∈ leaves r, ∃ ps, smallTargets mem conn (globalPartition leaves P trees.length) P r x = some (some ps) ∧ p ∈ ps := by
  have hd0 : 0 < d := by omega
  obtain ⟨sg, hs⟩ := h.segments hd0
  obtain ⟨gs, e1, e2, e3⟩ := ghostNewWith_pairs hd0 hn h
    (rel := fun x y => ∃ r < P, ∃ p < P, x ∈ leaves r ∧ y ∈ leaves p ∧ Looked conn trees P leaves r x ∧
      ∃ ps, smallTargets mem conn (globalPartition leaves P trees.length) P r x = some (some ps) ∧ p ∈ ps) (Or.inl hne) (by
    intro r hr x hx x0 xl h0 hl full v hf hv
    have hrr : ∀ r' < P, x ∈ leaves r' → r' = r := fun r' hr' hm =>
      owner_unique hd0 h hr hr' hx hm rfl (corner_mem _) (corner_mem _)
    refine ⟨fun hvt p hp hpr y hy => ?_, fun hvf => ?_⟩
    · rintro ⟨r', hr', p', hp', hm, -, ⟨x0', xl', full', a1, a2, a3, a4⟩, -⟩
      obtain rfl := hrr r' hr' hm
      rw [h0, Option.some.injEq] at a1
      rw [hl, Option.some.injEq] at a2
      subst a1; subst a2
      rw [hf, Option.some.injEq] at a3
      subst a3
      rw [hv, hvt] at a4
      cases a4
    · subst hvf
      have hlk : Looked conn trees P leaves r x := ⟨x0, xl, full, h0, hl, hf, hv⟩
      obtain ⟨ps, hp⟩ := hps r hr x hx hlk
      refine ⟨ps, by rw [hp]; rfl, fun p => ?_⟩
      obtain ⟨ht, hq⟩ := hs.leaf r hr x hx
      obtain ⟨res, k1, -, k3⟩ := smallTargets_total hd hconn hn h hr ht hq mem
      rw [hp, Option.some.injEq] at k1
      constructor
      · intro hm
        obtain ⟨c1, c2, f, hf, K, hK, t', n, -, y, hy, -⟩ := (k3 ps k1.symm p).mp hm
        exact ⟨c1, c2, y, hy, r, hr, p, c1, hx, hy, hlk, ps, hp, hm⟩
      · rintro ⟨c1, c2, y, hy, r', hr', p', hp', hm, hy', -, ps', e, hm'⟩
        obtain rfl := hrr r' hr' hm
        obtain rfl := owner_unique hd0 h c1 hp' hy hy' rfl (corner_mem _) (corner_mem _)
        rw [hp, Option.some.injEq, Option.some.injEq] at e
        rw [e]; exact hm')
  have hrr : ∀ r < P, ∀ r' < P, ∀ x, x ∈ leaves r → x ∈ leaves r' → r = r' := fun r hr r' hr' x hx hm =>
    owner_unique hd0 h hr' hr hm hx rfl (corner_mem _) (corner_mem _)
  refine ⟨gs, e1, e2, fun r hr => ?_⟩
  obtain ⟨⟨g, g1, g2⟩, g3⟩ := e3 r hr
  refine ⟨⟨g, g1, table_of_layer hn h g2⟩, fun p hp hpr => ?_⟩
  rintro ⟨x, hx, hlk, ps, hx1, hx2⟩
  obtain ⟨ht, hq⟩ := hs.leaf p hp x hx
  obtain ⟨res, k1, -, k3⟩ := smallTargets_total hd hconn hn h hp ht hq mem
  rw [hx1, Option.some.injEq] at k1
  obtain ⟨-, -, f, hf, K, hK, t', n, -, y, hy, -⟩ := (k3 ps k1.symm r).mp hx2
  obtain ⟨z, hz, w, hw, r', hr', p', hp', m1, m2, -, ps', m3, m4⟩ := g3 p hp hpr ⟨x, hx, y, hy, p, hp, r, hr, hx, hy, hlk, ps, hx1, hx2⟩
  obtain rfl := hrr r hr r' hr' z hz m1
  obtain rfl := hrr p hp p' hp' w hw m2
  exact ⟨z, hz, ps', m3, m4⟩

/-! ### The whole test -/

/-- The small neighbors of a leaf of a balanced mesh. -/
theorem whole_balanced (hd : d = 2 ∨ d = 3) (h : Distributed trees P leaves) (hn : conn.numTrees = trees.length)
    (hbal : MeshBalanced conn trees) {r : ℕ} (hr : r < P) {x : ℕ × Quad d} (hx : x ∈ leaves r) : WholeOwned conn P leaves x := by
  have hd0 : 0 < d := by omega
  obtain ⟨sg, hs⟩ := h.segments hd0
  obtain ⟨ht, hq⟩ := hs.leaf r hr x hx
  intro f hf K hK t' n ha
  obtain ⟨hKv, hat, hsub⟩ := smallAt_valid hd0 hq hf hK
  obtain ⟨a, hla⟩ := layer_nonempty K f
  obtain ⟨y, hy⟩ := ha.some a hla
  obtain ⟨y1, y2⟩ := ha.into a hla y hy
  obtain ⟨z, hz, hyz⟩ := cell_leaf h (t := y.1) (by rw [y1, ← hn]; exact ha.tree) hy.2.1
  have hzv := forest_valid h hz
  have hlev := hbal x (h.mem_forest.mpr ⟨r, hr, hx⟩) _ hz ⟨a, hsub hla.1, y.2, hyz, (sharesFacet_iff _ _ _).mpr ⟨f, hf, hy⟩⟩
  have hle : z.level ≤ n.level := by
    rw [ha.level]
    rcases hK with ⟨h29, rfl⟩ | ⟨-, i, k, -, rfl⟩
    · rw [h29]; exact hzv.1
    · exact hlev
  have hnz := sub_of_meet hd0 ha.valid hzv y2 hyz hle
  obtain ⟨p, hp, hm⟩ := h.mem_forest.mp hz
  exact ⟨p, hp, fun b hb => ⟨_, hm, y1, hnz hb⟩⟩

theorem mapM_zip_any {β : Type} {F : β × ℕ → Option Bool} {Q : ℕ → β → Prop} {T : β → Prop} {gs : List β} {n : ℕ} (hlen : gs.length = n)
    (hgs : ∀ r < n, ∃ g, gs[r]? = some g ∧ T g) (hF : ∀ r < n, ∀ g, T g → ∃ v, F (g, r) = some v ∧ (v = true ↔ Q r g)) :
    ∃ vs, gs.zipIdx.mapM F = some vs ∧ (vs.any id = true ↔ ∃ r < n, ∃ g, gs[r]? = some g ∧ Q r g) := by
  have hz : ∀ e ∈ gs.zipIdx, e.2 < n ∧ gs[e.2]? = some e.1 ∧ T e.1 := by
    intro e he
    have h1 := List.mem_zipIdx_iff_getElem?.mp he
    have h2 : e.2 < n := by rw [← hlen]; exact (List.getElem?_eq_some_iff.mp h1).1
    obtain ⟨g, g1, g2⟩ := hgs e.2 h2
    have e' : e.1 = g := Option.some.inj (h1.symm.trans g1)
    exact ⟨h2, h1, e' ▸ g2⟩
  obtain ⟨vs, e1, e2⟩ := mapM_any (l := gs.zipIdx) (F := F) (Q := fun g => Q g.2 g.1) fun e he => hF e.2 (hz e he).1 e.1 (hz e he).2.2
  refine ⟨vs, e1, e2.trans ⟨?_, ?_⟩⟩
  · rintro ⟨e, he, hx⟩
    exact ⟨e.2, (hz e he).1, e.1, (hz e he).2.1, hx⟩
  · rintro ⟨r, hr, g, hg, hx⟩
    exact ⟨(g, r), List.mem_zipIdx_iff_getElem?.mpr hg, hx⟩

/-- Some test on the rank fails. -/
def RankFails (bs : (Quad d → ℤ) → List (Quad d) → Option ℕ) (mem : Fin d → ℤ) (conn : FaceConn) (gfp : List (GPos d)) (P : ℕ)
    (leaves : ℕ → List (ℕ × Quad d)) (r : ℕ) (g : GhostLayer d) : Prop :=
  ∃ x ∈ leaves r, ∃ f < 2 * d, faceFails (quadrantExists bs mem conn gfp P r (leaves r) g x.1) conn x.1 x.2 f = some true

/-- The results of the second part. -/
theorem tests_any (hd : d = 2 ∨ d = 3) (hconn : FaceConsistent d conn) (hn : conn.numTrees = trees.length)
    (h : Distributed trees P leaves) {bs : (Quad d → ℤ) → List (Quad d) → Option ℕ} (hbs : Searches bs) (mem : Fin d → ℤ)
    {gs : List (GhostLayer d)} (hlen : gs.length = P) (hgs : ∀ r < P, ∃ g, gs[r]? = some g ∧ GhostTable trees P leaves g) :
    ∃ vs, (gs.zipIdx.mapM fun g => rankFails (fun t => quadrantExists bs mem conn (globalPartition leaves P trees.length) P g.2 (leaves g.2) g.1 t)
        conn (leaves g.2)) = some vs ∧
      (vs.any id = true ↔ ∃ r < P, ∃ g, gs[r]? = some g ∧ RankFails bs mem conn (globalPartition leaves P trees.length) P leaves r g) :=
  mapM_zip_any hlen hgs fun _ hr _ htab => rankFails_spec hd hconn hn h hr htab hbs mem

/-- A balanced mesh passes. -/
theorem balanced_passes (hd : d = 2 ∨ d = 3) (hconn : FaceConsistent d conn) (hn : conn.numTrees = trees.length)
    (h : Distributed trees P leaves) (hbal : MeshBalanced conn trees) {bs : (Quad d → ℤ) → List (Quad d) → Option ℕ} (hbs : Searches bs)
    (mem : Fin d → ℤ) : isBalancedFace bs mem conn P leaves = some (List.replicate P true) := by
  have hw : ∀ r < P, ∀ x ∈ leaves r, WholeOwned conn P leaves x := fun r hr x hx => whole_balanced hd h hn hbal hr hx
  rcases ghostNewSmall_cases hd hconn hn h mem with ⟨-, r, hr, x, hx, -, he⟩ | ⟨he, -⟩
  · obtain ⟨ps, e1, -⟩ := smallTargets_whole hd hconn hn h hr hx mem (hw r hr x hx)
    rw [e1] at he
    cases he
  · obtain ⟨gs, e1, e2, e3⟩ := layers_whole hd hconn hn h mem fun r hr x hx _ => hw r hr x hx
    rw [e1] at he
    obtain ⟨vs, v1, v2⟩ := tests_any hd hconn hn h hbs mem e2 fun r hr => by
      obtain ⟨g, g1, g2⟩ := e3 r hr
      exact ⟨g, g1, table_of_layer hn h g2⟩
    unfold isBalancedFace
    rw [he, hn]
    simp only [Option.map_some, Option.bind_eq_bind, Option.bind_some]
    rw [v1]
    simp only [Option.bind_some]
    have : vs.any id = false := by
      rw [← Bool.not_eq_true, v2]
      rintro ⟨r, hr, g, hg, x, hx, f, hf, hh⟩
      obtain ⟨g', g1, g2⟩ := e3 r hr
      rw [hg, Option.some.injEq] at g1
      subst g1
      rw [face_good hd hconn hn h hbal hr g2 hbs hx hf mem] at hh
      cases hh
    rw [this]
    rfl

/-- An unbalanced mesh fails if the test ends. -/
theorem unbalanced_fails (hd : d = 2 ∨ d = 3) (hconn : FaceConsistent d conn) (hn : conn.numTrees = trees.length)
    (h : Distributed trees P leaves) (hbal : ¬ MeshBalanced conn trees) {bs : (Quad d → ℤ) → List (Quad d) → Option ℕ} (hbs : Searches bs)
    (mem : Fin d → ℤ) {rs : List Bool} (hrs : isBalancedFace bs mem conn P leaves = some rs) : rs = List.replicate P false := by
  rcases ghostNewSmall_cases hd hconn hn h mem with ⟨he, -⟩ | ⟨he, hps⟩
  · unfold isBalancedFace at hrs
    rw [he] at hrs
    exact (Option.some.inj hrs).symm
  · have hne : ghostNewWith conn (globalPartition leaves P trees.length) P leaves (fun r x =>
        (smallTargets mem conn (globalPartition leaves P trees.length) P r x).map fun o => o.getD []) ≠ none := by
      intro hnone
      rw [hnone] at he
      unfold isBalancedFace at hrs
      rw [he] at hrs
      cases hrs
    obtain ⟨gs, e1, e2, e3⟩ := layers_some hd hconn hn h mem hps hne
    rw [e1] at he
    obtain ⟨vs, v1, v2⟩ := tests_any hd hconn hn h hbs mem e2 fun r hr => (e3 r hr).1
    unfold isBalancedFace at hrs
    rw [he, hn] at hrs
    simp only [Option.map_some, Option.bind_eq_bind, Option.bind_some] at hrs
    rw [v1] at hrs
    simp only [Option.bind_some] at hrs
    have : vs.any id = true := by
      rw [v2]
      unfold MeshBalanced at hbal
      push Not at hbal
      obtain ⟨x, hx, y, hy, hsh, hlev⟩ := hbal
      obtain ⟨r, hr, hm⟩ := h.mem_forest.mp hx
      obtain ⟨⟨g, g1, g2⟩, -⟩ := e3 r hr
      obtain ⟨f, hf, hh⟩ := face_bad hd hconn hn h hr g2 hbs hm hy hsh hlev mem
      exact ⟨r, hr, g, g1, x, hm, f, hf, hh⟩
    rw [this] at hrs
    exact (Option.some.inj hrs).symm

/-- Without rotations the test ends. -/
theorem sideBySide_ends (hd : d = 2 ∨ d = 3) (hconn : FaceConsistent d conn) (hn : conn.numTrees = trees.length)
    (h : Distributed trees P leaves) (hst : SideBySide d conn) {bs : (Quad d → ℤ) → List (Quad d) → Option ℕ} (hbs : Searches bs)
    (mem : Fin d → ℤ) : ∃ rs, isBalancedFace bs mem conn P leaves = some rs := by
  rcases ghostNewSmall_cases hd hconn hn h mem with ⟨he, -⟩ | ⟨he, hps⟩
  · unfold isBalancedFace
    rw [he]
    exact ⟨_, rfl⟩
  · obtain ⟨gs, e1, e2, e3⟩ := layers_whole hd hconn hn h mem fun r hr x hx hlk => by
      obtain ⟨ps, hp⟩ := hps r hr x hx hlk
      exact whole_of_check hd hconn hn h hst hr hx mem hp
    rw [e1] at he
    obtain ⟨vs, v1, v2⟩ := tests_any hd hconn hn h hbs mem e2 fun r hr => by
      obtain ⟨g, g1, g2⟩ := e3 r hr
      exact ⟨g, g1, table_of_layer hn h g2⟩
    unfold isBalancedFace
    rw [he, hn]
    simp only [Option.map_some, Option.bind_eq_bind, Option.bind_some]
    rw [v1]
    exact ⟨_, rfl⟩

end

end P4est
