import Verif.Lemmas.GhostOwner

/-! # The ranks that a leaf is sent to -/

namespace P4est
open Spec

variable {d : ℕ}

theorem mapM_collect {β γ : Type} {f : β → Option (List γ)} {R : β → γ → Prop} :
    ∀ {l : List β}, (∀ x ∈ l, ∃ ps, f x = some ps ∧ ∀ p, p ∈ ps ↔ R x p) →
      ∃ ls, l.mapM f = some ls ∧ ∀ p, p ∈ ls.flatten ↔ ∃ x ∈ l, R x p := by
  intro l
  induction l with
  | nil => intro _; exact ⟨[], rfl, by simp⟩
  | cons x l ih =>
    intro h
    obtain ⟨ps, h1, h2⟩ := h x (by simp)
    obtain ⟨ls, h3, h4⟩ := ih fun y hy => h y (by simp [hy])
    refine ⟨ps :: ls, ?_, fun p => ?_⟩
    · rw [List.mapM_cons, h1, h3]; rfl
    · rw [List.flatten_cons, List.mem_append, h2, h4]; simp

/-- A cell belongs to one rank. -/
theorem owner_unique (hd : 0 < d) {trees : List (List (Quad d))} {P : ℕ} {leaves : ℕ → List (ℕ × Quad d)}
    (h : Distributed trees P leaves) {r p : ℕ} (hr : r < P) (hp : p < P) {x y : ℕ × Quad d} (hx : x ∈ leaves r) (hy : y ∈ leaves p)
    (ht : x.1 = y.1) {b : Fin d → ℤ} (hbx : b ∈ Cells x.2) (hby : b ∈ Cells y.2) : p = r := by
  obtain ⟨s, hs⟩ := h.segments hd
  have hb := valid_cells_inTree (hs.leaf r hr x hx).2 hbx
  have h1 := (hs.mem_iff hd y.1 r hr hb).mp ⟨x, hx, ht, hbx⟩
  have h2 := (hs.mem_iff hd y.1 p hp hb).mp ⟨y, hy, rfl, hby⟩
  rcases Nat.lt_trichotomy p r with c | c | c
  · have := hs.mono (show p + 1 ≤ r by omega) (by omega); omega
  · exact c
  · have := hs.mono (show r + 1 ≤ p by omega) (by omega); omega

section

variable {conn : FaceConn} {trees : List (List (Quad d))} {P : ℕ} {leaves : ℕ → List (ℕ × Quad d)}

/-- The branch of one face, for any quadrant. -/
theorem faceTargets_layer (hd : d = 2 ∨ d = 3) (hconn : FaceConsistent d conn) (hn : conn.numTrees = trees.length)
    (h : Distributed trees P leaves) (hone : ∀ p < P, ∀ x, leaves p = [x] → x.2.level ≠ 29) {r : ℕ} (hr : r < P)
    {t : ℕ} {q : Quad d} (htl : t < trees.length) (hqv : Valid q) {f : ℕ} (hf : f < 2 * d) (mem : Fin d → ℤ) :
    ∃ ps, faceTargets mem conn (globalPartition leaves P trees.length) P r t q f = some ps ∧
      ∀ p, p ∈ ps ↔ p < P ∧ p ≠ r ∧ ∃ y ∈ leaves p, ∃ a, Layer f q a ∧ ∃ b ∈ Cells y.2, Beside conn f (t, a) (y.1, b) := by
  obtain ⟨res, h1, h2, h3⟩ := face_layer hd conn hconn q hqv t f (by rw [hn]; exact htl) hf
  have h1 := h1 mem
  -- the quadrant tested
  have hkey : faceTargets mem conn (globalPartition leaves P trees.length) P r t q f = match res with
      | none => some []
      | some (t', n, code) => testAdd (globalPartition leaves P trees.length) P q.level n t' (1 <<< (code % (2 * d))) r := by
    unfold faceNeighborExtra at h1
    unfold faceTargets
    dsimp only at h1 ⊢
    split at h1
    · rename_i hin
      rw [Option.some.injEq] at h1
      subst h1
      rw [if_pos hin]
      dsimp only
      rw [Nat.mod_eq_of_lt]
      rw [xor_one_eq]; split <;> omega
    · rename_i hin
      rw [if_neg hin]
      cases hff : findFaceTransform d conn t f with
      | none => rw [hff] at h1; simp at h1
      | some z =>
        rw [hff] at h1
        cases z with
        | none =>
          simp only [Option.bind_some, Option.some.injEq] at h1
          subst h1
          rfl
        | some z =>
          obtain ⟨nt, ft⟩ := z
          simp only [Option.bind_some] at h1
          cases hqt : quadrantTransformFace mem (faceNeighbor q f) ft with
          | none => rw [hqt] at h1; simp at h1
          | some n =>
            rw [hqt] at h1
            cases hcode : conn.treeToFace[t * (2 * d) + f]? with
            | none => rw [hcode] at h1; simp at h1
            | some code =>
              rw [hcode] at h1
              simp only [Option.bind_some, Option.map_some, Option.some.injEq] at h1
              subst h1
              simp [hqt]
  rw [hkey]
  cases res with
  | none =>
    refine ⟨[], rfl, fun p => ⟨by simp, ?_⟩⟩
    rintro ⟨hp, hpr, y, hy, a, ha, b, hb, hbs⟩
    exact absurd hbs ((h2 rfl).1 a ha _)
  | some z =>
    obtain ⟨t', n, code⟩ := z
    obtain ⟨g1, g2, g3, g4, g5, -, g6⟩ := h3 t' n code rfl
    dsimp only
    rw [← g3]
    obtain ⟨ps, e1, e2⟩ := testAdd_spec hd h hone hr (by rw [← hn]; exact g1) g2 g4
    refine ⟨ps, e1, fun p => ?_⟩
    rw [e2]
    constructor
    · rintro ⟨hp, hpr, b, hb, y, hy, hyt, hby⟩
      obtain ⟨a, ha, hab⟩ := g6 (y.1, b) hyt hb
      exact ⟨hp, hpr, y, hy, a, ha, b, hby, hab⟩
    · rintro ⟨hp, hpr, y, hy, a, ha, b, hb, hbs⟩
      obtain ⟨k1, k2⟩ := g5 a ha _ hbs
      exact ⟨hp, hpr, b, k2, y, hy, k1, hb⟩

/-- The branch of one face of a leaf. -/
theorem faceTargets_spec (hd : d = 2 ∨ d = 3) (hconn : FaceConsistent d conn) (hn : conn.numTrees = trees.length)
    (h : Distributed trees P leaves) (hone : ∀ p < P, ∀ x, leaves p = [x] → x.2.level ≠ 29) {r : ℕ} (hr : r < P)
    {t : ℕ} {q : Quad d} (hq : (t, q) ∈ leaves r) {f : ℕ} (hf : f < 2 * d) (mem : Fin d → ℤ) :
    ∃ ps, faceTargets mem conn (globalPartition leaves P trees.length) P r t q f = some ps ∧
      ∀ p, p ∈ ps ↔ p < P ∧ p ≠ r ∧ ∃ y ∈ leaves p, ∃ a ∈ Cells q, ∃ b ∈ Cells y.2, Beside conn f (t, a) (y.1, b) := by
  have hd0 : 0 < d := by omega
  obtain ⟨s, hs⟩ := h.segments hd0
  obtain ⟨htl, hqv⟩ := hs.leaf r hr _ hq
  obtain ⟨ps, h1, h2⟩ := faceTargets_layer hd hconn hn h hone hr htl hqv hf mem
  refine ⟨ps, h1, fun p => ?_⟩
  rw [h2]
  refine and_congr_right fun hp => and_congr_right fun hpr => exists_congr fun y => and_congr_right fun hy => ?_
  constructor
  · rintro ⟨a, ha, hb⟩; exact ⟨a, ha.1, hb⟩
  · rintro ⟨a, ha, b, hb, hbs⟩
    refine ⟨a, ?_, b, hb, hbs⟩
    by_contra hl
    obtain ⟨k1, k2⟩ := beside_inner hqv ha hl hbs
    exact hpr (owner_unique hd0 h hr hp hq hy k1.symm k2 hb)

/-- All faces. -/
theorem allFaceTargets_spec (hd : d = 2 ∨ d = 3) (hconn : FaceConsistent d conn) (hn : conn.numTrees = trees.length)
    (h : Distributed trees P leaves) (hone : ∀ p < P, ∀ x, leaves p = [x] → x.2.level ≠ 29) {r : ℕ} (hr : r < P)
    {x : ℕ × Quad d} (hx : x ∈ leaves r) (mem : Fin d → ℤ) :
    ∃ ps, allFaceTargets mem conn (globalPartition leaves P trees.length) P r x = some ps ∧
      ∀ p, p ∈ ps ↔ p < P ∧ p ≠ r ∧ ∃ y ∈ leaves p, ShareFace conn x y := by
  obtain ⟨ls, h1, h2⟩ := mapM_collect (l := List.range (2 * d)) fun f hf =>
    faceTargets_spec hd hconn hn h hone hr (t := x.1) (q := x.2) hx (List.mem_range.mp hf) mem
  refine ⟨ls.flatten, ?_, fun p => ?_⟩
  · unfold allFaceTargets
    rw [h1]; rfl
  · rw [h2]
    unfold ShareFace
    constructor
    · rintro ⟨f, hf, hp, hpr, y, hy, a, ha, b, hb, hbs⟩
      exact ⟨hp, hpr, y, hy, a, ha, b, hb, (sharesFacet_iff _ _ _).mpr ⟨f, List.mem_range.mp hf, hbs⟩⟩
    · rintro ⟨hp, hpr, y, hy, a, ha, b, hb, hs⟩
      obtain ⟨f, hf, hbs⟩ := (sharesFacet_iff _ _ _).mp hs
      exact ⟨f, List.mem_range.mpr hf, hp, hpr, y, hy, a, ha, b, hb, hbs⟩

/-! ### Leaves that are skipped -/

theorem fullTree_some (hd : 0 < d) (h : Distributed trees P leaves) {r : ℕ} (hr : r < P) (a b t : ℤ) :
    ∃ full, fullTree (globalPartition leaves P trees.length) r a b t = some full := by
  obtain ⟨s, hs⟩ := h.segments hd
  obtain ⟨c, e1, -⟩ := globalPartition_at hd hs r hr.le
  obtain ⟨c', e2, -⟩ := globalPartition_at hd hs (r + 1) hr
  unfold fullTree
  rw [e1, e2]
  exact ⟨_, rfl⟩

theorem neighborhoodOwned_some (hd : 0 < d) (h : Distributed trees P leaves) {r : ℕ} (hr : r < P) {t : ℕ}
    (ht : t < trees.length) {q : Quad d} (hq : Valid q) (full : Bool × Bool) (contact : ℕ → Bool) :
    ∃ v, neighborhoodOwned (globalPartition leaves P trees.length) P r t full contact q = some v := by
  unfold neighborhoodOwned
  split
  · exact ⟨_, rfl⟩
  · dsimp only
    split
    · rename_i hin
      obtain ⟨hin0, hin1⟩ := hin
      have hqa := hq.aligned
      have hside : qlen q.level = side q := rfl
      have hs := side_pos q
      rw [hside] at hin0 hin1 ⊢
      have hv1 : Valid (⟨fun i => q.c i + side q, q.level⟩ : Quad d) := by
        refine ⟨hq.1, ⟨hqa.1, fun i => Int.dvd_add (hqa.2 i) (dvd_refl _)⟩, fun i => ?_⟩
        have := hin1 i; have := hq.2.2 i
        change 0 ≤ q.c i + side q ∧ q.c i + side q < 2 ^ 30
        unfold rootLen MAXLEVEL at *
        omega
      have hlv : Valid (lastDesc (⟨fun i => q.c i + side q, q.level⟩ : Quad d) 29) :=
        ((C10_descendants_bound hd _ hv1.extended 29 hv1.1 le_rfl).2.2.1 hv1).2
      have h0 : InTree (⟨fun i => q.c i - side q, q.level⟩ : Quad d).c := by
        intro i
        have := hin0 i; have := hq.2.2 i
        dsimp only at *
        omega
      obtain ⟨r0, -, -, -, ho0, -⟩ := C27_find_owner hd trees P leaves h t ht _ h0 r hr
      obtain ⟨r1, -, -, -, ho1, -⟩ := C27_find_owner hd trees P leaves h t ht _ (valid_inTree hlv) r hr
      rw [ho0]
      simp only [Option.bind_eq_bind, Option.bind_some]
      split
      · rw [show ∀ n : Quad d, lastDesc n QMAXLEVEL = lastDesc n 29 from fun _ => rfl, ho1]
        exact ⟨_, rfl⟩
      · exact ⟨_, rfl⟩
    · exact ⟨_, rfl⟩

/-- A leaf that is skipped has no neighbor on another rank. -/
theorem owned_no_neighbor (hd : d = 2 ∨ d = 3) (hconn : FaceConsistent d conn) (hn : conn.numTrees = trees.length)
    (h : Distributed trees P leaves) {r : ℕ} (hr : r < P) {x x0 xl : ℕ × Quad d} (hx : x ∈ leaves r)
    (h0 : (leaves r).head? = some x0) (hl : (leaves r).getLast? = some xl) {full : Bool × Bool}
    (hfull : fullTree (globalPartition leaves P trees.length) r x0.1 xl.1 x.1 = some full)
    (hown : neighborhoodOwned (globalPartition leaves P trees.length) P r x.1 full
      (treeContact (fun t f => conn.treeToTree.getD (2 * d * t + f) 0) (fun t f => conn.treeToFace.getD (2 * d * t + f) 0) x.1)
      x.2 = some true) {p : ℕ} (hp : p < P) (hpr : p ≠ r) {y : ℕ × Quad d} (hy : y ∈ leaves p) : ¬ ShareFace conn x y := by
  have hd0 : 0 < d := by omega
  obtain ⟨k1, k2⟩ := C48_neighborhood_owned_partial hd0 trees P leaves h r hr x.1 x.2 hx x0 xl h0 hl full hfull _ _ hown
  obtain ⟨s, hs⟩ := h.segments hd0
  obtain ⟨htl, hqv⟩ := hs.leaf r hr _ hx
  have hsp := side_pos x.2
  rintro ⟨a, ha, b, hb, hsh⟩
  obtain ⟨f, hf, g1, g2, ⟨e, g3⟩ | ⟨nf, o, T, g4, g5, g6, g7, g8, g9, -⟩⟩ := (sharesFacet_iff _ _ _).mp hsh
  · dsimp only at g1 g2 e g3
    have har : b ∈ Around x.2 := by
      intro i
      have h1 := ha i
      rw [g3, nbCell_apply]
      split
      · split <;> omega
      · omega
    obtain ⟨z, hz, hzt, hbz⟩ := k1 b har g2
    exact hpr (owner_unique hd0 h hr hp hz hy (hzt.trans e) hbz hb)
  · dsimp only at g5 g6 g7 g9
    have h1 := ha ⟨f / 2, by omega⟩
    have h2 := g9 ⟨f / 2, by omega⟩ rfl
    rcases k2 with k2 | k2
    · -- the neighborhood is in the tree
      have hnb : nbCell f a ∈ Around x.2 := by
        intro i
        have h1 := ha i
        rw [nbCell_apply]
        split
        · split <;> omega
        · omega
      have h3 := k2 _ hnb ⟨f / 2, by omega⟩
      rw [nbCell_apply, if_pos rfl] at h3
      split at h2 <;> split at h3 <;> omega
    · obtain ⟨m1, m2⟩ := k2 ⟨f / 2, by omega⟩
      have hv := hqv.2.2 ⟨f / 2, by omega⟩
      have hle := valid_le hqv ⟨f / 2, by omega⟩
      have hget : ∀ (l : List ℕ) (i v : ℕ), l[i]? = some v → l.getD i 0 = v := by
        intro l i v hv; rw [List.getD_eq_getElem?_getD, hv]; rfl
      dsimp only at m1 m2
      have hself : conn.treeToTree.getD (2 * d * x.1 + f) 0 = x.1 ∧ conn.treeToFace.getD (2 * d * x.1 + f) 0 = f := by
        by_cases c : f % 2 = 1
        · rw [if_pos c] at h2
          have := m2 (by omega)
          rwa [show 2 * (f / 2) + 1 = f by omega] at this
        · rw [if_neg c] at h2
          have := m1 (by omega)
          rwa [show 2 * (f / 2) = f by omega] at this
      rw [hget _ _ _ g5, hget _ _ _ g6] at hself
      rcases g7 with c | c
      · exact c hself.1
      · have := congrArg (· % (2 * d)) hself.2
        try dsimp only at this
        rw [code_mod g4, Nat.mod_eq_of_lt hf] at this
        exact c this

end

end P4est
