import Verif.Lemmas.BalancedGeom
import Verif.Lemmas.GhostNew

/-! # The ranks that get a leaf for the test of balance -/

namespace P4est
open Spec

variable {d : ℕ}

/-! ### Small neighbors -/

/-- The parts of a quadrant along a face, across which the small neighbors lie. -/
def SmallAt (f : ℕ) (q K : Quad d) : Prop :=
  (q.level = 29 ∧ K = q) ∨ (q.level < 29 ∧ ∃ i k, HalfOf d f i k ∧ K = kid q k)

theorem smallAt_valid (hd : 0 < d) {q K : Quad d} (hq : Valid q) {f : ℕ} (hf : f < 2 * d) (h : SmallAt f q K) :
    Valid K ∧ AtSameFace f K q ∧ Cells K ⊆ Cells q := by
  rcases h with ⟨-, rfl⟩ | ⟨hl, i, k, hk, rfl⟩
  · exact ⟨hq, ⟨le_rfl, fun a ha => ha⟩, subset_rfl⟩
  · exact ⟨kid_valid hq hl k, kid_atFace hd hq hl hf hk.2.2.1, (kid_ssubset hd hq k).1⟩

theorem smallAt_layer (hd : 0 < d) {q : Quad d} (hq : Valid q) {f : ℕ} (hf : f < 2 * d) {a : Fin d → ℤ} (ha : Layer f q a) :
    ∃ K, SmallAt f q K ∧ Layer f K a := by
  by_cases h : q.level = 29
  · exact ⟨q, Or.inl ⟨h, rfl⟩, ha⟩
  · have hl : q.level < 29 := by have := hq.1; omega
    obtain ⟨i, k, hk, hl'⟩ := layer_kid hd hq hl hf ha
    exact ⟨kid q k, Or.inr ⟨hl, i, k, hk, rfl⟩, hl'⟩

/-- The quadrant that is checked together with a small neighbor. -/
def upperRight (q n : Quad d) : Option (Quad d) := if q.level = 29 then none else some (lastDesc n 29)

theorem zip_map_self {β γ : Type} (l : List β) (g : β → γ) : l.zip (l.map g) = l.map fun x => (x, g x) := by
  induction l with
  | nil => rfl
  | cons x l ih => rw [List.map_cons, List.zip_cons_cons, ih, List.map_cons]

theorem mem_smallNeighbors (hd : 0 < d) {q : Quad d} (hq : Valid q) {f : ℕ} (hf : f < 2 * d) {e : Quad d × Option (Quad d)} :
    e ∈ smallNeighbors q f ↔ ∃ K, SmallAt f q K ∧ e = (faceNeighbor K f, upperRight q (faceNeighbor K f)) := by
  unfold smallNeighbors upperRight
  by_cases h : q.level = 29
  · rw [if_pos (show q.level = QMAXLEVEL from h), List.mem_singleton]
    simp only [if_pos h]
    constructor
    · rintro rfl; exact ⟨q, Or.inl ⟨h, rfl⟩, rfl⟩
    · rintro ⟨K, ⟨-, rfl⟩ | ⟨hl, -⟩, rfl⟩
      · rfl
      · omega
  · have hl : q.level < 29 := by have := hq.1; omega
    rw [if_neg (show ¬ q.level = QMAXLEVEL from h), (C14_half_face_neighbors hd q hq hl f hf).2.2.2.2, List.map_map, zip_map_self]
    simp only [if_neg h]
    unfold halfFaceNeighbors
    rw [List.map_map, List.mem_map]
    constructor
    · rintro ⟨i, hi, rfl⟩
      obtain ⟨k, hk⟩ := halfOf_right hf (List.mem_range.mp hi)
      refine ⟨kid q k, Or.inr ⟨hl, i, k, hk, rfl⟩, ?_⟩
      show (halfFaceNeighbor q f i, _) = _
      rw [half_eq hl hf hk]; rfl
    · rintro ⟨K, ⟨h', -⟩ | ⟨-, i, k, hk, rfl⟩, rfl⟩
      · exact absurd h' h
      · refine ⟨i, List.mem_range.mpr hk.1, ?_⟩
        show (halfFaceNeighbor q f i, _) = _
        rw [half_eq hl hf hk]; rfl

/-! ### The loops -/

/-- The check of one small neighbor fails. -/
def CheckFails (owner : Quad d → Option ℤ) (e : Quad d × Option (Quad d)) : Prop :=
  ∃ u v w, e.2 = some u ∧ owner e.1 = some v ∧ owner u = some w ∧ v ≠ w

theorem smallStep_none (owner : Quad d → Option ℤ) (r : ℕ) (l : List (Quad d × Option (Quad d))) :
    l.foldlM (smallStep owner r) none = some none := by
  induction l with
  | nil => rfl
  | cons e l ih => rw [List.foldlM_cons]; exact ih

theorem smallFold {owner : Quad d → Option ℤ} {r : ℕ} : ∀ {l : List (Quad d × Option (Quad d))} {n1 : ℤ} {ps : List ℕ},
    (n1 = -1 ∨ 0 ≤ n1 ∧ n1.toNat ∈ ps) →
    (∀ e ∈ l, ∃ v, owner e.1 = some v ∧ ∀ u, e.2 = some u → ∃ w, owner u = some w) →
    ∃ res, l.foldlM (smallStep owner r) (some (n1, ps)) = some res ∧ (res = none ↔ ∃ e ∈ l, CheckFails owner e) ∧
      ∀ s, res = some s → ∀ p, p ∈ s.2 ↔ p ∈ ps ∨ (p ≠ r ∧ ∃ e ∈ l, owner e.1 = some (p : ℤ)) := by
  intro l
  induction l with
  | nil =>
    intro n1 ps _ _
    refine ⟨_, rfl, by simp, ?_⟩
    rintro s ⟨rfl⟩ p
    simp
  | cons e l ih =>
    intro n1 ps hn1 hl
    obtain ⟨v, hv, hu⟩ := hl e (by simp)
    obtain ⟨w, hw⟩ : ∃ w, (match e.2 with | none => some v | some nur => owner nur) = some w := by
      cases he : e.2 with
      | none => exact ⟨v, rfl⟩
      | some u => exact hu u he
    have hfail : CheckFails owner e ↔ v ≠ w := by
      constructor
      · rintro ⟨u, v', w', h1, h2, h3, h4⟩
        rw [h1] at hw
        rw [hv] at h2
        dsimp only at hw
        rw [h3] at hw
        rw [Option.some.inj h2, ← Option.some.inj hw]
        exact h4
      · intro hne
        cases he : e.2 with
        | none => rw [he] at hw; exact absurd (Option.some.inj hw) hne
        | some u => rw [he] at hw; exact ⟨u, v, w, he, hv, hw, hne⟩
    have hstep : smallStep owner r (some (n1, ps)) e =
        if v ≠ w then some none else some (some (if v ≠ r ∧ v ≥ 0 ∧ v ≠ n1 then (v, ps ++ [v.toNat]) else (n1, ps))) := by
      unfold smallStep
      rw [hv]
      simp only [Option.bind_eq_bind, Option.bind_some]
      cases he : e.2 with
      | none =>
        rw [he] at hw
        cases hw
        rfl
      | some u =>
        rw [he] at hw
        dsimp only at hw ⊢
        rw [hw]
        rfl
    rw [List.foldlM_cons, hstep]
    by_cases hvw : v = w
    · rw [if_neg (not_not.mpr hvw)]
      simp only [Option.bind_eq_bind, Option.bind_some]
      by_cases hc : v ≠ r ∧ v ≥ 0 ∧ v ≠ n1
      · rw [if_pos hc]
        obtain ⟨res, e1, e2, e3⟩ := ih (n1 := v) (ps := ps ++ [v.toNat]) (Or.inr ⟨hc.2.1, by simp⟩) fun e' he' => hl e' (by simp [he'])
        refine ⟨res, e1, ?_, fun s hs p => ?_⟩
        · rw [e2]
          constructor
          · rintro ⟨e', h1, h2⟩; exact ⟨e', by simp [h1], h2⟩
          · rintro ⟨e', h1, h2⟩
            rcases List.mem_cons.mp h1 with rfl | h1
            · exact absurd hvw (hfail.mp h2)
            · exact ⟨e', h1, h2⟩
        · rw [e3 s hs, List.mem_append, List.mem_singleton]
          constructor
          · rintro ((h1 | rfl) | ⟨h1, e', h2, h3⟩)
            · exact Or.inl h1
            · refine Or.inr ⟨by have := hc.1; omega, e, by simp, ?_⟩
              rw [hv, Int.toNat_of_nonneg hc.2.1]
            · exact Or.inr ⟨h1, e', by simp [h2], h3⟩
          · rintro (h1 | ⟨h1, e', h2, h3⟩)
            · exact Or.inl (Or.inl h1)
            · rcases List.mem_cons.mp h2 with rfl | h2
              · rw [hv] at h3
                have := Option.some.inj h3
                exact Or.inl (Or.inr (by omega))
              · exact Or.inr ⟨h1, e', h2, h3⟩
      · rw [if_neg hc]
        obtain ⟨res, e1, e2, e3⟩ := ih (n1 := n1) (ps := ps) hn1 fun e' he' => hl e' (by simp [he'])
        refine ⟨res, e1, ?_, fun s hs p => ?_⟩
        · rw [e2]
          constructor
          · rintro ⟨e', h1, h2⟩; exact ⟨e', by simp [h1], h2⟩
          · rintro ⟨e', h1, h2⟩
            rcases List.mem_cons.mp h1 with rfl | h1
            · exact absurd hvw (hfail.mp h2)
            · exact ⟨e', h1, h2⟩
        · rw [e3 s hs]
          constructor
          · rintro (h1 | ⟨h1, e', h2, h3⟩)
            · exact Or.inl h1
            · exact Or.inr ⟨h1, e', by simp [h2], h3⟩
          · rintro (h1 | ⟨h1, e', h2, h3⟩)
            · exact Or.inl h1
            · rcases List.mem_cons.mp h2 with rfl | h2
              · rw [hv] at h3
                have hvp := Option.some.inj h3
                have : v = n1 := by
                  by_contra hne
                  exact hc ⟨by omega, by omega, hne⟩
                rcases hn1 with c | ⟨c1, c2⟩
                · omega
                · left
                  rwa [show n1.toNat = p by omega] at c2
              · exact Or.inr ⟨h1, e', h2, h3⟩
    · rw [if_pos hvw]
      simp only [Option.bind_eq_bind, Option.bind_some]
      rw [smallStep_none]
      refine ⟨none, rfl, ⟨fun _ => ⟨e, by simp, hfail.mpr hvw⟩, fun _ => rfl⟩, fun s hs => (by cases hs)⟩

/-- The face loop. -/
theorem smallTargets_fold {mem : Fin d → ℤ} {conn : FaceConn} {gfp : List (GPos d)} {P r : ℕ} {x : ℕ × Quad d}
    (hx : ∀ f < 2 * d, ∀ e ∈ smallNeighbors x.2 f, ∃ v, quadrantFindOwner mem conn gfp P r x.1 f e.1 = some v ∧
      ∀ u, e.2 = some u → ∃ w, quadrantFindOwner mem conn gfp P r x.1 f u = some w) :
    ∃ res, smallTargets mem conn gfp P r x = some res ∧
      (res = none ↔ ∃ f < 2 * d, ∃ e ∈ smallNeighbors x.2 f, CheckFails (quadrantFindOwner mem conn gfp P r x.1 f) e) ∧
      ∀ ps, res = some ps → ∀ p, p ∈ ps ↔ p ≠ r ∧ ∃ f < 2 * d, ∃ e ∈ smallNeighbors x.2 f,
        quadrantFindOwner mem conn gfp P r x.1 f e.1 = some (p : ℤ) := by
  have hnone : ∀ l : List ℕ, l.foldlM (fun acc face => match acc with
      | none => some none
      | some ps => do
        let r' ← (smallNeighbors x.2 face).foldlM (smallStep (quadrantFindOwner mem conn gfp P r x.1 face) r) (some (-1, []))
        some (r'.map fun s => ps ++ s.2)) (none : Option (List ℕ)) = some none := by
    intro l
    induction l with
    | nil => rfl
    | cons f l ih => rw [List.foldlM_cons]; exact ih
  have key : ∀ (l : List ℕ) (ps0 : List ℕ), (∀ f ∈ l, f < 2 * d) → ∃ res, l.foldlM (fun acc face => match acc with
      | none => some none
      | some ps => do
        let r' ← (smallNeighbors x.2 face).foldlM (smallStep (quadrantFindOwner mem conn gfp P r x.1 face) r) (some (-1, []))
        some (r'.map fun s => ps ++ s.2)) (some ps0) = some res ∧
      (res = none ↔ ∃ f ∈ l, ∃ e ∈ smallNeighbors x.2 f, CheckFails (quadrantFindOwner mem conn gfp P r x.1 f) e) ∧
      ∀ ps, res = some ps → ∀ p, p ∈ ps ↔ p ∈ ps0 ∨ (p ≠ r ∧ ∃ f ∈ l, ∃ e ∈ smallNeighbors x.2 f,
        quadrantFindOwner mem conn gfp P r x.1 f e.1 = some (p : ℤ)) := by
    intro l
    induction l with
    | nil =>
      intro ps0 _
      refine ⟨_, rfl, by simp, ?_⟩
      rintro ps ⟨rfl⟩ p
      simp
    | cons f l ih =>
      intro ps0 hl
      obtain ⟨res, e1, e2, e3⟩ := smallFold (r := r) (n1 := -1) (ps := []) (Or.inl rfl) (hx f (hl f (by simp)))
      rw [List.foldlM_cons]
      dsimp only
      rw [e1]
      simp only [Option.bind_eq_bind, Option.bind_some]
      cases res with
      | none =>
        simp only [Option.map_none]
        have := hnone l
        simp only [Option.bind_eq_bind] at this
        rw [this]
        obtain ⟨e, h1, h2⟩ := e2.mp rfl
        exact ⟨none, rfl, ⟨fun _ => ⟨f, by simp, e, h1, h2⟩, fun _ => rfl⟩, fun s hs => (by cases hs)⟩
      | some s =>
        simp only [Option.map_some]
        obtain ⟨res, g1, g2, g3⟩ := ih (ps0 ++ s.2) fun f' hf' => hl f' (by simp [hf'])
        simp only [Option.bind_eq_bind] at g1
        have hno : ¬ ∃ e ∈ smallNeighbors x.2 f, CheckFails (quadrantFindOwner mem conn gfp P r x.1 f) e := by
          rw [← e2]; simp
        refine ⟨res, g1, ?_, fun ps hps p => ?_⟩
        · rw [g2]
          constructor
          · rintro ⟨f', h1, h2⟩; exact ⟨f', by simp [h1], h2⟩
          · rintro ⟨f', h1, h2⟩
            rcases List.mem_cons.mp h1 with rfl | h1
            · exact absurd h2 hno
            · exact ⟨f', h1, h2⟩
        · rw [g3 ps hps, List.mem_append, e3 s rfl]
          constructor
          · rintro ((h1 | h1 | ⟨h1, h2⟩) | ⟨h1, f', h2, h3⟩)
            · exact Or.inl h1
            · simp at h1
            · exact Or.inr ⟨h1, f, by simp, h2⟩
            · exact Or.inr ⟨h1, f', by simp [h2], h3⟩
          · rintro (h1 | ⟨h1, f', h2, h3⟩)
            · exact Or.inl (Or.inl h1)
            · rcases List.mem_cons.mp h2 with rfl | h2
              · exact Or.inl (Or.inr (Or.inr ⟨h1, h3⟩))
              · exact Or.inr ⟨h1, f', h2, h3⟩
  obtain ⟨res, e1, e2, e3⟩ := key (List.range (2 * d)) [] fun f hf => List.mem_range.mp hf
  refine ⟨res, e1, ?_, fun ps hps p => ?_⟩
  · rw [e2]; simp only [List.mem_range]
  · rw [e3 ps hps]; simp

/-! ### The owners -/

section

variable {conn : FaceConn} {trees : List (List (Quad d))} {P : ℕ} {leaves : ℕ → List (ℕ × Quad d)}

/-- The rank has a leaf of the tree with this cell. -/
def Owns (leaves : ℕ → List (ℕ × Quad d)) (p t : ℕ) (b : Fin d → ℤ) : Prop := ∃ y ∈ leaves p, y.1 = t ∧ b ∈ Cells y.2

theorem owns_unique (hd : 0 < d) (h : Distributed trees P leaves) {p p' t : ℕ} (hp : p < P) (hp' : p' < P) {b : Fin d → ℤ}
    (h1 : Owns leaves p t b) (h2 : Owns leaves p' t b) : p = p' := by
  obtain ⟨y, hy, e1, m1⟩ := h1
  obtain ⟨z, hz, e2, m2⟩ := h2
  exact owner_unique hd h hp' hp hz hy (e2.trans e1.symm) m2 m1

theorem owner_cases (hd : d = 2 ∨ d = 3) (hconn : FaceConsistent d conn) (hn : conn.numTrees = trees.length)
    (h : Distributed trees P leaves) {r : ℕ} (hr : r < P) {K : Quad d} (hK : Valid K) {t f : ℕ}
    (ht : t < trees.length) (hf : f < 2 * d) (mem : Fin d → ℤ) :
    (∃ t' n u p p', Across conn t f K t' n ∧ p < P ∧ p' < P ∧
      quadrantFindOwner mem conn (globalPartition leaves P trees.length) P r t f (faceNeighbor K f) = some (p : ℤ) ∧
      Owns leaves p t' n.c ∧
      quadrantFindOwner mem conn (globalPartition leaves P trees.length) P r t f (lastDesc (faceNeighbor K f) 29) = some (p' : ℤ) ∧
      Owns leaves p' t' u ∧ u ∈ Cells n ∧ (SideBySide d conn → u = (lastDesc n 29).c)) ∨
    (NothingAcross conn t f K ∧
      quadrantFindOwner mem conn (globalPartition leaves P trees.length) P r t f (faceNeighbor K f) = some (-1) ∧
      quadrantFindOwner mem conn (globalPartition leaves P trees.length) P r t f (lastDesc (faceNeighbor K f) 29) = some (-1)) := by
  have hd0 : 0 < d := by omega
  rcases across_cases hd hconn hK (t := t) (f := f) (by omega) hf (fun _ _ => none) mem (globalPartition leaves P trees.length) P r []
    ⟨[], [], [], [], [], [], []⟩ with ⟨t', n, ha, -, h2, u, h3, h4, h5⟩ | ⟨h1, -, h2, h3⟩
  · left
    have ht' : t' < trees.length := by rw [← hn]; exact ha.tree
    obtain ⟨p, hp, o1, -, o2, -⟩ := C27_find_owner hd0 trees P leaves h t' ht' n (valid_inTree ha.valid) r hr
    obtain ⟨p', hp', o3, -, o4, -⟩ := C27_find_owner hd0 trees P leaves h t' ht' u (valid_cells_inTree ha.valid h4) r hr
    exact ⟨t', n, u.c, p, p', ha, hp, hp', h2.trans o2, o1, h3.trans o4, o3, h4, fun hs => by rw [h5 hs]⟩
  · exact Or.inr ⟨h1, h2, h3⟩

theorem across_unique (hd : 0 < d) {t f : ℕ} {K : Quad d} {t1 t2 : ℕ} {n1 n2 : Quad d}
    (h1 : Across conn t f K t1 n1) (h2 : Across conn t f K t2 n2) : t1 = t2 ∧ n1 = n2 := by
  obtain ⟨e, hs⟩ := across_sub hd ⟨le_rfl, fun a ha => ha⟩ h1 h2
  exact ⟨e, valid_eq_of_level hd h1.valid h2.valid hs (by rw [h1.level, h2.level])⟩

theorem across_not_nothing {t f : ℕ} {K : Quad d} {t1 : ℕ} {n1 : Quad d}
    (h1 : Across conn t f K t1 n1) (h2 : NothingAcross conn t f K) : False := by
  obtain ⟨a, ha⟩ := layer_nonempty K f
  obtain ⟨y, hy⟩ := h1.some a ha
  exact h2.none a ha y hy

/-- All cells across the small neighbors belong to one rank each. -/
def WholeOwned (conn : FaceConn) (P : ℕ) (leaves : ℕ → List (ℕ × Quad d)) (x : ℕ × Quad d) : Prop :=
  ∀ f < 2 * d, ∀ K, SmallAt f x.2 K → ∀ t' n, Across conn x.1 f K t' n → ∃ p < P, ∀ b ∈ Cells n, Owns leaves p t' b

/-- The loop for a leaf. -/
theorem smallTargets_total (hd : d = 2 ∨ d = 3) (hconn : FaceConsistent d conn) (hn : conn.numTrees = trees.length)
    (h : Distributed trees P leaves) {r : ℕ} (hr : r < P) {x : ℕ × Quad d} (hx : x.1 < trees.length) (hq : Valid x.2) (mem : Fin d → ℤ) :
    ∃ res, smallTargets mem conn (globalPartition leaves P trees.length) P r x = some res ∧
      (res = none ↔ ∃ f < 2 * d, ∃ e ∈ smallNeighbors x.2 f,
        CheckFails (quadrantFindOwner mem conn (globalPartition leaves P trees.length) P r x.1 f) e) ∧
      ∀ ps, res = some ps → ∀ p, p ∈ ps ↔ p < P ∧ p ≠ r ∧ ∃ f < 2 * d, ∃ K, SmallAt f x.2 K ∧ ∃ t' n,
        Across conn x.1 f K t' n ∧ Owns leaves p t' n.c := by
  have hd0 : 0 < d := by omega
  obtain ⟨res, e1, e2, e3⟩ := smallTargets_fold (mem := mem) (conn := conn) (gfp := globalPartition leaves P trees.length) (P := P)
    (r := r) (x := x) (by
      intro f hf e he
      obtain ⟨K, hK, rfl⟩ := (mem_smallNeighbors hd0 hq hf).mp he
      have hKv := (smallAt_valid hd0 hq hf hK).1
      have hu : ∀ u, upperRight x.2 (faceNeighbor K f) = some u → u = lastDesc (faceNeighbor K f) 29 := by
        intro u hu
        unfold upperRight at hu
        split at hu
        · cases hu
        · exact (Option.some.inj hu).symm
      rcases owner_cases hd hconn hn h hr hKv hx hf mem with ⟨t', n, u, p, p', -, -, -, o1, -, o2, -⟩ | ⟨-, o1, o2⟩
      · exact ⟨_, o1, fun u h => (hu u h) ▸ ⟨_, o2⟩⟩
      · exact ⟨_, o1, fun u h => (hu u h) ▸ ⟨_, o2⟩⟩)
  refine ⟨res, e1, e2, fun ps hps p => ?_⟩
  rw [e3 ps hps]
  constructor
  · rintro ⟨h1, f, hf, e, he, ho⟩
    obtain ⟨K, hK, rfl⟩ := (mem_smallNeighbors hd0 hq hf).mp he
    have hKv := (smallAt_valid hd0 hq hf hK).1
    rcases owner_cases hd hconn hn h hr hKv hx hf mem with ⟨t', n, u, q, q', ha, hp, -, o1, o2, -⟩ | ⟨-, o1, o2⟩
    · dsimp only at ho
      rw [o1] at ho
      have := Option.some.inj ho
      obtain rfl : q = p := by omega
      exact ⟨hp, h1, f, hf, K, hK, t', n, ha, o2⟩
    · dsimp only at ho
      rw [o1] at ho
      have := Option.some.inj ho
      omega
  · rintro ⟨hp, h1, f, hf, K, hK, t', n, ha, o⟩
    have hKv := (smallAt_valid hd0 hq hf hK).1
    refine ⟨h1, f, hf, _, (mem_smallNeighbors hd0 hq hf).mpr ⟨K, hK, rfl⟩, ?_⟩
    rcases owner_cases hd hconn hn h hr hKv hx hf mem with ⟨t'', n', u, q, q', ha', hq', -, o1, o2, -⟩ | ⟨hno, -⟩
    · obtain ⟨rfl, rfl⟩ := across_unique hd0 ha ha'
      rw [owns_unique hd0 h hp hq' o o2]
      exact o1
    · exact absurd hno (across_not_nothing ha)

/-- If each small neighbor is on one rank then the leaf goes to the ranks of its neighbors. -/
theorem smallTargets_whole (hd : d = 2 ∨ d = 3) (hconn : FaceConsistent d conn) (hn : conn.numTrees = trees.length)
    (h : Distributed trees P leaves) {r : ℕ} (hr : r < P) {x : ℕ × Quad d} (hx : x ∈ leaves r) (mem : Fin d → ℤ)
    (hw : WholeOwned conn P leaves x) :
    ∃ ps, smallTargets mem conn (globalPartition leaves P trees.length) P r x = some (some ps) ∧
      ∀ p, p ∈ ps ↔ p < P ∧ p ≠ r ∧ ∃ y ∈ leaves p, ShareFace conn x y := by
  have hd0 : 0 < d := by omega
  obtain ⟨s, hs⟩ := h.segments hd0
  obtain ⟨htl, hqv⟩ := hs.leaf r hr x hx
  obtain ⟨res, e1, e2, e3⟩ := smallTargets_total hd hconn hn h hr htl hqv mem
  cases res with
  | none =>
    exfalso
    obtain ⟨f, hf, e, he, u, v, w, h1, h2, h3, h4⟩ := e2.mp rfl
    obtain ⟨K, hK, rfl⟩ := (mem_smallNeighbors hd0 hqv hf).mp he
    have hu : u = lastDesc (faceNeighbor K f) 29 := by
      dsimp only at h1
      unfold upperRight at h1
      split at h1
      · cases h1
      · exact (Option.some.inj h1).symm
    subst hu
    have hKv := (smallAt_valid hd0 hqv hf hK).1
    dsimp only at h2
    rcases owner_cases hd hconn hn h hr hKv htl hf mem with ⟨t', n, u, q, q', ha, hq, hq', o1, o2, o3, o4, o5, -⟩ | ⟨-, o1, o2⟩
    · rw [o1] at h2
      rw [o3] at h3
      obtain ⟨p, hp, hall⟩ := hw f hf K hK t' n ha
      have c1 := owns_unique hd0 h hq hp o2 (hall _ (corner_mem n))
      have c2 := owns_unique hd0 h hq' hp o4 (hall _ o5)
      rw [← Option.some.inj h2, ← Option.some.inj h3, c1, c2] at h4
      exact h4 rfl
    · rw [o1] at h2
      rw [o2] at h3
      rw [← Option.some.inj h2, ← Option.some.inj h3] at h4
      exact h4 rfl
  | some ps =>
    refine ⟨ps, e1, fun p => ?_⟩
    rw [e3 ps rfl]
    refine and_congr_right fun hp => and_congr_right fun hpr => ?_
    constructor
    · rintro ⟨f, hf, K, hK, t', n, ha, ho⟩
      obtain ⟨p', hp', hall⟩ := hw f hf K hK t' n ha
      obtain rfl := owns_unique hd0 h hp hp' ho (hall _ (corner_mem n))
      obtain ⟨a, hla⟩ := layer_nonempty K f
      obtain ⟨b, hb⟩ := ha.some a hla
      obtain ⟨c1, c2⟩ := ha.into a hla b hb
      obtain ⟨y, hy, c3, c4⟩ := hall _ c2
      refine ⟨y, hy, a, (smallAt_valid hd0 hqv hf hK).2.2 hla.1, b.2, c4, ?_⟩
      rw [c3, ← c1]
      exact (sharesFacet_iff _ _ _).mpr ⟨f, hf, hb⟩
    · rintro ⟨y, hy, a, ha, b, hb, hsh⟩
      obtain ⟨f, hf, hbs⟩ := (sharesFacet_iff _ _ _).mp hsh
      have hla : Layer f x.2 a := by
        by_contra hl
        obtain ⟨k1, k2⟩ := beside_inner hqv ha hl hbs
        exact hpr (owner_unique hd0 h hr hp hx hy k1.symm k2 hb)
      obtain ⟨K, hK, hKa⟩ := smallAt_layer hd0 hqv hf hla
      have hKv := (smallAt_valid hd0 hqv hf hK).1
      rcases owner_cases hd hconn hn h hr hKv htl hf mem with ⟨t', n, u, q, q', hac, -⟩ | ⟨hno, -⟩
      · obtain ⟨c1, c2⟩ := hac.into a hKa _ hbs
        obtain ⟨p', hp', hall⟩ := hw f hf K hK t' n hac
        have : p = p' := owns_unique hd0 h hp hp' ⟨y, hy, c1, hb⟩ (hall _ c2)
        subst this
        exact ⟨f, hf, K, hK, t', n, hac, hall _ (corner_mem n)⟩
      · exact absurd hbs (hno.none a hKa _)

/-- A quadrant of the smallest size is in one leaf. -/
theorem smallest_owned (hd : 0 < d) (h : Distributed trees P leaves) {p : ℕ} (hp : p < P) {t : ℕ} {n : Quad d} (hn : Valid n)
    (hl : n.level = 29) (ho : Owns leaves p t n.c) : ∀ b ∈ Cells n, Owns leaves p t b := by
  obtain ⟨s, hs⟩ := h.segments hd
  obtain ⟨z, hz, e, m⟩ := ho
  obtain ⟨hzt, hzv⟩ := hs.leaf p hp z hz
  intro b hb
  refine ⟨z, hz, e, ?_⟩
  rcases meet_nested hn hzv (corner_mem n) m with c | c
  · exact c hb
  · rw [valid_eq_of_level hd hzv hn c (by rw [hl]; exact hzv.1)]
    exact hb

/-- If the trees lie side by side then the check shows that each small neighbor is on one rank. -/
theorem whole_of_check (hd : d = 2 ∨ d = 3) (hconn : FaceConsistent d conn) (hn : conn.numTrees = trees.length)
    (h : Distributed trees P leaves) (hst : SideBySide d conn) {r : ℕ} (hr : r < P) {x : ℕ × Quad d} (hx : x ∈ leaves r)
    (mem : Fin d → ℤ) {ps : List ℕ} (hps : smallTargets mem conn (globalPartition leaves P trees.length) P r x = some (some ps)) :
    WholeOwned conn P leaves x := by
  have hd0 : 0 < d := by omega
  obtain ⟨s, hs⟩ := h.segments hd0
  obtain ⟨htl, hqv⟩ := hs.leaf r hr x hx
  obtain ⟨res, e1, e2, -⟩ := smallTargets_total hd hconn hn h hr htl hqv mem
  have hres : ¬ res = none := by
    rw [hps] at e1
    rw [← Option.some.inj e1]
    simp
  rw [e2] at hres
  intro f hf K hK t' n ha
  have hKv := (smallAt_valid hd0 hqv hf hK).1
  rcases owner_cases hd hconn hn h hr hKv htl hf mem with ⟨t'', n', u, q, q', ha', hq, hq', o1, o2, o3, o4, o5, o6⟩ | ⟨hno, -⟩
  swap
  · exact absurd hno (across_not_nothing ha)
  obtain ⟨rfl, rfl⟩ := across_unique hd0 ha ha'
  refine ⟨q, hq, ?_⟩
  by_cases h29 : x.2.level = 29
  · refine smallest_owned hd0 h hq ha.valid ?_ o2
    rw [ha.level]
    rcases hK with ⟨-, rfl⟩ | ⟨hl, -⟩
    · exact h29
    · omega
  · have hqq : q = q' := by
      by_contra hne
      refine hres ⟨f, hf, _, (mem_smallNeighbors hd0 hqv hf).mpr ⟨K, hK, rfl⟩, lastDesc (faceNeighbor K f) 29, q, q', ?_, o1, o3, by omega⟩
      exact if_neg h29
    subst hqq
    have hu := o6 hst
    subst hu
    have hlv : Valid (lastDesc n 29) :=
      ((C10_descendants_bound hd0 n ha.valid.extended 29 ha.valid.1 le_rfl).2.2.1 ha.valid).2
    have hlc : IsCell (lastDesc n 29) := ⟨hlv, rfl⟩
    have hstopl : stop (lastDesc n 29) = stop n := stop_lastDesc ha.valid.aligned ha.valid.int32 ha.valid.1 (by norm_num)
    rw [cell_stop hlc] at hstopl
    have b0 := (hs.mem_iff hd0 t' q hq (valid_inTree ha.valid)).mp o2
    have b1 := (hs.mem_iff hd0 t' q hq (valid_inTree hlv)).mp o4
    change s q ≤ _ + start n ∧ _ + start n < s (q + 1) at b0
    change s q ≤ _ + start (lastDesc n 29) ∧ _ + start (lastDesc n 29) < s (q + 1) at b1
    have b2 := dvd_step (Nat.dvd_add (tree_dvd hd0 t') (cell_dvd hlc)) (hs.dvd hd0 (q + 1) hq) b1.2
    intro b hb
    have hbt := valid_cells_inTree ha.valid hb
    have hpos := (mem_iff_pos ha.valid.aligned ha.valid.int32 hbt.int32).mp hb
    exact (hs.mem_iff hd0 t' q hq hbt).mpr ⟨by omega, by omega⟩

end

end P4est
