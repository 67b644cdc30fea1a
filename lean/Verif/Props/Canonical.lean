import Verif.Lemmas.Canonical
import Verif.Props.CornerCheck
import Verif.Props.Ghost

/-! # C74: canonical coordinates of points -/

namespace P4est
open Spec

variable {d : ℕ}

/-- C74. In two dimensions, p4est_connectivity_coordinates_canonicalize takes each point of a tree to a point of a tree that is the
same point of the mesh.  Of all points of trees that are the same point, it is the one with the lowest tree, and in that tree the one that
is first on the space filling curve.  The face tables and corner tables must fit together, and the corner tables must be complete.
Nothing depends on what the memory contained before.  Partial: the documentation asks only for a valid connectivity, and with incomplete
corner tables the claim is false, see `C74_reduced_fails`; in three dimensions points on edges and corners are not covered. -/
theorem C74_canonicalize_partial (conn : FaceConn) (hconn : FaceConsistent 2 conn) (cc : CornerConn) (hcc : CornerConsistent conn.numTrees cc)
    (hall : CornersComplete conn cc) (t : ℕ) (ht : t < conn.numTrees) (x : Fin 2 → ℤ) (hx : InCube x) :
    ∃ r, (∀ mem, canonicalize mem conn cc t x = some r) ∧ SamePoint conn cc (t, x) r ∧ r.1 < conn.numTrees ∧ InCube r.2 ∧
      ∀ y, SamePoint conn cc (t, x) y → NotAfter r y := by
  have key : ∀ mem, ∃ r, canonicalize mem conn cc t x = some r ∧ SamePoint conn cc (t, x) r ∧ r.1 < conn.numTrees ∧ InCube r.2 ∧
      ∀ y, SamePoint conn cc (t, x) y → NotAfter r y := by
    intro mem
    obtain ⟨s, h1, h2, h3, h4⟩ := canonicalize_spec hconn hcc mem ht hx
    have hs : SamePoint conn cc (t, x) s ∧ InCube s.2 := by
      rcases h2 with rfl | h | h
      · exact ⟨.refl _, hx⟩
      · exact ⟨.rel _ _ (Or.inl h), stepFace_cube h⟩
      · exact ⟨.rel _ _ (Or.inr h), stepCorner_cube h⟩
    refine ⟨s, h1, hs.1, ?_, hs.2, fun y hy => ?_⟩
    · unfold NotAfter at h3
      dsimp only at h3
      omega
    · rcases pointClass hconn hcc hall ht hx hy with rfl | h
      · exact h3
      · exact h4 y h
  obtain ⟨r, h1, h2, h3, h4, h5⟩ := key 0
  refine ⟨r, fun mem => ?_, h2, h3, h4, h5⟩
  obtain ⟨r', g1, g2, -, g4, g5⟩ := key mem
  rw [g1, notAfter_antisymm (by norm_num) g4 h4 (g5 _ h2) (h5 _ g2)]

/-- C74. Two points of trees get the same canonical coordinates exactly if they are the same point of the mesh. -/
theorem C74_same_point_partial (conn : FaceConn) (hconn : FaceConsistent 2 conn) (cc : CornerConn)
    (hcc : CornerConsistent conn.numTrees cc) (hall : CornersComplete conn cc) (t t' : ℕ) (ht : t < conn.numTrees)
    (ht' : t' < conn.numTrees) (x x' : Fin 2 → ℤ) (hx : InCube x) (hx' : InCube x') (mem mem' : Fin 2 → ℤ) :
    canonicalize mem conn cc t x = canonicalize mem' conn cc t' x' ↔ SamePoint conn cc (t, x) (t', x') := by
  obtain ⟨r, h1, h2, -, h4, h5⟩ := C74_canonicalize_partial conn hconn cc hcc hall t ht x hx
  obtain ⟨r', g1, g2, -, g4, g5⟩ := C74_canonicalize_partial conn hconn cc hcc hall t' ht' x' hx'
  rw [h1, g1, Option.some.injEq]
  constructor
  · rintro rfl
    exact h2.trans _ _ _ (g2.symm _ _)
  · intro h
    exact notAfter_antisymm (by norm_num) h4 g4 (h5 _ (h.trans _ _ _ g2)) (g5 _ ((h.symm _ _).trans _ _ _ h2))

/-- C74. In two and in three dimensions, for points that are not on an edge or a corner of the tree, with the points of faces that are
connected as the same point.  The part for edges and corners is not used. -/
theorem C74_canonicalize_faces_partial (hd : d = 2 ∨ d = 3) (conn : FaceConn) (hconn : FaceConsistent d conn) (t : ℕ)
    (ht : t < conn.numTrees) (x : Fin d → ℤ) (hx : InCube x) (ho : OffEdges x) :
    ∃ r, (∀ mem rest, canonicalizeWith mem conn rest t x = some r) ∧ Relation.EqvGen (StepFace conn) (t, x) r ∧ r.1 < conn.numTrees ∧
      InCube r.2 ∧ ∀ y, Relation.EqvGen (StepFace conn) (t, x) y → NotAfter r y := by
  have key : ∀ mem rest, ∃ r, canonicalizeWith mem conn rest t x = some r ∧ Relation.EqvGen (StepFace conn) (t, x) r ∧
      r.1 < conn.numTrees ∧ InCube r.2 ∧ ∀ y, Relation.EqvGen (StepFace conn) (t, x) y → NotAfter r y := by
    intro mem rest
    obtain ⟨s, h1, h2, h3, h4⟩ := canonicalizeWith_spec hd hconn mem ht hx ho rest
    have hs : Relation.EqvGen (StepFace conn) (t, x) s ∧ InCube s.2 := by
      rcases h2 with rfl | h
      · exact ⟨.refl _, hx⟩
      · exact ⟨.rel _ _ h, stepFace_cube h⟩
    refine ⟨s, h1, hs.1, ?_, hs.2, fun y hy => ?_⟩
    · unfold NotAfter at h3
      dsimp only at h3
      omega
    · rcases faceClass hd hconn ho hy with rfl | h
      · exact h3
      · exact h4 y h
  obtain ⟨r, h1, h2, h3, h4, h5⟩ := key 0 some
  refine ⟨r, fun mem rest => ?_, h2, h3, h4, h5⟩
  obtain ⟨r', g1, g2, -, g4, g5⟩ := key mem rest
  rw [g1, notAfter_antisymm (by omega) g4 h4 (g5 _ h2) (h5 _ g2)]

/-! ### Examples -/

/-- The corners met across the faces of a corner. -/
def acrossList (conn : FaceConn) (t c : ℕ) : List (ℕ × ℕ) :=
  (List.finRange 2).filterMap fun i => do
    let t' ← conn.treeToTree[4 * t + faceOf c i]?
    let code ← conn.treeToFace[4 * t + faceOf c i]?
    let nc ← faceNeighborCorner 2 c (faceOf c i) (code % 4) (code / 4)
    if t' ≠ t ∨ code % 4 ≠ faceOf c i then some (t', nc) else none

section

variable {conn : FaceConn} {cc : CornerConn}

theorem acrossList_of {t c : ℕ} {e : ℕ × ℕ} (h : AcrossFace conn t c e) : e ∈ acrossList conn t c := by
  obtain ⟨i, nf, o, hnf, ho, h1, h2, h3, h4⟩ := h
  unfold acrossList
  rw [List.mem_filterMap]
  refine ⟨i, List.mem_finRange i, ?_⟩
  rw [h1, h2]
  simp only [Option.bind_eq_bind, Option.bind_some]
  rw [show (nf + 4 * o) % 4 = nf by omega, show (nf + 4 * o) / 4 = o by omega, h4]
  simp only [Option.bind_some]
  rw [if_pos h3]

theorem of_acrossList (hconn : FaceConsistent 2 conn) {t c : ℕ} (ht : t < conn.numTrees) {e : ℕ × ℕ} (h : e ∈ acrossList conn t c) :
    AcrossFace conn t c e := by
  unfold acrossList at h
  rw [List.mem_filterMap] at h
  obtain ⟨i, -, h⟩ := h
  obtain ⟨t', nf, o, e1, e2, -, hnf, ho⟩ := hconn.entries ht (faceOf_lt c i)
  have hnf : nf < 4 := hnf
  have ho : o < 2 := ho
  rw [show 2 * 2 = 4 from rfl] at e1 e2
  rw [e1, e2] at h
  simp only [Option.bind_eq_bind, Option.bind_some] at h
  rw [show (nf + 4 * o) % 4 = nf by omega, show (nf + 4 * o) / 4 = o by omega] at h
  obtain ⟨nc, h1, h⟩ := Option.bind_eq_some_iff.mp h
  split at h
  · rename_i h3
    rw [Option.some.injEq] at h
    subst h
    exact ⟨i, nf, o, hnf, ho, e1, e2, h3, h1⟩
  · exact absurd h (by simp)

theorem step_acrossFace (hconn : FaceConsistent 2 conn) {t c : ℕ} (hc : c < 4) {y : ℕ × (Fin 2 → ℤ)}
    (h : StepFace conn (t, cornerPoint c) y) : ∃ c', AcrossFace conn t c (y.1, c') ∧ y.2 = cornerPoint c' := by
  have ht := (stepFace_tree hconn h).1
  obtain ⟨f, nf, o, T, hf, hnf, h1, h2, h3, h4, h5, h6⟩ := h
  have ho := entry_orient hconn ht hf h1 h2
  have hff : f = faceOf c ⟨f / 2, by omega⟩ := by
    have := h5.2 ⟨f / 2, by omega⟩ rfl
    unfold cornerPoint at this
    unfold faceOf
    dsimp only at this ⊢
    split at this <;> rename_i hb <;> split at this <;> rename_i hm
    · rw [if_pos hb]; omega
    · norm_num at this
    · norm_num at this
    · rw [if_neg hb]; omega
  generalize (⟨f / 2, by omega⟩ : Fin 2) = i at hff
  subst hff
  obtain ⟨nc, k1, k2⟩ := corner_across hc i hnf ho
  exact ⟨nc, ⟨i, nf, o, hnf, ho, h1, h2, h3, k1⟩, by rw [h6, k2 T h4]⟩

/-- Labels of corners that tell which are the same. -/
theorem cornersComplete_of (hconn : FaceConsistent 2 conn) (hcc : CornerConsistent conn.numTrees cc) {β : Type} (V : ℕ × ℕ → β)
    (h1 : ∀ t < conn.numTrees, ∀ c < 4, ∀ e ∈ acrossList conn t c ++ (findCornerTransform conn cc t c).getD [],
      e.1 < conn.numTrees ∧ e.2 < 4 ∧ V e = V (t, c))
    (h2 : ∀ e ∈ (List.range conn.numTrees).product (List.range 4), ∀ e' ∈ (List.range conn.numTrees).product (List.range 4),
      V e' ≠ V e ∨ e' = e ∨ e' ∈ acrossList conn e.1 e.2 ++ (findCornerTransform conn cc e.1 e.2).getD []) :
    CornersComplete conn cc := by
  intro t c y ht hc hy
  have hd : (2 : ℕ) = 2 ∨ (2 : ℕ) = 3 := Or.inl rfl
  replace hy := eqvGen_symm (fun _ _ h => h.imp (stepFace_symm hd hconn) (stepCorner_symm hcc)) hy
  have inj : ∀ a < 4, ∀ b < 4, (cornerPoint a : Fin 2 → ℤ) = cornerPoint b → a = b := by
    intro a ha b hb hab
    have h0 := congrFun hab 0
    have h1 := congrFun hab 1
    interval_cases a <;> interval_cases b <;> simp [cornerPoint, Nat.testBit] at h0 h1 ⊢
  have key : ∃ c' < 4, y.1 < conn.numTrees ∧ y.2 = cornerPoint c' ∧ V (y.1, c') = V (t, c) := by
    induction hy with
    | refl => exact ⟨c, hc, ht, rfl, rfl⟩
    | tail _ hs ih =>
      rename_i y z _
      obtain ⟨c', hc', hy1, hy2, hy3⟩ := ih
      have hye : y = (y.1, cornerPoint c') := Prod.ext rfl hy2
      rcases hs with hs | hs
      · rw [hye] at hs
        obtain ⟨c2, g1, g2⟩ := step_acrossFace hconn hc' hs
        obtain ⟨k1, k2, k3⟩ := h1 _ hy1 _ hc' _ (List.mem_append_left _ (acrossList_of g1))
        exact ⟨c2, k2, k1, g2, k3.trans hy3⟩
      · obtain ⟨a, b, ha, hb, hsc, e1, e2⟩ := hs
        have := inj a ha c' hc' (by rw [← e1, hy2])
        subst this
        obtain ⟨l, g1, g2, g3⟩ := findCornerTransform_spec hconn hcc hy1 hc'
        rcases g3 _ hsc with h | h | h
        · obtain ⟨k1, k2, k3⟩ := h1 _ hy1 _ hc' (z.1, b) (List.mem_append_right _ (by rw [g1]; exact h))
          exact ⟨b, k2, k1, e2, k3.trans hy3⟩
        · rw [Prod.mk.injEq] at h
          rw [h.1]
          exact ⟨a, ha, hy1, by rw [e2, h.2], hy3⟩
        · obtain ⟨k1, k2, k3⟩ := h1 _ hy1 _ hc' (z.1, b) (List.mem_append_left _ (acrossList_of h))
          exact ⟨b, k2, k1, e2, k3.trans hy3⟩
  obtain ⟨c', hc', hy1, hy2, hy3⟩ := key
  have hye : y = (y.1, cornerPoint c') := Prod.ext rfl hy2
  rcases (h2 (t, c) (List.mem_product.mpr ⟨List.mem_range.mpr ht, List.mem_range.mpr hc⟩) (y.1, c')
      (List.mem_product.mpr ⟨List.mem_range.mpr hy1, List.mem_range.mpr hc'⟩)).resolve_left (fun h => h hy3) with h | h
  · left
    rw [Prod.mk.injEq] at h
    rw [hye, h.1, h.2]
  · rcases List.mem_append.mp h with h | h
    · right; left
      rw [hye]
      exact acrossFace_step hc (of_acrossList hconn ht h)
    · right; right
      obtain ⟨l, g1, g2, -⟩ := findCornerTransform_spec hconn hcc ht hc
      rw [g1] at h
      exact ⟨c, c', hc, hc', g2 _ h, rfl, hy2⟩

end

/-- Two by two squares. -/
def fourSquares : FaceConn := ⟨4, [0, 1, 0, 2, 0, 1, 1, 3, 2, 3, 0, 2, 2, 3, 1, 3], [0, 0, 2, 2, 1, 1, 2, 2, 0, 0, 3, 3, 1, 1, 3, 3]⟩

/-- The corner in the middle. -/
def fourCorners : CornerConn :=
  ⟨1, [-1, -1, -1, 0, -1, -1, 0, -1, -1, 0, -1, -1, 0, -1, -1, -1], [0, 4], [0, 1, 2, 3], [3, 2, 1, 0]⟩

theorem fourSquares_consistent : FaceConsistent 2 fourSquares := by
  rw [← C37_face_checks (by norm_num) _ rfl rfl]
  intro t f ht hf
  have ht : t < 4 := ht
  interval_cases t <;> interval_cases f <;> decide +kernel

theorem fourSquares_corners : CornerConsistent 4 fourCorners :=
  (C59_corner_checks_partial fourSquares fourSquares_consistent (by decide) fourCorners ⟨fun _ => rfl, rfl, rfl, rfl⟩).1.mp
    (by decide +kernel)

theorem fourSquares_complete : CornersComplete fourSquares fourCorners :=
  cornersComplete_of fourSquares_consistent fourSquares_corners
    (fun e => (e.1 % 2 + e.2 % 2) + 3 * (e.1 / 2 + e.2 / 2)) (by decide +kernel) (by decide +kernel)

theorem torus_complete : CornersComplete torus torusCorners :=
  cornersComplete_of torus_consistent torus_corners (fun _ => 0) (by decide +kernel) (by decide +kernel)

/-- Two by two squares, and a square with opposite sides connected, meet the hypotheses.  The middle of the four squares is the last
corner of the first one, the last corner of the single square its first corner. -/
example : FaceConsistent 2 fourSquares ∧ CornerConsistent 4 fourCorners ∧ CornersComplete fourSquares fourCorners ∧
    canonicalize 0 fourSquares fourCorners 3 (cornerPoint 0) = some (0, cornerPoint 3) ∧
    FaceConsistent 2 torus ∧ CornerConsistent 1 torusCorners ∧ CornersComplete torus torusCorners ∧
    canonicalize 0 torus torusCorners 0 (cornerPoint 3) = some (0, cornerPoint 0) :=
  ⟨fourSquares_consistent, fourSquares_corners, fourSquares_complete, by decide +kernel, torus_consistent, torus_corners, torus_complete,
    by decide +kernel⟩

/-- A point in the interior of a face that is not on an edge, in two squares that are connected with a turn. -/
example : FaceConsistent 2 twoSquares ∧ InCube ![5, 2 ^ 30] ∧ OffEdges ![5, 2 ^ 30] ∧ OffEdges ![2 ^ 30, 5] ∧
    canonicalizeWith 0 twoSquares some 1 ![5, 2 ^ 30] = some (0, ![2 ^ 30, 2 ^ 30 - 5]) := by
  refine ⟨twoSquares_consistent, ?_, ?_, ?_, by decide +kernel⟩
  · intro i; fin_cases i <;> norm_num
  · rw [← contacts_one (by intro i; fin_cases i <;> norm_num)]; decide +kernel
  · rw [← contacts_one (by intro i; fin_cases i <;> norm_num)]; decide +kernel

/-- The tables of the square with opposite sides connected without its corner, as p4est_connectivity_reduce leaves them. -/
def noCorners : CornerConn := ⟨0, [], [0], [], []⟩

/-- C74. Without corner tables the function is wrong, although such a connectivity is valid.  All corners of a square with
opposite sides connected are the same point, but the last corner is taken to the second one, and the second one to the first. -/
theorem C74_reduced_fails (mem : Fin 2 → ℤ) : FaceConsistent 2 torus ∧ CornerConsistent 1 noCorners ∧
    SamePoint torus noCorners (0, cornerPoint 3) (0, cornerPoint 1) ∧
    canonicalize mem torus noCorners 0 (cornerPoint 3) = some (0, cornerPoint 1) ∧
    canonicalize mem torus noCorners 0 (cornerPoint 1) = some (0, cornerPoint 0) := by
  have hc : CornerConsistent 1 noCorners :=
    (C59_corner_checks_partial torus torus_consistent (by decide) noCorners ⟨fun h => absurd rfl h, rfl, rfl, rfl⟩).1.mp (by decide +kernel)
  refine ⟨torus_consistent, hc, ?_, ?_, ?_⟩
  · refine .rel _ _ (Or.inl (acrossFace_step (e := (0, 1)) (by norm_num) (of_acrossList torus_consistent (by decide) ?_)))
    decide +kernel
  · rw [canonicalize_mem torus_consistent hc mem 0 (by decide) (cornerPoint_cube 3)]
    decide +kernel
  · rw [canonicalize_mem torus_consistent hc mem 0 (by decide) (cornerPoint_cube 1)]
    decide +kernel

end P4est
