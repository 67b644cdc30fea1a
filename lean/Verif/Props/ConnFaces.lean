import Verif.Lemmas.ConnLoop
import Verif.Props.CornerCheck

/-! # C84: trees are connected at the faces that have the same vertices -/

namespace P4est

open Spec

variable {d : ℕ}

/-- **C84 (faces).**  The trees have vertices such that no three faces have the same ones.  Whatever the face tables
contain, `p4est_connectivity_complete` ends without an access out of bounds, and

* a face that has the same vertices as another one is connected with that one, in both directions with the same
  orientation; it is the number of the corner of the face with the higher number whose vertex is that of the first
  corner of the other face,
* the entries of all other faces are left as they were. -/
theorem C84_faces (hd : d = 2 ∨ d = 3) (conn : FaceConn) (ttv : List ℕ) (numVertices : ℕ)
    (hv : VertexTable d conn.numTrees numVertices ttv)
    (h1 : conn.treeToTree.length = 2 * d * conn.numTrees) (h2 : conn.treeToFace.length = 2 * d * conn.numTrees) :
    ∃ conn', completeFaces d conn ttv = some conn' ∧ conn'.numTrees = conn.numTrees ∧
      conn'.treeToTree.length = 2 * d * conn.numTrees ∧ conn'.treeToFace.length = 2 * d * conn.numTrees ∧
      (∀ x y : ℕ × ℕ, x.1 < conn.numTrees → x.2 < 2 * d → y.1 < conn.numTrees → y.2 < 2 * d → y ≠ x → FaceMatch d ttv x y →
        ∃ o < 2 ^ (d - 1), Connected d conn' x y o ∧ Connected d conn' y x o ∧
          ((x.2 ≤ y.2 ∧ FirstCorner d ttv x y o) ∨ (y.2 ≤ x.2 ∧ FirstCorner d ttv y x o))) ∧
      ∀ x : ℕ × ℕ, x.1 < conn.numTrees → x.2 < 2 * d →
        (∀ y : ℕ × ℕ, y.1 < conn.numTrees → y.2 < 2 * d → y ≠ x → ¬ FaceMatch d ttv x y) →
        ∀ y o, Connected d conn' x y o ↔ Connected d conn x y o := by
  have hmem := fun x : ℕ × ℕ => mem_treeLoop (n := conn.numTrees) (k := 2 * d) (x := x)
  obtain ⟨s, e1, e2⟩ := faceLoop_inv (conn0 := conn) hd hv.length hv.two (treeLoop conn.numTrees (2 * d)) [] (conn, [])
    (fun x hx => (hmem x).mp (by simpa using hx)) (by simpa using treeLoop_nodup _ _)
    ⟨rfl, h1, h2, by simp, by simp, fun x _ _ => Or.inl ⟨fun _ _ => Iff.rfl, by simp⟩⟩
  rw [List.nil_append] at e2
  refine ⟨s.1, ?_, e2.num, e2.lt, e2.lf, ?_, ?_⟩
  · unfold completeFaces; rw [e1]; rfl
  · intro x y hx hxf hy hyf hyx hs
    have hk := (key_iff hd hv.length hx hxf hy hyf).mpr hs
    rcases e2.tables x hx hxf with ⟨-, g⟩ | ⟨z, g1, -, g3, g4, r, g5, g6, g7⟩
    · exact absurd hk.symm (g ((hmem x).mpr ⟨hx, hxf⟩) y ((hmem y).mpr ⟨hy, hyf⟩) hyx)
    · obtain ⟨hz, hzf⟩ := (hmem z).mp g1
      have : y = z := by
        rcases hv.two x y z hx hxf hy hyf hz hzf hs ((key_iff hd hv.length hx hxf hz hzf).mp g4.symm) with e | e | e
        · exact absurd e.symm hyx
        · exact absurd e.symm g3
        · exact e
      subst this
      exact ⟨r, g5.1, g6, g7, g5.2⟩
  · intro x hx hxf hno
    rcases e2.tables x hx hxf with ⟨g, -⟩ | ⟨z, g1, -, g3, g4, -⟩
    · exact g
    · obtain ⟨hz, hzf⟩ := (hmem z).mp g1
      exact absurd ((key_iff hd hv.length hx hxf hz hzf).mp g4.symm) (hno z hz hzf g3)

theorem Spec.Connected.unique {conn : FaceConn} {x y z : ℕ × ℕ} {o o' : ℕ} (hy : y.2 < 2 * d) (hz : z.2 < 2 * d)
    (h1 : Connected d conn x y o) (h2 : Connected d conn x z o') : y = z ∧ o = o' := by
  have e1 : y.1 = z.1 := Option.some.inj (h1.1.symm.trans h2.1)
  have e2 : y.2 + 2 * d * o = z.2 + 2 * d * o' := Option.some.inj (h1.2.symm.trans h2.2)
  obtain ⟨e3, e4⟩ := row_inj (n := 2 * d) (t := o) (t' := o') hy hz (by omega)
  exact ⟨Prod.ext e1 e4, e3⟩

/-- **C84 (complete).**  The trees have vertices such that no three faces have the same ones, and the face tables are
consistent and connect at most faces with the same vertices; in particular, all faces may be boundaries.  Then
`p4est_connectivity_complete` makes face tables that are consistent and connect exactly the different faces with the
same vertices.

The documentation promises this for all consistent face tables: they "will be overwritten", and "periodicity that is
not inherent in the list of vertices will be lost".  That is false, see `C84_old_links` and `C84_invalid`. -/
theorem C84_complete_partial (hd : d = 2 ∨ d = 3) (conn : FaceConn) (ttv : List ℕ) (numVertices : ℕ)
    (hv : VertexTable d conn.numTrees numVertices ttv) (hc : FaceConsistent d conn)
    (hold : ∀ (x y : ℕ × ℕ) (o : ℕ), x.1 < conn.numTrees → x.2 < 2 * d → y.2 < 2 * d → Connected d conn x y o → y = x ∨ FaceMatch d ttv x y) :
    ∃ conn', completeFaces d conn ttv = some conn' ∧ conn'.numTrees = conn.numTrees ∧ FaceConsistent d conn' ∧
      ∀ x y : ℕ × ℕ, x.1 < conn.numTrees → x.2 < 2 * d → y.1 < conn.numTrees → y.2 < 2 * d → y ≠ x →
        ((∃ o, Connected d conn' x y o) ↔ FaceMatch d ttv x y) := by
  obtain ⟨conn', e1, e2, e3, e4, e5, e6⟩ := C84_faces hd conn ttv numVertices hv hc.trees hc.faces
  -- the entries of each face
  have key : ∀ x : ℕ × ℕ, x.1 < conn.numTrees → x.2 < 2 * d → Connected d conn' x x 0 ∨
      ∃ y : ℕ × ℕ, y.1 < conn.numTrees ∧ y.2 < 2 * d ∧ y ≠ x ∧ FaceMatch d ttv x y ∧ ∃ o < 2 ^ (d - 1), Connected d conn' x y o ∧ Connected d conn' y x o := by
    intro x hx hxf
    by_cases h : ∃ y : ℕ × ℕ, y.1 < conn.numTrees ∧ y.2 < 2 * d ∧ y ≠ x ∧ FaceMatch d ttv x y
    · obtain ⟨y, hy, hyf, hyx, hs⟩ := h
      obtain ⟨o, ho, g1, g2, -⟩ := e5 x y hx hxf hy hyf hyx hs
      exact Or.inr ⟨y, hy, hyf, hyx, hs, o, ho, g1, g2⟩
    · have hno : ∀ y : ℕ × ℕ, y.1 < conn.numTrees → y.2 < 2 * d → y ≠ x → ¬ FaceMatch d ttv x y :=
        fun y a b c k => h ⟨y, a, b, c, k⟩
      obtain ⟨t', nf, o, g1, g2, g3, g4, -⟩ := hc.entries hx hxf
      have hcon : Connected d conn x (t', nf) o := ⟨g1, g2⟩
      left
      rcases hold x (t', nf) o hx hxf g4 hcon with e | e
      · have hb := hcon
        rw [e] at hb
        have : o = 0 := hc.boundary x.1 x.2 o hx hxf hb.1 hb.2
        subst this
        exact (e6 x hx hxf hno x 0).mpr hb
      · by_contra
        refine hno (t', nf) g3 g4 ?_ e
        intro k
        rw [k] at hcon
        have : o = 0 := hc.boundary x.1 x.2 o hx hxf hcon.1 hcon.2
        subst this
        exact absurd ((e6 x hx hxf hno x 0).mpr hcon) (by assumption)
  have h0 : 0 < 2 ^ (d - 1) := Nat.pow_pos (by decide)
  refine ⟨conn', e1, e2, ?_, ?_⟩
  · refine ⟨by rw [e3, e2], by rw [e4, e2], ?_, ?_, ?_⟩
    · intro t f t' c ht hf k1 k2
      rw [e2] at ht ⊢
      rcases key (t, f) ht hf with ⟨g1, g2⟩ | ⟨y, hy, hyf, -, -, o, ho, ⟨g1, g2⟩, -⟩
      · rw [k1, Option.some.injEq] at g1
        rw [k2, Option.some.injEq] at g2
        refine ⟨by rw [g1]; exact ht, ?_⟩
        rw [g2]
        have hf : f < 2 * d := hf
        have := Nat.mul_le_mul_left (2 * d) h0
        simp only [Nat.mul_zero, Nat.add_zero]
        omega
      · rw [k1, Option.some.injEq] at g1
        rw [k2, Option.some.injEq] at g2
        refine ⟨by rw [g1]; exact hy, ?_⟩
        rw [g2, Nat.add_comm]
        exact row_lt ho hyf
    · intro t f t' nf o ht hf hnf k1 k2
      rw [e2] at ht
      have hk : Connected d conn' (t, f) (t', nf) o := ⟨k1, k2⟩
      rcases key (t, f) ht hf with g | ⟨y, hy, hyf, -, -, o', ho, g1, g2⟩
      · obtain ⟨u1, u2⟩ := hk.unique hnf hf g
        obtain ⟨rfl, rfl⟩ := Prod.ext_iff.mp u1
        subst u2
        exact hk
      · obtain ⟨u1, u2⟩ := hk.unique hnf hyf g1
        subst u1 u2
        exact g2
    · intro t f o ht hf k1 k2
      rw [e2] at ht
      have hk : Connected d conn' (t, f) (t, f) o := ⟨k1, k2⟩
      rcases key (t, f) ht hf with g | ⟨y, hy, hyf, hne, -, o', ho, g1, g2⟩
      · exact (hk.unique hf hf g).2
      · exact absurd (hk.unique hf hyf g1).1.symm hne
  · intro x y hx hxf hy hyf hyx
    constructor
    · rintro ⟨o, hk⟩
      rcases key x hx hxf with g | ⟨z, hz, hzf, -, hs, o', -, g1, -⟩
      · exact absurd (hk.unique hyf hxf g).1 hyx
      · rw [(hk.unique hyf hzf g1).1]; exact hs
    · intro hs
      obtain ⟨o, -, g, -⟩ := e5 x y hx hxf hy hyf hyx hs
      exact ⟨o, g⟩

deriving instance DecidableEq for FaceConn
deriving instance DecidableEq for CornerConn

/-- Two squares beside each other with a common side; the second is turned by half. -/
def pairVertices : List ℕ := [0, 1, 2, 3, 5, 3, 4, 1]

/-- Two trees that are not connected. -/
def pairConn : FaceConn := ⟨2, [0, 0, 0, 0, 1, 1, 1, 1], [0, 1, 2, 3, 0, 1, 2, 3]⟩

instance (d : ℕ) (ttv : List ℕ) (x y : ℕ × ℕ) : Decidable (FaceMatch d ttv x y) := by unfold FaceMatch; infer_instance

theorem vertexTable_of (hd : d = 2 ∨ d = 3) {n numVertices : ℕ} {ttv : List ℕ} (h1 : ttv.length = 2 ^ d * n) (h2 : ∀ v ∈ ttv, v < numVertices)
    (h3 : ∀ x ∈ treeLoop n (2 * d), ∀ y ∈ treeLoop n (2 * d), ∀ z ∈ treeLoop n (2 * d), FaceMatch d ttv x y → FaceMatch d ttv x z →
      x = y ∨ x = z ∨ y = z) : VertexTable d n numVertices ttv :=
  ⟨h1, h2, fun x y z a b c e f g => h3 x (mem_treeLoop.mpr ⟨a, b⟩) y (mem_treeLoop.mpr ⟨c, e⟩) z (mem_treeLoop.mpr ⟨f, g⟩)⟩

theorem pair_vertices : VertexTable 2 2 6 pairVertices := vertexTable_of (Or.inl rfl) rfl (by decide) (by decide +kernel)

theorem consistent_of {conn : FaceConn} (h1 : conn.treeToTree.length = 2 * 2 * conn.numTrees) (h2 : conn.treeToFace.length = 2 * 2 * conn.numTrees)
    (h3 : ∀ x ∈ treeLoop conn.numTrees (2 * 2), faceCheck 2 conn x.1 x.2 = some true) : FaceConsistent 2 conn := by
  rw [← C37_face_checks (by norm_num) _ h1 h2]
  intro t f ht hf
  exact h3 (t, f) (mem_treeLoop.mpr ⟨ht, hf⟩)

instance (d : ℕ) (conn : FaceConn) (x y : ℕ × ℕ) (o : ℕ) : Decidable (Connected d conn x y o) := by unfold Connected; infer_instance

theorem self_old {conn : FaceConn} {ttv : List ℕ} (h : ∀ x ∈ treeLoop conn.numTrees (2 * d), Connected d conn x x 0)
    (x y : ℕ × ℕ) (o : ℕ) (hx : x.1 < conn.numTrees) (hxf : x.2 < 2 * d) (hy : y.2 < 2 * d) (hk : Connected d conn x y o) :
    y = x ∨ FaceMatch d ttv x y :=
  Or.inl (hk.unique hy hxf (h x (mem_treeLoop.mpr ⟨hx, hxf⟩))).1

/-- The two squares meet the hypotheses; face 1 of the first is connected with face 1 of the second, in the orientation 1. -/
example : VertexTable 2 pairConn.numTrees 6 pairVertices ∧ FaceConsistent 2 pairConn ∧
    (∀ (x y : ℕ × ℕ) (o : ℕ), x.1 < 2 → x.2 < 2 * 2 → y.2 < 2 * 2 → Connected 2 pairConn x y o → y = x ∨ FaceMatch 2 pairVertices x y) ∧
    completeFaces 2 pairConn pairVertices = some ⟨2, [0, 1, 0, 0, 1, 0, 1, 1], [0, 5, 2, 3, 0, 5, 2, 3]⟩ :=
  ⟨pair_vertices, consistent_of rfl rfl (by decide +kernel),
    fun x y o a b c => self_old (conn := pairConn) (by decide +kernel) x y o a b c, by decide +kernel⟩

/-- One square whose left and right side are identified, with four different vertices: periodic, but not in the list of
vertices. -/
def ringConn : FaceConn := ⟨1, [0, 0, 0, 0], [1, 0, 2, 3]⟩

/-- **C84 (old links).**  Against the documentation, the periodicity that is not in the list of vertices is not lost:
`p4est_connectivity_complete` does not reset the entries of faces that have no partner.  No two faces of the square have the
same vertices, and the result still connects its left and right side. -/
theorem C84_old_links : VertexTable 2 ringConn.numTrees 4 [0, 1, 2, 3] ∧ FaceConsistent 2 ringConn ∧
    completeFaces 2 ringConn [0, 1, 2, 3] = some ringConn ∧ Connected 2 ringConn (0, 0) (0, 1) 0 ∧
    ¬ FaceMatch 2 [0, 1, 2, 3] (0, 0) (0, 1) :=
  ⟨vertexTable_of (Or.inl rfl) rfl (by decide) (by decide +kernel), consistent_of rfl rfl (by decide +kernel), by decide +kernel,
    by decide +kernel, by decide +kernel⟩

/-- Three trees; the tables connect the first with the third, the vertices the first with the second. -/
def tripleConn : FaceConn := ⟨3, [0, 2, 0, 0, 1, 1, 1, 1, 0, 2, 2, 2], [0, 0, 2, 3, 0, 1, 2, 3, 1, 1, 2, 3]⟩

/-- The vertices of the three trees. -/
def tripleVertices : List ℕ := [0, 1, 2, 3, 1, 4, 3, 5, 6, 7, 8, 9]

/-- **C84 (invalid).**  With consistent tables that connect faces with different vertices, the result need not be consistent:
the first tree is connected with the second, and the third still with the first.  The call ends with a connectivity that
`p4est_connectivity_is_valid` rejects. -/
theorem C84_invalid : VertexTable 2 tripleConn.numTrees 10 tripleVertices ∧ FaceConsistent 2 tripleConn ∧
    ∃ conn', completeFaces 2 tripleConn tripleVertices = some conn' ∧ faceCheck 2 conn' 2 0 = some false ∧ ¬ FaceConsistent 2 conn' :=
  ⟨vertexTable_of (Or.inl rfl) rfl (by decide) (by decide +kernel), consistent_of rfl rfl (by decide +kernel),
    ⟨3, [0, 1, 0, 0, 0, 1, 1, 1, 0, 2, 2, 2], [0, 0, 2, 3, 1, 1, 2, 3, 1, 1, 2, 3]⟩, by decide +kernel, by decide +kernel, by
      intro h
      have := (C37_face_checks (by norm_num) _ rfl rfl).mpr h 2 0 (by decide) (by decide)
      revert this
      decide +kernel⟩

end P4est
