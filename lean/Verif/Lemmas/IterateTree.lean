import Verif.Lemmas.IterateBoundary

/-! # One tree of the iteration -/

namespace P4est
open Spec

variable {d : ℕ}

/-! ### Lists of children at faces of trees -/

/-- A list read from a table. -/
theorem mapM_range_getD {F : ℕ → Option ℕ} {n : ℕ} {l : List ℕ} (h : (List.range n).mapM F = some l) :
    ∀ i < n, F i = some (l.getD i 0) := by
  have hs : ∀ (m : List ℕ) (l : List ℕ), m.mapM F = some l → List.Forall₂ (fun i y => F i = some y) m l := by
    intro m
    induction m with
    | nil => intro l h; rw [List.mapM_nil] at h; cases h; exact .nil
    | cons i m ih =>
      intro l h
      rw [List.mapM_cons] at h
      cases e : F i with
      | none => rw [e] at h; simp at h
      | some y =>
        cases e2 : m.mapM F with
        | none => rw [e, e2] at h; simp at h
        | some ys =>
          rw [e, e2] at h
          cases h
          exact .cons e (ih ys e2)
  have h2 := hs _ l h
  intro i hi
  have hl := h2.length_eq
  rw [List.length_range] at hl
  have := List.forall₂_iff_get.mp h2
  have := this.2 i (by simpa using hi) (by omega)
  simp only [List.get_eq_getElem, List.getElem_range] at this
  rw [this, List.getD_eq_getElem _ _ (by omega)]

/-- The check of a list. -/
def childCheck (d f : ℕ) (l : Option (List ℕ)) : Bool :=
  match l with
  | some l => decide (l.length = 2 ^ (d - 1) ∧ l.Nodup ∧ (∀ k ∈ l, k < 2 ^ d) ∧ ∀ k < 2 ^ d, k ∈ l ↔ OnFaceBit f k)
  | none => false

theorem childCheck_spec {d f : ℕ} {l : Option (List ℕ)} (h : childCheck d f l = true) : ∃ m, l = some m ∧ ChildList d f m := by
  unfold childCheck at h
  cases l with
  | none => simp at h
  | some m =>
    obtain ⟨h1, h2, h3, h4⟩ := of_decide_eq_true h
    exact ⟨m, rfl, h1, h2, fun k => ⟨fun hk => ⟨h3 k hk, (h4 k (h3 k hk)).mp hk⟩, fun hk => (h4 k hk.1).mpr hk.2⟩⟩

theorem mine_check2 : ∀ f : Fin 4, childCheck 2 f ((List.range 2).mapM (entry (faceCornersTable 2) f)) = true := by decide +kernel
theorem mine_check3 : ∀ f : Fin 6, childCheck 3 f ((List.range 4).mapM (entry (faceCornersTable 3) f)) = true := by decide +kernel
theorem other_check2 : ∀ f nf : Fin 4, ∀ o : Fin 2, childCheck 2 nf ((List.range 2).mapM fun i => touchingCorner 2 i f nf o) = true := by
  decide +kernel
theorem other_check3 : ∀ f nf : Fin 6, ∀ o : Fin 4, childCheck 3 nf ((List.range 4).mapM fun i => touchingCorner 3 i f nf o) = true := by
  decide +kernel

theorem mine_list (hd : d = 2 ∨ d = 3) {f : ℕ} (hf : f < 2 * d) : ∃ l, (List.range (2 ^ (d - 1))).mapM (entry (faceCornersTable d) f) = some l ∧
    ChildList d f l := by
  rcases hd with rfl | rfl
  · exact childCheck_spec (mine_check2 ⟨f, hf⟩)
  · exact childCheck_spec (mine_check3 ⟨f, hf⟩)

theorem other_list (hd : d = 2 ∨ d = 3) {f nf o : ℕ} (hf : f < 2 * d) (hnf : nf < 2 * d) (ho : o < 2 ^ (d - 1)) :
    ∃ l, (List.range (2 ^ (d - 1))).mapM (fun i => touchingCorner d i f nf o) = some l ∧ ChildList d nf l := by
  rcases hd with rfl | rfl
  · exact childCheck_spec (other_check2 ⟨f, hf⟩ ⟨nf, hnf⟩ ⟨o, ho⟩)
  · exact childCheck_spec (other_check3 ⟨f, hf⟩ ⟨nf, hnf⟩ ⟨o, ho⟩)

/-! ### Windows of a tree -/

section World

variable {conn : FaceConn} {Leaf : ℕ → Quad d → Prop} {Lt Gt : ℕ → List (Quad d)} {G : List (Quad d)} {goff : ℕ → ℕ}

/-- The arrays that are searched. -/
structure IterArrays (conn : FaceConn) (trees : List (List (Quad d))) (offsets : List ℕ) (Lt Gt : ℕ → List (Quad d)) (G : List (Quad d))
    (goff : ℕ → ℕ) : Prop where
  trees : ∀ t < conn.numTrees, trees[t]? = some (Lt t)
  window : ∀ t < conn.numTrees, ghostWindow offsets t = some ⟨goff t, goff (t + 1) - goff t⟩
  cut : ∀ t < conn.numTrees, goff t ≤ goff (t + 1) ∧ goff (t + 1) ≤ G.length ∧ (G.drop (goff t)).take (goff (t + 1) - goff t) = Gt t

open Classical in
theorem inside_root {L : List (Quad d)} (h : ∀ q ∈ L, Valid q) : inside L (root d) = L := by
  unfold inside
  rw [List.filter_eq_self]
  intro q hq
  exact decide_eq_true (subset_root (h q hq))

theorem root_area {trees : List (List (Quad d))} {offsets : List ℕ} (W : IterWorld conn Leaf Lt Gt)
    (A : IterArrays conn trees offsets Lt Gt G goff) {t : ℕ} (ht : t < conn.numTrees) :
    VolArea conn Lt Gt G goff t (root d) ⟨0, (Lt t).length⟩ ⟨goff t, goff (t + 1) - goff t⟩ := by
  obtain ⟨h1, h2, h3⟩ := A.cut t ht
  refine ⟨ht, root_valid, ⟨le_rfl, by dsimp only; omega, le_rfl, ?_⟩, ⟨le_rfl, by dsimp only; omega, h2, ?_⟩, ?_⟩
  · rw [inside_root fun q hq => W.valid t q (W.loc t q hq)]
    simp
  · rw [inside_root fun q hq => W.valid t q (W.gho t q hq)]
    exact h3
  · intro q hq hs
    exact hs.2 (subset_root (W.valid t q (W.leaf hq)))

theorem treeSide_spec {trees : List (List (Quad d))} {offsets : List ℕ} (W : IterWorld conn Leaf Lt Gt)
    (A : IterArrays conn trees offsets Lt Gt G goff) {x : ℕ × ℕ} (hx : IsFace d conn x) {l : List ℕ} (hl : ChildList d x.2 l) :
    ∃ s, treeSide trees offsets (x.1, x.2, l) = some s ∧ SideArea conn Lt Gt G goff s (root d) ∧ s.tree = x.1 ∧ s.face = x.2 ∧
      s.toChild = l := by
  have h := root_area W A hx.1
  unfold treeSide
  dsimp only
  rw [A.trees _ hx.1, A.window _ hx.1]
  exact ⟨_, rfl, ⟨hx.1, hx.2, hl, root_valid, rfl, h.loc, h.gho, h.free⟩, rfl, rfl, rfl⟩

/-! ### A face between trees -/

/-- One area on the boundary of the domain. -/
def OuterSpots (x : ℕ × ℕ) (X : List (Spot d)) : Prop :=
  ∃ z : Spot d, X = [z] ∧ z.tree = x.1 ∧ z.face = x.2 ∧ Valid z.area ∧ TreeSide x.2 z.area ∧
    z.toChild.length = 2 ^ (d - 1) ∧ ∀ k ∈ z.toChild, k < 2 ^ d ∧ OnFaceBit x.2 k

/-- Two areas at a face between trees. -/
def TreeSpots (conn : FaceConn) (x y : ℕ × ℕ) (o : ℕ) (ft : FTransform) (X : List (Spot d)) : Prop :=
  ∃ z w : Spot d, X = [z, w] ∧ TreePair conn x.1 x.2 y.1 y.2 o ft z w ∧
    (∀ k ∈ z.toChild, k < 2 ^ d ∧ OnFaceBit z.face k) ∧ ∀ k ∈ w.toChild, k < 2 ^ d ∧ OnFaceBit w.face k

/-- A call for a face of trees whose later side is `x`. -/
def TreeCall (conn : FaceConn) (Lt Gt : ℕ → List (Quad d)) (G : List (Quad d)) (goff : ℕ → ℕ) (x : ℕ × ℕ) (c : FaceInfo d) : Prop :=
  (faceMate d conn x = x ∧ CallOk Lt Gt G goff (OuterSpots x) 0 true c) ∨
  (faceMate d conn x ≠ x ∧ ∃ o ft, conn.treeToTree[2 * d * (faceMate d conn x).1 + (faceMate d conn x).2]? = some x.1 ∧
    conn.treeToFace[2 * d * (faceMate d conn x).1 + (faceMate d conn x).2]? = some (x.2 + 2 * d * o) ∧ o < 2 ^ (d - 1) ∧
    CallOk Lt Gt G goff (TreeSpots conn (faceMate d conn x) x o ft) o true c)

/-- The sides of a face of trees. -/
def pairSides (d : ℕ) (conn : FaceConn) (x : ℕ × ℕ) : List (ℕ × ℕ) :=
  if faceMate d conn x = x then [x] else [faceMate d conn x, x]

theorem level_zero_root {a : Quad d} (h : Valid a) (hl : a.level = 0) : a = root d := by
  obtain ⟨c, l⟩ := a
  obtain rfl : l = 0 := hl
  refine congrArg₂ Quad.mk (funext fun i => ?_) rfl
  have h1 := h.2.1.2 i
  have h2 := h.2.2 i
  have hs : side (⟨c, 0⟩ : Quad d) = 2 ^ 30 := rfl
  rw [hs] at h1
  dsimp only at h1 h2
  omega

theorem image_root (hd : d = 2 ∨ d = 3) (hconn : FaceConsistent d conn) {x y : ℕ × ℕ} {o : ℕ} (hx : IsFace d conn x) (hy : y.2 < 2 * d)
    (ho : o < 2 ^ (d - 1)) (e1 : conn.treeToTree[2 * d * x.1 + x.2]? = some y.1)
    (e2 : conn.treeToFace[2 * d * x.1 + x.2]? = some (y.2 + 2 * d * o)) (hne : y.1 ≠ x.1 ∨ y.2 ≠ x.2) {ft : FTransform}
    (he : expandFaceInternal d x.2 y.2 o = some ft) : root d = imageQuad ft x.2 (root d) := by
  have := tree_same hd hconn hx.1 hx.2 hy ho e1 e2 hne he root_valid (treeSide_root (by omega) x.2)
  exact (level_zero_root this.2.1 this.2.2.1.symm).symm

theorem treeFace_spec (hd : d = 2 ∨ d = 3) (hconn : FaceConsistent d conn) {trees : List (List (Quad d))} {offsets : List ℕ}
    (W : IterWorld conn Leaf Lt Gt) (A : IterArrays conn trees offsets Lt Gt G goff) {x : ℕ × ℕ} (hx : IsFace d conn x)
    (htop : faceTop d conn x = x) :
    ∃ calls, treeFace conn trees G offsets x.1 x.2 = some calls ∧ (∀ c ∈ calls, TreeCall conn Lt Gt G goff x c) ∧
      ∀ e, (calls.flatMap fun c => localFaces (.face c)).count e =
        ((pairSides d conn x).map fun y => ind (AtSide Lt e y.1 y.2 (root d))).sum := by
  have hd0 : 0 < d := by omega
  obtain ⟨o, e1, e2, hm, ho⟩ := mate_entries hconn hx
  have hle := mate_le htop
  have hroot : (root d).level = 0 := rfl
  unfold treeFace
  by_cases hself : faceMate d conn x = x
  · rw [hself] at e1 e2
    obtain rfl := hconn.boundary _ _ _ hx.1 hx.2 e1 e2
    obtain ⟨l, l1, l2⟩ := mine_list hd hx.2
    have hi : initFace d conn 2 x.1 x.2 = some ([(x.1, x.2, l)], 0) := by
      rw [initFace, e1, e2]
      simp only [Option.bind_eq_bind, Option.bind_some, Nat.mul_zero, Nat.add_zero, Nat.mod_eq_of_lt hx.2]
      rw [if_neg (by omega), l1]
      simp
    obtain ⟨s, s1, s2, s3, s4, s5⟩ := treeSide_spec W A hx l2
    rw [hi]
    simp only [Option.bind_eq_bind, Option.bind_some, List.mapM_cons, List.mapM_nil, s1, Option.pure_def]
    obtain ⟨calls, c1, c2, c3⟩ := faceIterate_spec (G := G) (goff := goff) hd W (outer_search (t := x.1) (f := x.2)) 0 true 31 0
      [(s, root d)] (by omega) (by omega)
      ⟨_, rfl, s3, s4, root_valid, treeSide_root hd0 _, by show s.toChild.length = _; rw [s5]; exact l2.length, by
        show ∀ k ∈ s.toChild, _
        rw [s5]
        exact fun k hk => (l2.mem k).mp hk⟩
      (by intro z hz; simp only [List.mem_singleton] at hz; subst hz; exact ⟨s2, hroot⟩)
    refine ⟨calls, c1, fun c hc => Or.inl ⟨hself, c2 c hc⟩, fun e => ?_⟩
    rw [c3 e]
    unfold pairSides
    rw [if_pos hself]
    simp [s3, s4]
  · obtain ⟨k1, k2⟩ := hconn.back x.1 x.2 _ _ o hx.1 hx.2 hm.2 e1 e2
    have hlt : (faceMate d conn x).1 < x.1 ∨ ((faceMate d conn x).1 = x.1 ∧ (faceMate d conn x).2 < x.2) := by
      rcases hle with c | ⟨c, c'⟩
      · exact Or.inl c
      · refine Or.inr ⟨c, lt_of_le_of_ne c' fun c2 => hself (Prod.ext c c2)⟩
    have hne : x.1 ≠ (faceMate d conn x).1 ∨ x.2 ≠ (faceMate d conn x).2 := by omega
    obtain ⟨l, l1, l2⟩ := mine_list hd hm.2
    obtain ⟨l', m1, m2⟩ := other_list hd hm.2 hx.2 ho
    have hi : initFace d conn 2 x.1 x.2 =
        some ([((faceMate d conn x).1, (faceMate d conn x).2, l), (x.1, x.2, l')], o) := by
      rw [initFace, e1, e2]
      simp only [Option.bind_eq_bind, Option.bind_some]
      rw [(code_split hm.2).1, if_pos (by omega), initFace, k1, k2]
      simp only [Option.bind_eq_bind, Option.bind_some]
      rw [(code_split hx.2).1, (code_split hx.2).2, if_neg (by omega), l1, m1]
      simp only [Option.bind_some]
      rw [if_neg (by omega)]
    obtain ⟨s, s1, s2, s3, s4, s5⟩ := treeSide_spec W A hm l2
    obtain ⟨s', r1, r2, r3, r4, r5⟩ := treeSide_spec W A hx m2
    obtain ⟨ft, he, -⟩ := expand_good hd hm.2 hx.2 ho
    rw [hi]
    simp only [Option.bind_eq_bind, Option.bind_some, List.mapM_cons, List.mapM_nil, s1, r1, Option.pure_def]
    have q1 : ∀ i < 2 ^ (d - 1), entry (faceCornersTable d) (faceMate d conn x).2 i = some (s.toChild.getD i 0) := by
      rw [s5]
      exact mapM_range_getD l1
    have q2 : ∀ i < 2 ^ (d - 1), touchingCorner d i (faceMate d conn x).2 x.2 o = some (s'.toChild.getD i 0) := by
      rw [r5]
      exact mapM_range_getD m1
    have q3 : ∀ k ∈ s.toChild, k < 2 ^ d ∧ OnFaceBit s.face k := by
      rw [s5, s4]
      exact fun k hk => (l2.mem k).mp hk
    have q4 : ∀ k ∈ s'.toChild, k < 2 ^ d ∧ OnFaceBit s'.face k := by
      rw [r5, r4]
      exact fun k hk => (m2.mem k).mp hk
    obtain ⟨calls, c1, c2, c3⟩ := faceIterate_spec (G := G) (goff := goff) hd W
      (tree_search (ft := ft) hd hconn W hm.1 hx.1 hm.2 hx.2 ho k1 k2 hne) o true 31 0
      [(s, root d), (s', root d)] (by omega) (by omega)
      ⟨_, _, rfl, ⟨s3, r3, s4, r4, he, q1, q2, root_valid, root_valid, treeSide_root hd0 _, image_root hd hconn hm hx.2 ho k1 k2 hne he⟩,
        q3, q4⟩
      (by
        intro z hz
        simp only [List.mem_cons, List.not_mem_nil, or_false] at hz
        rcases hz with rfl | rfl
        · exact ⟨s2, hroot⟩
        · exact ⟨r2, hroot⟩)
    refine ⟨calls, c1, fun c hc => Or.inr ⟨hself, o, ft, k1, k2, ho, c2 c hc⟩, fun e => ?_⟩
    rw [c3 e]
    unfold pairSides
    rw [if_neg hself]
    simp [s3, s4, r3, r4]

end World

end P4est
