import Verif.Props.Canonical

/-! # C75: transformations between a tree and its neighbors -/

namespace P4est
open Spec

variable {d : ℕ}

/-! ### The reverse transformation -/

theorem updates_other {ι κ : Type*} [DecidableEq κ] (p : ι → κ) (v : ι → ℤ) (l : List ι) (z : κ → ℤ) (k : κ) (hk : ∀ i ∈ l, p i ≠ k) :
    l.foldl (fun z i => Function.update z (p i) (v i)) z k = z k := by
  induction l generalizing z with
  | nil => rfl
  | cons a l ih =>
    rw [List.foldl_cons, ih _ fun i hi => hk i (by simp [hi]), Function.update_of_ne (hk a (by simp)).symm]

theorem updates_at {ι κ : Type*} [DecidableEq κ] (p : ι → κ) (hp : Function.Injective p) (v : ι → ℤ) (l : List ι) (hl : l.Nodup)
    (z : κ → ℤ) (i : ι) (hi : i ∈ l) : l.foldl (fun z i => Function.update z (p i) (v i)) z (p i) = v i := by
  induction l generalizing z with
  | nil => simp at hi
  | cons a l ih =>
    rw [List.foldl_cons]
    rw [List.nodup_cons] at hl
    rcases List.mem_cons.mp hi with rfl | hi
    · rw [updates_other]
      · rw [Function.update_self]
      · intro j hj he
        rw [hp he] at hj
        exact hl.1 hj
    · exact ih hl.2 _ hi

/-- A transformation with a permutation of the axes and signs can be undone. -/
theorem realizes_of (n : NeighborTransform d) (hp : Function.Injective n.perm) (hs : ∀ i, n.sign i = 1 ∨ n.sign i = -1)
    {T : (Fin d → ℤ) → Fin d → ℤ} (hT : ∀ x, neighborCoordinates n x = T x) : Realizes n T := by
  have hrev : ∀ mem y i, neighborCoordinatesReverse mem n y (n.perm i) =
      n.sign i * (y i - n.originNeighbor i) + n.originSelf (n.perm i) := fun mem y i =>
    updates_at n.perm hp (fun i => n.sign i * (y i - n.originNeighbor i) + n.originSelf (n.perm i)) (List.finRange d)
      (List.nodup_finRange d) mem i (List.mem_finRange i)
  have hsur : Function.Surjective n.perm := Finite.surjective_of_injective hp
  refine ⟨hT, fun mem x => ?_, fun mem y => ?_⟩
  · funext k
    obtain ⟨i, rfl⟩ := hsur k
    rw [hrev, ← hT]
    unfold neighborCoordinates
    rcases hs i with h | h <;> rw [h] <;> ring
  · rw [← hT]
    funext i
    unfold neighborCoordinates
    rw [hrev]
    rcases hs i with h | h <;> rw [h] <;> ring

/-! ### Faces -/

theorem axisOf_some {a : ℕ} (h : a < d) : axisOf d a = some ⟨a, h⟩ := dif_pos h

theorem FTGood.inj {f nf : ℕ} {ft : FTransform} (h : FTGood d f nf ft) {p : Fin d → Fin d} (h0 : p ⟨ft.target0, h.t0⟩ = ⟨ft.my0, h.my0⟩)
    (h2 : p ⟨ft.target2, h.t2⟩ = ⟨ft.my2, h.my2⟩)
    (h1 : ∀ hd : d = 3, p ⟨ft.target1, (h.t1 hd).1⟩ = ⟨ft.my1, (h.my1 hd).1⟩) : Function.Injective p := by
  have e0 : (⟨ft.my0, h.my0⟩ : Fin d) ≠ ⟨ft.my2, h.my2⟩ := fun e => h.myne (congrArg Fin.val e)
  have e1 : ∀ hd : d = 3, (⟨ft.my1, (h.my1 hd).1⟩ : Fin d) ≠ ⟨ft.my0, h.my0⟩ := fun hd e => (h.my1 hd).2.1 (congrArg Fin.val e)
  have e2 : ∀ hd : d = 3, (⟨ft.my1, (h.my1 hd).1⟩ : Fin d) ≠ ⟨ft.my2, h.my2⟩ := fun hd e => (h.my1 hd).2.2 (congrArg Fin.val e)
  have key : ∀ i j : Fin d, p i = p j → i = j := by
    rw [h.all_target]
    refine ⟨?_, ?_, fun hd => ?_⟩ <;> rw [h.all_target]
    · exact ⟨fun _ => rfl, fun e => absurd (h0.symm.trans (e.trans h2)) e0, fun hd e => absurd (h0.symm.trans (e.trans (h1 hd))) (e1 hd).symm⟩
    · exact ⟨fun e => absurd (h2.symm.trans (e.trans h0)) e0.symm, fun _ => rfl, fun hd e => absurd (h2.symm.trans (e.trans (h1 hd))) (e2 hd).symm⟩
    · exact ⟨fun e => absurd ((h1 hd).symm.trans (e.trans h0)) (e1 hd), fun e => absurd ((h1 hd).symm.trans (e.trans h2)) (e2 hd), fun _ _ => rfl⟩
  exact fun i j => key i j

theorem FTGood.ext {f nf : ℕ} {ft : FTransform} (h : FTGood d f nf ft) {p q : Fin d → ℤ}
    (h0 : p ⟨ft.target0, h.t0⟩ = q ⟨ft.target0, h.t0⟩) (h2 : p ⟨ft.target2, h.t2⟩ = q ⟨ft.target2, h.t2⟩)
    (h1 : ∀ hd : d = 3, p ⟨ft.target1, (h.t1 hd).1⟩ = q ⟨ft.target1, (h.t1 hd).1⟩) : p = q :=
  funext ((h.all_target _).mpr ⟨h0, h2, h1⟩)

/-- The transformation that is made from a face transformation. -/
theorem faceToNeighbor_spec {f nf : ℕ} {ft : FTransform} (h : FTGood d f nf ft) (m : NeighborTransform d) :
    ∃ n, faceToNeighbor ft m = some n ∧ n.neighborType = m.neighborType ∧ n.neighbor = m.neighbor ∧ n.indexSelf = m.indexSelf ∧
      n.indexNeighbor = m.indexNeighbor ∧ Realizes n (faceImage ft 0) := by
  have hr : ∃ z, normalPart ft.reverse2 = some z ∧ (z.1 = 1 ∨ z.1 = -1) ∧
      ∀ v, z.1 * (v - z.2.1) + z.2.2 = normal ft.reverse2 0 v := by
    have h1 : f % 2 = 0 ∨ f % 2 = 1 := by omega
    have h2 : nf % 2 = 0 ∨ nf % 2 = 1 := by omega
    rcases h1 with h1 | h1 <;> rcases h2 with h2 | h2 <;> rw [h.rev, h1, h2]
    · exact ⟨_, rfl, Or.inr rfl, fun v => by show -1 * (v - 0) + 0 = 0 - v; ring⟩
    · exact ⟨_, rfl, Or.inl rfl, fun v => by show 1 * (v - 0) + rootLen = v + rootLen; ring⟩
    · exact ⟨_, rfl, Or.inl rfl, fun v => by show 1 * (v - rootLen) + 0 = v - rootLen; ring⟩
    · exact ⟨_, rfl, Or.inr rfl, fun v => by show -1 * (v - rootLen) + rootLen = rootLen + (rootLen + 0) - v; ring⟩
  obtain ⟨z, z1, z2, z3⟩ := hr
  have htan : ∀ (r : ℕ) (v : ℤ), (if r ≠ 0 then -1 else 1) * (v - rootLen / 2) + rootLen / 2 = tangent r 0 v := by
    intro r v
    rw [tangent_eq, rootLen_eq]
    by_cases hr : r = 0
    · rw [if_neg (by simpa using hr), if_pos hr]; ring
    · rw [if_pos hr, if_neg hr]; norm_num; ring
  have hsgn : ∀ r : ℕ, (if r ≠ 0 then (-1 : ℤ) else 1) = 1 ∨ (if r ≠ 0 then (-1 : ℤ) else 1) = -1 := by
    intro r; split <;> simp
  have d0 : (⟨ft.target0, h.t0⟩ : Fin d) ≠ ⟨ft.target2, h.t2⟩ := fun e => h.tne (congrArg Fin.val e)
  have e0 : (⟨ft.my0, h.my0⟩ : Fin d) ≠ ⟨ft.my2, h.my2⟩ := fun e => h.myne (congrArg Fin.val e)
  unfold faceToNeighbor tangentSecond tangentPart
  rw [axisOf_some h.my0, axisOf_some h.t0, axisOf_some h.my2, axisOf_some h.t2, z1]
  by_cases h3 : d = 3
  · obtain ⟨m1, m2, m3⟩ := h.my1 h3
    obtain ⟨t1, t2, t3⟩ := h.t1 h3
    have d1 : (⟨ft.target1, t1⟩ : Fin d) ≠ ⟨ft.target0, h.t0⟩ := fun e => t2 (congrArg Fin.val e)
    have d2 : (⟨ft.target1, t1⟩ : Fin d) ≠ ⟨ft.target2, h.t2⟩ := fun e => t3 (congrArg Fin.val e)
    have e1 : (⟨ft.my1, m1⟩ : Fin d) ≠ ⟨ft.my0, h.my0⟩ := fun e => m2 (congrArg Fin.val e)
    have e2 : (⟨ft.my1, m1⟩ : Fin d) ≠ ⟨ft.my2, h.my2⟩ := fun e => m3 (congrArg Fin.val e)
    rw [axisOf_some m1, axisOf_some t1]
    simp only [Option.bind_eq_bind, Option.bind_some]
    rw [if_pos h3]
    simp only [Option.bind_some]
    refine ⟨_, rfl, rfl, rfl, rfl, rfl, realizes_of _ ?_ ?_ ?_⟩
    · refine h.inj ?_ ?_ fun _ => ?_ <;>
        simp only [Function.update_self, Function.update_of_ne, ne_eq, d0, d1, d2, d0.symm, d1.symm, d2.symm, e0, e1, e2, e0.symm,
          e1.symm, e2.symm, not_false_eq_true]
    · rw [h.all_target]
      refine ⟨?_, ?_, fun _ => ?_⟩ <;>
        simp only [Function.update_self, Function.update_of_ne, ne_eq, d0, d1, d2, d0.symm, d1.symm, d2.symm, not_false_eq_true, z2, hsgn]
    · intro x
      refine h.ext ?_ ?_ fun _ => ?_
      · rw [h.image0]
        unfold neighborCoordinates
        simp only [Function.update_self, Function.update_of_ne, ne_eq, d0, d1, d2, d0.symm, d1.symm, d2.symm, e0, e1, e2, e0.symm,
          e1.symm, e2.symm, not_false_eq_true]
        exact htan _ _
      · rw [h.image2]
        unfold neighborCoordinates
        simp only [Function.update_self, Function.update_of_ne, ne_eq, d0, d1, d2, d0.symm, d1.symm, d2.symm, e0, e1, e2, e0.symm,
          e1.symm, e2.symm, not_false_eq_true]
        exact z3 _
      · rw [h.image1 h3]
        unfold neighborCoordinates
        simp only [Function.update_self, Function.update_of_ne, ne_eq, d0, d1, d2, d0.symm, d1.symm, d2.symm, e0, e1, e2, e0.symm,
          e1.symm, e2.symm, not_false_eq_true]
        exact htan _ _
  · simp only [Option.bind_eq_bind, Option.bind_some]
    rw [if_neg h3]
    simp only [Option.bind_some]
    refine ⟨_, rfl, rfl, rfl, rfl, rfl, realizes_of _ ?_ ?_ ?_⟩
    · refine h.inj ?_ ?_ fun hc => absurd hc h3 <;>
        simp only [Function.update_self, Function.update_of_ne, ne_eq, d0, d0.symm, not_false_eq_true]
    · rw [h.all_target]
      refine ⟨?_, ?_, fun hc => absurd hc h3⟩ <;>
        simp only [Function.update_self, Function.update_of_ne, ne_eq, d0, d0.symm, not_false_eq_true, z2, hsgn]
    · intro x
      refine h.ext ?_ ?_ fun hc => absurd hc h3
      · rw [h.image0]
        unfold neighborCoordinates
        simp only [Function.update_self, Function.update_of_ne, ne_eq, d0, d0.symm, e0, e0.symm, not_false_eq_true]
        exact htan _ _
      · rw [h.image2]
        unfold neighborCoordinates
        simp only [Function.update_self, Function.update_of_ne, ne_eq, d0, d0.symm, e0, e0.symm, not_false_eq_true]
        exact z3 _

/-- The transformation to the tree at face `f`. -/
def Spec.FaceTransformOf (conn : FaceConn) (t f : ℕ) (n : NeighborTransform d) : Prop :=
  ∃ nf o T, nf < 2 * d ∧ conn.treeToTree[2 * d * t + f]? = some n.neighbor ∧ conn.treeToFace[2 * d * t + f]? = some (nf + 2 * d * o) ∧
    (n.neighbor ≠ t ∨ nf ≠ f) ∧ n.neighborType = 1 ∧ n.indexSelf = f ∧ n.indexNeighbor = nf ∧ Glues f nf o T ∧ Realizes n T

/-- The face is on the boundary of the domain. -/
def Spec.BoundaryFace (d : ℕ) (conn : FaceConn) (t f : ℕ) : Prop :=
  conn.treeToTree[2 * d * t + f]? = some t ∧ conn.treeToFace[2 * d * t + f]? = some f

theorem faceNeighborTransform_spec (hd : d = 2 ∨ d = 3) {conn : FaceConn} (hconn : FaceConsistent d conn) {t f : ℕ}
    (ht : t < conn.numTrees) (hf : f < 2 * d) (mem : NeighborTransform d) :
    (BoundaryFace d conn t f ∧ faceNeighborTransform mem conn t f = some []) ∨
    (¬ BoundaryFace d conn t f ∧ ∃ n, faceNeighborTransform mem conn t f = some [n] ∧ FaceTransformOf conn t f n) := by
  obtain ⟨t', nf, o, e1, e2, -, hnf, ho⟩ := hconn.entries ht hf
  unfold faceNeighborTransform findFaceTransform BoundaryFace
  rw [e1, e2]
  simp only [Option.bind_eq_bind, Option.bind_some]
  rw [code_mod hnf, code_div hnf]
  by_cases hb : t' = t ∧ nf = f
  · left
    rw [if_pos hb]
    obtain ⟨rfl, rfl⟩ := hb
    have := hconn.boundary _ _ o ht hf e1 e2
    subst this
    exact ⟨by simp, rfl⟩
  · right
    rw [if_neg hb]
    obtain ⟨ft, he, hg⟩ := expand_good hd hf hnf ho
    rw [he]
    simp only [Option.map_some, Option.bind_some]
    obtain ⟨n, h1, h2, h3, h4, h5, h6⟩ := faceToNeighbor_spec hg
      { mem with neighborType := 1, neighbor := t', indexSelf := f, indexNeighbor := nf }
    rw [h1]
    refine ⟨?_, n, rfl, nf, o, _, hnf, by rw [h3]; exact e1, e2, ?_, h2, h4, h5, (expand_glues hd hf hnf ho he).2, h6⟩
    · rintro ⟨k1, k2⟩
      rw [Option.some.injEq] at k1 k2
      refine hb ⟨k1, ?_⟩
      have h3 := congrArg (· % (2 * d)) k2
      simpa only [code_mod hnf, Nat.mod_eq_of_lt hf] using h3
    · rw [h3]
      dsimp only
      by_contra hc
      push Not at hc
      exact hb hc

/-- The transformation to the tree itself. -/
def Spec.SelfTransformOf (t : ℕ) (n : NeighborTransform d) : Prop := n.neighborType = 0 ∧ n.neighbor = t ∧ Realizes n id

theorem selfTransform_spec (t : ℕ) : SelfTransformOf t (selfTransform d t) := by
  refine ⟨rfl, rfl, realizes_of _ Function.injective_id (fun _ => Or.inl rfl) fun x => ?_⟩
  funext i
  show 1 * (x i - 0) + 0 = x i
  ring

/-- C75. For the tree itself, p4est_connectivity_get_neighbor_transforms yields the identity. -/
theorem C75_self (t : ℕ) : ∃ n : NeighborTransform d, neighborTransformsSelf d t = [n] ∧ SelfTransformOf t n :=
  ⟨_, rfl, selfTransform_spec t⟩

/-- C75. For a face on the boundary of the domain, p4est_connectivity_get_neighbor_transforms yields the identity only.  For each other
face it yields in addition the transformation to the tree that is connected there, with the numbers of the two faces.
p4est_neighbor_transform_coordinates then is the map that glues the trees together, for all coordinates, and
p4est_neighbor_transform_coordinates_reverse is its inverse.  Nothing depends on what the array contained before. -/
theorem C75_face (hd : d = 2 ∨ d = 3) (conn : FaceConn) (hconn : FaceConsistent d conn) (t f : ℕ) (ht : t < conn.numTrees)
    (hf : f < 2 * d) (mem : NeighborTransform d) :
    ∃ n, SelfTransformOf t n ∧
      ((BoundaryFace d conn t f ∧ neighborTransformsFace mem conn t f = some [n]) ∨
       (¬ BoundaryFace d conn t f ∧ ∃ n', neighborTransformsFace mem conn t f = some [n, n'] ∧ FaceTransformOf conn t f n')) := by
  refine ⟨_, selfTransform_spec t, ?_⟩
  unfold neighborTransformsFace
  rcases faceNeighborTransform_spec hd hconn ht hf mem with ⟨h1, h2⟩ | ⟨h1, n, h2, h3⟩
  · exact Or.inl ⟨h1, by rw [h2]; rfl⟩
  · exact Or.inr ⟨h1, n, by rw [h2]; rfl, h3⟩

/-! ### Corners -/

/-- The transformation to the tree at corner `c`: the corner of the one is the corner of the other, the cube beyond the corner of the tree
becomes the neighbor, and the tree becomes the cube beyond the corner of the neighbor; the axes are not exchanged. -/
def Spec.CornerTransformOf (cc : CornerConn) (t c : ℕ) (n : NeighborTransform 2) : Prop :=
  ∃ T, n.neighborType = 2 ∧ n.indexSelf = c ∧ n.indexNeighbor < 4 ∧ SameCorner cc (t, c) (n.neighbor, n.indexNeighbor) ∧ Realizes n T ∧
    T (cornerPoint c) = cornerPoint n.indexNeighbor ∧ (∀ x, InCube x ↔ InCube (T (acrossCorner c x))) ∧
    (∀ x, InCube x ↔ ∃ y, InCube y ∧ T x = acrossCorner n.indexNeighbor y) ∧ ∀ x y i, x i = y i → T x i = T y i

theorem cornerToNeighbor_spec {cc : CornerConn} {t c : ℕ} {e : ℕ × ℕ} (he : e.2 < 4) (hs : SameCorner cc (t, c) e) :
    CornerTransformOf cc t c (cornerToNeighbor e c) := by
  have hv : ∀ (x : Fin 2 → ℤ) i, neighborCoordinates (cornerToNeighbor e c) x i =
      if c.testBit i then (if e.2.testBit i then 2 ^ 31 - x i else x i - 2 ^ 30) else (if e.2.testBit i then x i + 2 ^ 30 else - x i) := by
    intro x i
    unfold neighborCoordinates cornerToNeighbor
    dsimp only [id]
    rw [Nat.testBit_xor, rootLen_eq]
    cases c.testBit i <;> cases e.2.testBit i <;> simp <;> ring
  refine ⟨neighborCoordinates (cornerToNeighbor e c), rfl, rfl, he, hs, realizes_of _ Function.injective_id ?_ fun _ => rfl, ?_, ?_, ?_, ?_⟩
  · intro i
    show (if _ then (1 : ℤ) else -1) = 1 ∨ (if _ then (1 : ℤ) else -1) = -1
    split <;> simp
  · funext i
    rw [hv]
    show _ = if e.2.testBit i then 2 ^ 30 else 0
    unfold cornerPoint
    split <;> split <;> norm_num
  · intro x
    unfold InCube
    refine forall_congr' fun i => ?_
    rw [hv]
    unfold acrossCorner
    split <;> split <;> omega
  · intro x
    constructor
    · intro hx
      refine ⟨fun i => if e.2.testBit i then neighborCoordinates (cornerToNeighbor e c) x i - 2 ^ 30
        else neighborCoordinates (cornerToNeighbor e c) x i + 2 ^ 30, fun i => ?_, ?_⟩
      · have := hx i
        dsimp only
        rw [hv]
        split <;> split <;> omega
      · funext i
        show _ = if e.2.testBit i then _ else _
        dsimp only
        split <;> ring
    · rintro ⟨y, hy, hT⟩ i
      have h1 := congrFun hT i
      have h2 := hy i
      rw [hv] at h1
      change _ = if e.2.testBit i then y i + 2 ^ 30 else y i - 2 ^ 30 at h1
      split at h1 <;> split at h1 <;> omega
  · intro x y i hxy
    rw [hv, hv, hxy]

/-- C75. For a corner in two dimensions, p4est_connectivity_get_neighbor_transforms yields the identity, the transformations of the two
faces at the corner that are not on the boundary, and transformations to trees that the corner tables list as the same corner.  The list
has an entry for each corner of a tree that is listed as the same, unless it is the corner itself or is met across one of the two
faces. -/
theorem C75_corner (conn : FaceConn) (hconn : FaceConsistent 2 conn) (cc : CornerConn) (hcc : CornerConsistent conn.numTrees cc) (t c : ℕ)
    (ht : t < conn.numTrees) (hc : c < 4) (mem : NeighborTransform 2) :
    ∃ n l l' ls, neighborTransformsCorner mem conn cc t c = some (n :: l ++ l' ++ ls) ∧ SelfTransformOf t n ∧
      ((BoundaryFace 2 conn t (faceOf c 0) ∧ l = []) ∨
        (¬ BoundaryFace 2 conn t (faceOf c 0) ∧ ∃ m, l = [m] ∧ FaceTransformOf conn t (faceOf c 0) m)) ∧
      ((BoundaryFace 2 conn t (faceOf c 1) ∧ l' = []) ∨
        (¬ BoundaryFace 2 conn t (faceOf c 1) ∧ ∃ m, l' = [m] ∧ FaceTransformOf conn t (faceOf c 1) m)) ∧
      (∀ m ∈ ls, CornerTransformOf cc t c m) ∧
      ∀ t' c', SameCorner cc (t, c) (t', c') → (∃ m ∈ ls, m.neighbor = t' ∧ m.indexNeighbor = c') ∨ (t', c') = (t, c) ∨
        StepFace (d := 2) conn (t, cornerPoint c) (t', cornerPoint c') := by
  have hd : (2 : ℕ) = 2 ∨ (2 : ℕ) = 3 := Or.inl rfl
  have q0 : entry cornerFacesTable c 0 = some (faceOf c 0) := entry_faceOf hc 0
  have q1 : entry cornerFacesTable c 1 = some (faceOf c 1) := entry_faceOf hc 1
  obtain ⟨cta, k1, k2, k3⟩ := findCornerTransform_spec hconn hcc ht hc
  have face : ∀ i, ∃ l, faceNeighborTransform mem conn t (faceOf c i) = some l ∧
      ((BoundaryFace 2 conn t (faceOf c i) ∧ l = []) ∨
        (¬ BoundaryFace 2 conn t (faceOf c i) ∧ ∃ m, l = [m] ∧ FaceTransformOf conn t (faceOf c i) m)) := by
    intro i
    rcases faceNeighborTransform_spec hd hconn ht (faceOf_lt c i) mem with ⟨h1, h2⟩ | ⟨h1, n, h2, h3⟩
    · exact ⟨_, h2, Or.inl ⟨h1, rfl⟩⟩
    · exact ⟨_, h2, Or.inr ⟨h1, n, rfl, h3⟩⟩
  obtain ⟨l, h1, h2⟩ := face 0
  obtain ⟨l', h3, h4⟩ := face 1
  refine ⟨selfTransform 2 t, l, l', cta.map fun ct => cornerToNeighbor ct c, ?_, selfTransform_spec t, h2, h4, ?_, ?_⟩
  · unfold neighborTransformsCorner
    rw [q0, q1]
    simp only [Option.bind_eq_bind, Option.bind_some]
    rw [h1, h3, k1]
    rfl
  · intro m hm
    obtain ⟨e, he, rfl⟩ := List.mem_map.mp hm
    have hsc := k2 e he
    refine cornerToNeighbor_spec ?_ hsc
    obtain ⟨k, hk, -, hl⟩ := hsc
    exact (hcc.listed hl).2
  · intro t' c' hs
    rcases k3 _ hs with h | h | h
    · exact Or.inl ⟨_, List.mem_map.mpr ⟨_, h, rfl⟩, rfl, rfl⟩
    · exact Or.inr (Or.inl h)
    · exact Or.inr (Or.inr (acrossFace_step hc h))

/-- Two squares that are connected with a turn, and two by two squares.  At the middle of the latter there are four
transformations: the identity, two of faces and one of the corner. -/
example : FaceConsistent 2 twoSquares ∧ ¬ BoundaryFace 2 twoSquares 0 1 ∧ BoundaryFace 2 twoSquares 0 0 ∧
    (neighborTransformsFace (selfTransform 2 9) twoSquares 0 1).map (fun l => l.map fun n =>
        (n.neighborType, n.neighbor, neighborCoordinates n ![7, 5])) =
      some [(0, 0, ![7, 5]), (1, 1, ![2 ^ 30 - 5, 2 ^ 31 - 7])] :=
  ⟨twoSquares_consistent, by unfold BoundaryFace; decide, by unfold BoundaryFace; decide, by decide +kernel⟩

example : FaceConsistent 2 fourSquares ∧ CornerConsistent 4 fourCorners ∧ SameCorner fourCorners (0, 3) (3, 0) ∧
    (neighborTransformsCorner (selfTransform 2 9) fourSquares fourCorners 0 3).map (fun l => l.map fun n =>
        (n.neighborType, n.neighbor, neighborCoordinates n ![2 ^ 30, 7])) =
      some [(0, 0, ![2 ^ 30, 7]), (1, 1, ![0, 7]), (1, 2, ![2 ^ 30, 7 - 2 ^ 30]), (2, 3, ![0, 7 - 2 ^ 30])] :=
  ⟨fourSquares_consistent, fourSquares_corners, ⟨0, by decide, rfl, 0, 4, 3, rfl, rfl, by decide, by decide, rfl, rfl⟩, by decide +kernel⟩

end P4est
