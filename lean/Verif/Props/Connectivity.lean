import Verif.Lemmas.Connectivity
import Verif.Lemmas.Glue
import Verif.Props.Neighbor

/-! # C37, C38: trees connected across faces -/

namespace P4est

open Spec

variable {d : ℕ}

theorem rootLen_eq : rootLen = 2 ^ 30 := rfl

theorem tangent_eq (r : ℕ) (mh v : ℤ) : tangent r mh v = if r = 0 then v else 2 ^ 30 + mh - v := rfl

/-- The normal coordinate by the sides of the two faces. -/
theorem normal_eq {f nf r : ℕ} (h : r = 2 * (f % 2) + nf % 2) (mh v : ℤ) :
    normal r mh v = if f % 2 = 1 then (if nf % 2 = 1 then 2 ^ 30 + (2 ^ 30 + mh) - v else v - 2 ^ 30)
      else (if nf % 2 = 1 then v + 2 ^ 30 else mh - v) := by
  subst h
  have h1 : f % 2 = 0 ∨ f % 2 = 1 := by omega
  have h2 : nf % 2 = 0 ∨ nf % 2 = 1 := by omega
  rcases h1 with h1 | h1 <;> rcases h2 with h2 | h2 <;> rw [h1, h2] <;> rfl

theorem across_normal {f : ℕ} (x : Fin d → ℤ) (i : Fin d) (h : (i : ℕ) = f / 2) :
    across f x i = if f % 2 = 1 then x i + 2 ^ 30 else x i - 2 ^ 30 := by
  unfold across; rw [if_pos h]

theorem across_tangent {f : ℕ} (x : Fin d → ℤ) (i : Fin d) (h : (i : ℕ) ≠ f / 2) : across f x i = x i := by
  unfold across; rw [if_neg h]

/-- The offset of each axis. -/
theorem FTGood.rigid {f nf : ℕ} {ft : FTransform} (h : FTGood d f nf ft) :
    ∃ (a : Fin d → Fin d) (s b : Fin d → ℤ), Function.Injective a ∧ (∀ i, s i = 1 ∨ s i = -1) ∧
      ∀ x i, faceImage ft 0 x i = s i * x (a i) + b i := by
  have h1 : ∀ hd : d = 3, ft.my1 < d := fun hd => (h.my1 hd).1
  have hpos : 0 < d := by rcases h.dim with e | e <;> omega
  refine ⟨fun i => if (i : ℕ) = ft.target0 then ⟨ft.my0, h.my0⟩ else if (i : ℕ) = ft.target2 then ⟨ft.my2, h.my2⟩
      else if hd : d = 3 then ⟨ft.my1, h1 hd⟩ else ⟨0, hpos⟩,
    fun i => if (i : ℕ) = ft.target0 then (if ft.reverse0 = 0 then 1 else -1)
      else if (i : ℕ) = ft.target2 then (if f % 2 = nf % 2 then -1 else 1)
      else (if ft.reverse1 = 0 then 1 else -1),
    fun i => if (i : ℕ) = ft.target0 then (if ft.reverse0 = 0 then 0 else 2 ^ 30)
      else if (i : ℕ) = ft.target2 then (if f % 2 = 1 then (if nf % 2 = 1 then 2 ^ 31 else - 2 ^ 30)
        else (if nf % 2 = 1 then 2 ^ 30 else 0))
      else (if ft.reverse1 = 0 then 0 else 2 ^ 30), ?_, ?_, ?_⟩
  · intro i j hij
    have a1 := h.tne
    have a2 := h.t0
    have a3 := h.t2
    have a4 := h.myne
    have a5 := i.2
    have a6 := j.2
    have b1 := h.my1
    have b2 := h.t1
    have hd := h.dim
    have key := congrArg Fin.val hij
    dsimp only at key
    apply Fin.ext
    split_ifs at key <;> dsimp only at key <;> omega
  · intro i
    dsimp only
    split
    · split <;> simp
    · split
      · split <;> simp
      · split <;> simp
  · intro x i
    revert i
    rw [h.all_target]
    refine ⟨?_, ?_, ?_⟩
    · rw [h.image0, tangent_eq]
      simp only [if_true]
      split <;> ring
    · rw [h.image2, normal_eq h.rev]
      simp only [h.tne.symm, if_false, if_true]
      have e1 : f % 2 = 0 ∨ f % 2 = 1 := by omega
      have e2 : nf % 2 = 0 ∨ nf % 2 = 1 := by omega
      rcases e1 with e1 | e1 <;> rcases e2 with e2 | e2 <;> rw [e1, e2] <;> norm_num <;> ring
    · intro hd
      rw [h.image1 hd, tangent_eq]
      simp only [(h.t1 hd).2.1, (h.t1 hd).2.2, if_false, dif_pos hd]
      split <;> ring

theorem tangent_range (r : ℕ) (v : ℤ) : (0 ≤ tangent r 0 v ∧ tangent r 0 v ≤ 2 ^ 30) ↔ 0 ≤ v ∧ v ≤ 2 ^ 30 := by
  rw [tangent_eq]; split <;> constructor <;> intro h <;> constructor <;> omega

theorem FTGood.into {f nf : ℕ} {ft : FTransform} (h : FTGood d f nf ft) (x : Fin d → ℤ) :
    InCube x ↔ InCube (faceImage ft 0 (across f x)) := by
  unfold InCube
  refine (h.all_my _).trans (Iff.trans ?_ (h.all_target _).symm)
  rw [h.image0, h.image2, tangent_range, normal_eq h.rev]
  rw [across_normal x ⟨ft.my2, h.my2⟩ h.myf, across_tangent x ⟨ft.my0, h.my0⟩ (by rw [← h.myf]; exact h.myne)]
  have key : (∀ hd : d = 3, 0 ≤ faceImage ft 0 (across f x) ⟨ft.target1, (h.t1 hd).1⟩ ∧
      faceImage ft 0 (across f x) ⟨ft.target1, (h.t1 hd).1⟩ ≤ 2 ^ 30) ↔
      ∀ hd : d = 3, 0 ≤ x ⟨ft.my1, (h.my1 hd).1⟩ ∧ x ⟨ft.my1, (h.my1 hd).1⟩ ≤ 2 ^ 30 := by
    refine forall_congr' fun hd => ?_
    rw [h.image1 hd, tangent_range, across_tangent x ⟨ft.my1, (h.my1 hd).1⟩ (by rw [← h.myf]; exact (h.my1 hd).2.2)]
  rw [key]
  refine and_congr_right fun _ => and_congr_left fun _ => ?_
  generalize x ⟨ft.my2, h.my2⟩ = v
  split <;> split <;> constructor <;> intro h <;> constructor <;> omega

theorem FTGood.face {f nf : ℕ} {ft : FTransform} (h : FTGood d f nf ft) (x : Fin d → ℤ) :
    OnFace f x ↔ OnFace nf (faceImage ft 0 x) := by
  have e1 : OnFace f x ↔ ((0 ≤ x ⟨ft.my0, h.my0⟩ ∧ x ⟨ft.my0, h.my0⟩ ≤ 2 ^ 30) ∧
      (∀ hd : d = 3, 0 ≤ x ⟨ft.my1, (h.my1 hd).1⟩ ∧ x ⟨ft.my1, (h.my1 hd).1⟩ ≤ 2 ^ 30) ∧
      x ⟨ft.my2, h.my2⟩ = if f % 2 = 1 then 2 ^ 30 else 0) := by
    unfold OnFace InCube
    rw [h.all_my]
    constructor
    · rintro ⟨⟨a, b, c⟩, e⟩
      exact ⟨a, c, e _ h.myf⟩
    · rintro ⟨a, c, e⟩
      refine ⟨⟨a, by rw [e]; split <;> norm_num, c⟩, fun i hi => ?_⟩
      rw [← h.myf] at hi
      rw [show i = ⟨ft.my2, h.my2⟩ from Fin.ext hi, e]
  have e2 : OnFace nf (faceImage ft 0 x) ↔ ((0 ≤ x ⟨ft.my0, h.my0⟩ ∧ x ⟨ft.my0, h.my0⟩ ≤ 2 ^ 30) ∧
      (∀ hd : d = 3, 0 ≤ x ⟨ft.my1, (h.my1 hd).1⟩ ∧ x ⟨ft.my1, (h.my1 hd).1⟩ ≤ 2 ^ 30) ∧
      faceImage ft 0 x ⟨ft.target2, h.t2⟩ = if nf % 2 = 1 then 2 ^ 30 else 0) := by
    unfold OnFace InCube
    rw [h.all_target, h.image0, tangent_range]
    constructor
    · rintro ⟨⟨a, b, c⟩, e⟩
      refine ⟨a, fun hd => ?_, e _ h.tf⟩
      have := c hd
      rwa [h.image1 hd, tangent_range] at this
    · rintro ⟨a, c, e⟩
      refine ⟨⟨a, by rw [e]; split <;> norm_num, fun hd => ?_⟩, fun i hi => ?_⟩
      · rw [h.image1 hd, tangent_range]; exact c hd
      · rw [← h.tf] at hi
        rw [show i = ⟨ft.target2, h.t2⟩ from Fin.ext hi, e]
  rw [e1, e2, h.image2, normal_eq h.rev]
  refine and_congr_right fun _ => and_congr_right fun _ => ?_
  generalize x ⟨ft.my2, h.my2⟩ = v
  split <;> split <;> constructor <;> intro h <;> omega

/-- Moving back across a face. -/
def unacross (f : ℕ) (x : Fin d → ℤ) : Fin d → ℤ :=
  fun i => if (i : ℕ) = f / 2 then (if f % 2 = 1 then x i - 2 ^ 30 else x i + 2 ^ 30) else x i

theorem across_unacross (f : ℕ) (x : Fin d → ℤ) : across f (unacross f x) = x := by
  funext i
  unfold across unacross
  by_cases h : (i : ℕ) = f / 2
  · simp only [if_pos h]; split <;> ring
  · simp only [if_neg h]

theorem unacross_across (f : ℕ) (x : Fin d → ℤ) : unacross f (across f x) = x := by
  funext i
  unfold across unacross
  by_cases h : (i : ℕ) = f / 2
  · simp only [if_pos h]; split <;> ring
  · simp only [if_neg h]

theorem FTGood.own {f nf : ℕ} {ft : FTransform} (h : FTGood d f nf ft) (x : Fin d → ℤ) :
    InCube x ↔ ∃ y, InCube y ∧ faceImage ft 0 x = across nf y := by
  have e : (∃ y, InCube y ∧ faceImage ft 0 x = across nf y) ↔ InCube (unacross nf (faceImage ft 0 x)) := by
    constructor
    · rintro ⟨y, hy, e⟩; rw [e, unacross_across]; exact hy
    · intro hy; exact ⟨_, hy, (across_unacross _ _).symm⟩
  rw [e]
  unfold InCube
  refine (h.all_my _).trans (Iff.trans ?_ (h.all_target _).symm)
  have k0 : unacross nf (faceImage ft 0 x) ⟨ft.target0, h.t0⟩ = tangent ft.reverse0 0 (x ⟨ft.my0, h.my0⟩) := by
    unfold unacross
    rw [if_neg (by rw [← h.tf]; exact h.tne), h.image0]
  have k2 : unacross nf (faceImage ft 0 x) ⟨ft.target2, h.t2⟩ =
      if nf % 2 = 1 then normal ft.reverse2 0 (x ⟨ft.my2, h.my2⟩) - 2 ^ 30 else normal ft.reverse2 0 (x ⟨ft.my2, h.my2⟩) + 2 ^ 30 := by
    unfold unacross
    rw [if_pos h.tf, h.image2]
  have k1 : (∀ hd : d = 3, 0 ≤ unacross nf (faceImage ft 0 x) ⟨ft.target1, (h.t1 hd).1⟩ ∧
      unacross nf (faceImage ft 0 x) ⟨ft.target1, (h.t1 hd).1⟩ ≤ 2 ^ 30) ↔
      ∀ hd : d = 3, 0 ≤ x ⟨ft.my1, (h.my1 hd).1⟩ ∧ x ⟨ft.my1, (h.my1 hd).1⟩ ≤ 2 ^ 30 := by
    refine forall_congr' fun hd => ?_
    have : unacross nf (faceImage ft 0 x) ⟨ft.target1, (h.t1 hd).1⟩ = tangent ft.reverse1 0 (x ⟨ft.my1, (h.my1 hd).1⟩) := by
      unfold unacross
      rw [if_neg (by rw [← h.tf]; exact (h.t1 hd).2.2), h.image1 hd]
    rw [this, tangent_range]
  rw [k0, tangent_range, k1, k2, normal_eq h.rev]
  refine and_congr_right fun _ => and_congr_left fun _ => ?_
  generalize x ⟨ft.my2, h.my2⟩ = v
  split <;> split <;> constructor <;> intro h <;> constructor <;> omega

/-- All face pairs and orientations give a proper transformation, with corners and hand as they should be. -/
theorem expand_all3 : ∀ f nf : Fin 6, ∀ o : Fin 4, ∃ ft ∈ expandFaceInternal 3 f nf o, FTGood 3 f nf ft ∧
    (∀ k k' : Fin 8, (f ≤ nf → faceCorner 3 f 0 = some k ∧ faceCorner 3 nf o = some k') →
      (nf < f → faceCorner 3 f o = some k ∧ faceCorner 3 nf 0 = some k') →
      faceImage ft 0 (cornerPoint k) = (cornerPoint k' : Fin 3 → ℤ)) ∧
    Matrix.det (Matrix.of fun i j : Fin 3 => faceImage ft 0 (Pi.single i 1) j - faceImage ft 0 0 j) = 1 := by
  simp only [Matrix.det_fin_three, Matrix.of_apply]
  decide +kernel

theorem expand_all2 : ∀ f nf : Fin 4, ∀ o : Fin 2, ∃ ft ∈ expandFaceInternal 2 f nf o, FTGood 2 f nf ft ∧
    (∀ k k' : Fin 4, (f ≤ nf → faceCorner 2 f 0 = some k ∧ faceCorner 2 nf o = some k') →
      (nf < f → faceCorner 2 f o = some k ∧ faceCorner 2 nf 0 = some k') →
      faceImage ft 0 (cornerPoint k) = (cornerPoint k' : Fin 2 → ℤ)) := by
  decide +kernel

theorem expand_good (hd : d = 2 ∨ d = 3) {f nf o : ℕ} (hf : f < 2 * d) (hnf : nf < 2 * d) (ho : o < 2 ^ (d - 1)) :
    ∃ ft, expandFaceInternal d f nf o = some ft ∧ FTGood d f nf ft := by
  rcases hd with rfl | rfl
  · obtain ⟨ft, h1, h2, _⟩ := expand_all2 ⟨f, hf⟩ ⟨nf, hnf⟩ ⟨o, ho⟩
    exact ⟨ft, h1, h2⟩
  · obtain ⟨ft, h1, h2, _⟩ := expand_all3 ⟨f, hf⟩ ⟨nf, hnf⟩ ⟨o, ho⟩
    exact ⟨ft, h1, h2⟩

theorem faceCorner_lt {d f j k : ℕ} (h : faceCorner d f j = some k) : k < 2 ^ d := by
  unfold faceCorner at h
  have := List.mem_of_getElem? h
  rw [List.mem_filter, List.mem_range] at this
  exact this.1

theorem expand_corner (hd : d = 2 ∨ d = 3) {f nf o : ℕ} (hf : f < 2 * d) (hnf : nf < 2 * d) (ho : o < 2 ^ (d - 1))
    {ft : FTransform} (he : expandFaceInternal d f nf o = some ft) (k k' : ℕ)
    (h1 : f ≤ nf → faceCorner d f 0 = some k ∧ faceCorner d nf o = some k')
    (h2 : nf < f → faceCorner d f o = some k ∧ faceCorner d nf 0 = some k') :
    faceImage ft 0 (cornerPoint k) = (cornerPoint k' : Fin d → ℤ) := by
  have hk : k < 2 ^ d ∧ k' < 2 ^ d := by
    rcases Nat.lt_or_ge nf f with h | h
    · exact ⟨faceCorner_lt (h2 h).1, faceCorner_lt (h2 h).2⟩
    · exact ⟨faceCorner_lt (h1 h).1, faceCorner_lt (h1 h).2⟩
  rcases hd with rfl | rfl
  · obtain ⟨ft', e1, _, e2⟩ := expand_all2 ⟨f, hf⟩ ⟨nf, hnf⟩ ⟨o, ho⟩
    have : ft' = ft := Option.some.inj (e1.symm.trans he)
    subst this
    exact e2 ⟨k, hk.1⟩ ⟨k', hk.2⟩ h1 h2
  · obtain ⟨ft', e1, _, e2, _⟩ := expand_all3 ⟨f, hf⟩ ⟨nf, hnf⟩ ⟨o, ho⟩
    have : ft' = ft := Option.some.inj (e1.symm.trans he)
    subst this
    exact e2 ⟨k, hk.1⟩ ⟨k', hk.2⟩ h1 h2

theorem expand_glues (hd : d = 2 ∨ d = 3) {f nf o : ℕ} (hf : f < 2 * d) (hnf : nf < 2 * d) (ho : o < 2 ^ (d - 1))
    {ft : FTransform} (he : expandFaceInternal d f nf o = some ft) :
    FTGood d f nf ft ∧ Glues f nf o (faceImage ft 0 : (Fin d → ℤ) → Fin d → ℤ) := by
  obtain ⟨ft', e, h⟩ := expand_good hd hf hnf ho
  have : ft' = ft := Option.some.inj (e.symm.trans he)
  subst this
  refine ⟨h, ⟨h.rigid, h.face, h.into, h.own, fun k k' h1 h2 => expand_corner hd hf hnf ho he k k' h1 h2, fun h3 => ?_⟩⟩
  subst h3
  obtain ⟨ft'', e1, _, _, e2⟩ := expand_all3 ⟨f, hf⟩ ⟨nf, hnf⟩ ⟨o, ho⟩
  have : ft'' = ft' := Option.some.inj (e1.symm.trans he)
  subst this
  exact e2

/-- The transformation back undoes the assignments. -/
def FTInverse (d : ℕ) (ft ft' : FTransform) : Prop :=
  ft'.my2 = ft.target2 ∧ ft'.target2 = ft.my2 ∧
  ((ft'.my0 = ft.target0 ∧ ft'.target0 = ft.my0 ∧ ft'.reverse0 = ft.reverse0 ∧
    (d = 3 → ft'.my1 = ft.target1 ∧ ft'.target1 = ft.my1 ∧ ft'.reverse1 = ft.reverse1)) ∨
   (d = 3 ∧ ft'.my0 = ft.target1 ∧ ft'.target0 = ft.my1 ∧ ft'.reverse0 = ft.reverse1 ∧
    ft'.my1 = ft.target0 ∧ ft'.target1 = ft.my0 ∧ ft'.reverse1 = ft.reverse0))

instance (d : ℕ) (ft ft' : FTransform) : Decidable (FTInverse d ft ft') := by unfold FTInverse; infer_instance

theorem expand_inverse3 : ∀ f nf : Fin 6, ∀ o : Fin 4, ∀ ft ∈ expandFaceInternal 3 f nf o,
    ∀ ft' ∈ expandFaceInternal 3 nf f o, FTInverse 3 ft ft' := by
  decide +kernel

theorem expand_inverse2 : ∀ f nf : Fin 4, ∀ o : Fin 2, ∀ ft ∈ expandFaceInternal 2 f nf o,
    ∀ ft' ∈ expandFaceInternal 2 nf f o, FTInverse 2 ft ft' := by
  decide +kernel

theorem tangent_tangent (r : ℕ) (mh v : ℤ) : tangent r mh (tangent r mh v) = v := by
  rw [tangent_eq, tangent_eq]; split <;> ring

theorem normal_normal {f nf r r' : ℕ} (h : r = 2 * (f % 2) + nf % 2) (h' : r' = 2 * (nf % 2) + f % 2) (mh v : ℤ) :
    normal r' mh (normal r mh v) = v := by
  rw [normal_eq h, normal_eq h']; split <;> split <;> ring

theorem FTInverse.image {f nf : ℕ} {ft ft' : FTransform} (h : FTGood d f nf ft) (h' : FTGood d nf f ft')
    (hi : FTInverse d ft ft') (mh : ℤ) (x : Fin d → ℤ) : faceImage ft' mh (faceImage ft mh x) = x := by
  funext i
  revert i
  rw [h'.all_target, h'.image0, h'.image2]
  obtain ⟨i1, i2, i3⟩ := hi
  have c0 : ∀ (a : ℕ) (ha : a < d), a = ft.target0 → faceImage ft mh x ⟨a, ha⟩ = tangent ft.reverse0 mh (x ⟨ft.my0, h.my0⟩) := by
    intro a ha e; subst e; exact h.image0 mh x
  have c1 : ∀ hd : d = 3, ∀ (a : ℕ) (ha : a < d), a = ft.target1 →
      faceImage ft mh x ⟨a, ha⟩ = tangent ft.reverse1 mh (x ⟨ft.my1, (h.my1 hd).1⟩) := by
    intro hd a ha e; subst e; exact h.image1 hd mh x
  have c2 : ∀ (a : ℕ) (ha : a < d), a = ft.target2 → faceImage ft mh x ⟨a, ha⟩ = normal ft.reverse2 mh (x ⟨ft.my2, h.my2⟩) := by
    intro a ha e; subst e; exact h.image2 mh x
  have n2 : normal ft'.reverse2 mh (faceImage ft mh x ⟨ft'.my2, h'.my2⟩) = x ⟨ft'.target2, h'.t2⟩ := by
    rw [c2 _ _ i1, normal_normal h.rev h'.rev]
    congr 1; exact Fin.ext i2.symm
  rcases i3 with ⟨a0, a1, a2, a3⟩ | ⟨hd, a0, a1, a2, a3, a4, a5⟩
  · refine ⟨?_, n2, fun hd => ?_⟩
    · rw [c0 _ _ a0, a2, tangent_tangent]
      congr 1; exact Fin.ext a1.symm
    · obtain ⟨b0, b1, b2⟩ := a3 hd
      rw [h'.image1 hd, c1 hd _ _ b0, b2, tangent_tangent]
      congr 1; exact Fin.ext b1.symm
  · refine ⟨?_, n2, fun _ => ?_⟩
    · rw [c1 hd _ _ a0, a2, tangent_tangent]
      congr 1; exact Fin.ext a1.symm
    · rw [h'.image1 hd, c0 _ _ a3, a5, tangent_tangent]
      congr 1; exact Fin.ext a4.symm

theorem expand_inverse (hd : d = 2 ∨ d = 3) {f nf o : ℕ} (hf : f < 2 * d) (hnf : nf < 2 * d) (ho : o < 2 ^ (d - 1))
    {ft ft' : FTransform} (he : expandFaceInternal d f nf o = some ft) (he' : expandFaceInternal d nf f o = some ft') :
    FTInverse d ft ft' := by
  rcases hd with rfl | rfl
  · exact expand_inverse2 ⟨f, hf⟩ ⟨nf, hnf⟩ ⟨o, ho⟩ ft he ft' he'
  · exact expand_inverse3 ⟨f, hf⟩ ⟨nf, hnf⟩ ⟨o, ho⟩ ft he ft' he'

/-! ### Quadrants -/

/-- One coordinate of a quadrant of side `h` inside the tree. -/
def InAxis (h v : ℤ) : Prop := h ∣ v ∧ 0 ≤ v ∧ v < 2 ^ 30

theorem inAxis_mirror {h v : ℤ} (hh : 0 < h) (hR : h ∣ 2 ^ 30) : InAxis h (2 ^ 30 + -h - v) ↔ InAxis h v := by
  have key : ∀ v, InAxis h v → InAxis h (2 ^ 30 + -h - v) := by
    rintro v ⟨⟨k, rfl⟩, h2, h3⟩
    obtain ⟨m, hm⟩ := hR
    refine ⟨⟨m - 1 - k, by rw [hm]; ring⟩, ?_, by omega⟩
    rw [hm] at h3 ⊢
    have : k < m := lt_of_mul_lt_mul_left h3 hh.le
    have : h * (k + 1) ≤ h * m := Int.mul_le_mul_of_nonneg_left (by omega) hh.le
    have e : h * (k + 1) = h * k + h := by ring
    omega
  refine ⟨fun k => ?_, key v⟩
  have := key _ k
  rwa [show 2 ^ 30 + -h - (2 ^ 30 + -h - v) = v by ring] at this

theorem inAxis_tangent {h v : ℤ} (hh : 0 < h) (hR : h ∣ 2 ^ 30) (r : ℕ) : InAxis h (tangent r (-h) v) ↔ InAxis h v := by
  rw [tangent_eq]; split
  · rfl
  · exact inAxis_mirror hh hR

theorem side_dvd {q : Quad d} (h : q.level ≤ 30) : side q ∣ 2 ^ 30 := pow_dvd_pow _ (by omega)

theorem valid_axis {q : Quad d} (hl : q.level ≤ 29) : Valid q ↔ ∀ i, InAxis (side q) (q.c i) := by
  unfold Valid Aligned InRoot InAxis
  constructor
  · rintro ⟨_, ⟨_, h1⟩, h2⟩ i; exact ⟨h1 i, h2 i⟩
  · intro h; exact ⟨hl, ⟨by omega, fun i => (h i).1⟩, fun i => (h i).2⟩

/-- The quadrant beyond the face arrives inside the neighbor. -/
theorem FTGood.valid_into {f nf : ℕ} {ft : FTransform} (h : FTGood d f nf ft) (q : Quad d) (hl : q.level ≤ 29) :
    Valid q ↔ Valid ⟨faceImage ft (-side q) (across f q.c), q.level⟩ := by
  have hh := side_pos q
  have hR := side_dvd (show q.level ≤ 30 by omega)
  rw [valid_axis hl, valid_axis (show (⟨faceImage ft (-side q) (across f q.c), q.level⟩ : Quad d).level ≤ 29 from hl)]
  refine (h.all_my _).trans (Iff.trans ?_ (h.all_target _).symm)
  show _ ↔ InAxis (side q) (faceImage ft (-side q) (across f q.c) _) ∧ InAxis (side q) (faceImage ft (-side q) (across f q.c) _) ∧
    ∀ hd : d = 3, InAxis (side q) (faceImage ft (-side q) (across f q.c) _)
  rw [h.image0, h.image2, inAxis_tangent hh hR, normal_eq h.rev]
  rw [across_normal q.c ⟨ft.my2, h.my2⟩ h.myf, across_tangent q.c ⟨ft.my0, h.my0⟩ (by rw [← h.myf]; exact h.myne)]
  have key : (∀ hd : d = 3, InAxis (side q) (faceImage ft (-side q) (across f q.c) ⟨ft.target1, (h.t1 hd).1⟩)) ↔
      ∀ hd : d = 3, InAxis (side q) (q.c ⟨ft.my1, (h.my1 hd).1⟩) := by
    refine forall_congr' fun hd => ?_
    rw [h.image1 hd, inAxis_tangent hh hR, across_tangent q.c ⟨ft.my1, (h.my1 hd).1⟩ (by rw [← h.myf]; exact (h.my1 hd).2.2)]
  rw [key]
  refine and_congr_right fun _ => and_congr_left fun _ => ?_
  generalize q.c ⟨ft.my2, h.my2⟩ = v
  split <;> split
  · rw [show (2 : ℤ) ^ 30 + (2 ^ 30 + -side q) - (v + 2 ^ 30) = 2 ^ 30 + -side q - v by ring, inAxis_mirror hh hR]
  · rw [show v + 2 ^ 30 - 2 ^ 30 = v by ring]
  · rw [show v - 2 ^ 30 + 2 ^ 30 = v by ring]
  · rw [show -side q - (v - 2 ^ 30) = 2 ^ 30 + -side q - v by ring, inAxis_mirror hh hR]

theorem FTGood.dvd {f nf : ℕ} {ft : FTransform} (h : FTGood d f nf ft) {s : ℤ} (hR : s ∣ 2 ^ 30) {x : Fin d → ℤ}
    (hx : ∀ i, s ∣ x i) : ∀ i, s ∣ faceImage ft (-s) x i := by
  have hn : s ∣ -s := (dvd_refl s).neg_right
  have ht : ∀ r v, s ∣ v → s ∣ tangent r (-s) v := by
    intro r v hv
    rw [tangent_eq]; split
    · exact hv
    · exact ((hR.add hn).sub hv)
  rw [h.all_target]
  refine ⟨by rw [h.image0]; exact ht _ _ (hx _), ?_, fun hd => by rw [h.image1 hd]; exact ht _ _ (hx _)⟩
  rw [h.image2, normal_eq h.rev]
  split <;> split
  · exact (hR.add (hR.add hn)).sub (hx _)
  · exact (hx _).sub hR
  · exact (hx _).add hR
  · exact hn.sub (hx _)

/-- The points of the transformed quadrant are the transformed points. -/
theorem FTGood.box {f nf : ℕ} {ft : FTransform} (h : FTGood d f nf ft) (q : Quad d) (x : Fin d → ℤ) :
    x ∈ Box q ↔ faceImage ft 0 x ∈ Box (⟨faceImage ft (-side q) q.c, q.level⟩ : Quad d) := by
  unfold Box
  simp only [Set.mem_ofPred_eq]
  refine (h.all_my _).trans (Iff.trans ?_ (h.all_target _).symm)
  show _ ↔ (faceImage ft (-side q) q.c _ ≤ _ ∧ _ ≤ faceImage ft (-side q) q.c _ + side q) ∧
    (faceImage ft (-side q) q.c _ ≤ _ ∧ _ ≤ faceImage ft (-side q) q.c _ + side q) ∧
    ∀ hd : d = 3, (faceImage ft (-side q) q.c _ ≤ _ ∧ _ ≤ faceImage ft (-side q) q.c _ + side q)
  have ht : ∀ r (a v s : ℤ), (a ≤ v ∧ v ≤ a + s) ↔ tangent r (-s) a ≤ tangent r 0 v ∧ tangent r 0 v ≤ tangent r (-s) a + s := by
    intro r a v s
    rw [tangent_eq, tangent_eq]; split <;> constructor <;> intro h <;> constructor <;> omega
  rw [h.image0, h.image0, h.image2, h.image2, ← ht, normal_eq h.rev, normal_eq h.rev]
  have key : (∀ hd : d = 3, faceImage ft (-side q) q.c ⟨ft.target1, (h.t1 hd).1⟩ ≤ faceImage ft 0 x ⟨ft.target1, (h.t1 hd).1⟩ ∧
      faceImage ft 0 x ⟨ft.target1, (h.t1 hd).1⟩ ≤ faceImage ft (-side q) q.c ⟨ft.target1, (h.t1 hd).1⟩ + side q) ↔
      ∀ hd : d = 3, q.c ⟨ft.my1, (h.my1 hd).1⟩ ≤ x ⟨ft.my1, (h.my1 hd).1⟩ ∧ x ⟨ft.my1, (h.my1 hd).1⟩ ≤ q.c ⟨ft.my1, (h.my1 hd).1⟩ + side q := by
    refine forall_congr' fun hd => ?_
    rw [h.image1 hd, h.image1 hd, ← ht]
  rw [key]
  refine and_congr_right fun _ => and_congr_left fun _ => ?_
  generalize x ⟨ft.my2, h.my2⟩ = v
  generalize q.c ⟨ft.my2, h.my2⟩ = a
  split <;> split <;> constructor <;> intro h <;> constructor <;> omega

theorem FTGood.quadrant {f nf : ℕ} {ft : FTransform} (h : FTGood d f nf ft) (mem : Fin d → ℤ) {q : Quad d} (hl : q.level ≤ 29) :
    quadrantTransformFace mem q ft = some ⟨faceImage ft (-side q) q.c, q.level⟩ := by
  unfold quadrantTransformFace
  rw [h.assign, if_neg (show q.level ≠ MAXLEVEL by unfold MAXLEVEL; omega), qlen_eq_side]
  rfl

theorem expand_code {d nf o f : ℕ} (hnf : nf < 2 * d) : expandFaceTransform d f (nf + 2 * d * o) = expandFaceInternal d f nf o := by
  unfold expandFaceTransform
  rw [Nat.add_mul_mod_self_left, Nat.mod_eq_of_lt hnf, Nat.add_mul_div_left _ _ (by omega), Nat.div_eq_of_lt hnf, Nat.zero_add]

theorem quad_across {f : ℕ} {q : Quad d} : (∃ q0 : Quad d, Valid q0 ∧ q = ⟨across f q0.c, q0.level⟩) ↔
    Valid (⟨unacross f q.c, q.level⟩ : Quad d) := by
  constructor
  · rintro ⟨q0, h, rfl⟩
    dsimp only
    rw [unacross_across]; exact h
  · intro h
    refine ⟨_, h, ?_⟩
    dsimp only
    rw [across_unacross]

/-- C37. For each face `f` of a tree, each face `nf` of its neighbor and each orientation `o`,
p4est_expand_face_transform yields a transformation such that p4est_coordinates_transform_face is the map
that glues the trees together.  p4est_quadrant_transform_face takes a quadrant to the quadrant of the same
size that consists of the transformed points.  It takes the quadrants beyond face `f` to those inside the
neighbor and the quadrants inside the tree to those beyond face `nf` of the neighbor.  The transformation
of the connection in the other direction, from `nf` to `f` with the same orientation, takes points and
quadrants back.  Nothing depends on what the output contained before. -/
theorem C37_transform_face (hd : d = 2 ∨ d = 3) (f nf o : ℕ) (hf : f < 2 * d) (hnf : nf < 2 * d) (ho : o < 2 ^ (d - 1)) :
    ∃ ft ft' T, expandFaceTransform d f (nf + 2 * d * o) = some ft ∧ expandFaceTransform d nf (f + 2 * d * o) = some ft' ∧
      Glues f nf o T ∧
      (∀ mem x, coordinatesTransformFace mem x ft = some (T x)) ∧
      (∀ mem x, coordinatesTransformFace mem (T x) ft' = some x) ∧
      ∀ q : Quad d, q.level ≤ 29 → ∃ r : Quad d, (∀ mem, quadrantTransformFace mem q ft = some r) ∧ r.level = q.level ∧
        Box r = T '' Box q ∧ (Aligned q → Aligned r) ∧
        ((∃ q0 : Quad d, Valid q0 ∧ q = ⟨across f q0.c, q0.level⟩) ↔ Valid r) ∧
        (Valid q ↔ ∃ r0 : Quad d, Valid r0 ∧ r = ⟨across nf r0.c, r0.level⟩) ∧
        ∀ mem, quadrantTransformFace mem r ft' = some q := by
  obtain ⟨ft, he, h⟩ := expand_good hd hf hnf ho
  obtain ⟨ft', he', h'⟩ := expand_good hd hnf hf ho
  have hi := expand_inverse hd hf hnf ho he he'
  have hi' := expand_inverse hd hnf hf ho he' he
  refine ⟨ft, ft', faceImage ft 0, by rw [expand_code hnf, he], by rw [expand_code hf, he'], (expand_glues hd hf hnf ho he).2,
    fun mem x => h.assign mem 0 x, fun mem x => ?_, fun q hl => ⟨⟨faceImage ft (-side q) q.c, q.level⟩, fun mem => h.quadrant mem hl, rfl,
      ?_, ?_, ?_, ?_, fun mem => ?_⟩⟩
  · unfold coordinatesTransformFace
    rw [h'.assign, hi.image h h']
  · ext y
    constructor
    · intro hy
      refine ⟨faceImage ft' 0 y, ?_, hi'.image h' h 0 y⟩
      rw [h.box q, hi'.image h' h]; exact hy
    · rintro ⟨x, hx, rfl⟩
      exact (h.box q x).mp hx
  · rintro ⟨h1, h2⟩
    exact ⟨h1, h.dvd (side_dvd h1) h2⟩
  · rw [quad_across]
    have := h.valid_into (⟨unacross f q.c, q.level⟩ : Quad d) hl
    rw [this]
    show Valid (⟨faceImage ft (-side q) (across f (unacross f q.c)), q.level⟩ : Quad d) ↔ _
    rw [across_unacross]
  · rw [quad_across]
    have := h'.valid_into (⟨unacross nf (faceImage ft (-side q) q.c), q.level⟩ : Quad d) hl
    rw [this]
    show _ ↔ Valid (⟨faceImage ft' (-side q) (across nf (unacross nf (faceImage ft (-side q) q.c))), q.level⟩ : Quad d)
    rw [across_unacross, hi.image h h']
  · rw [h'.quadrant mem (show (⟨faceImage ft (-side q) q.c, q.level⟩ : Quad d).level ≤ 29 from hl)]
    show some (⟨faceImage ft' (-side q) (faceImage ft (-side q) q.c), q.level⟩ : Quad d) = _
    rw [hi.image h h']

/-- A concrete case: across face 1 of a tree to face 4 of its neighbor with orientation 2, the quadrant just
outside arrives just inside the lower z face. -/
example : expandFaceTransform 3 1 (4 + 6 * 2) = some ⟨1, 2, 0, 1, 0, 2, 1, 0, 2⟩ ∧
    quadrantTransformFace (fun _ => 7) (⟨![2 ^ 30, 0, 2 ^ 28], 2⟩ : Quad 3) ⟨1, 2, 0, 1, 0, 2, 1, 0, 2⟩ =
      some ⟨![2 ^ 28, 3 * 2 ^ 28, 0], 2⟩ := by
  decide +kernel

/-- Affine maps along axes are equal if they agree on the origin and the unit vectors. -/
theorem sameFrame_eq {T T' : (Fin d → ℤ) → Fin d → ℤ} {a a' : Fin d → Fin d} {s s' b b' : Fin d → ℤ}
    (hs : ∀ i, s i = 1 ∨ s i = -1) (hT : ∀ x i, T x i = s i * x (a i) + b i) (hT' : ∀ x i, T' x i = s' i * x (a' i) + b' i)
    (h : sameFrame T T') : T = T' := by
  funext x i
  have h0 := h.1 i
  rw [hT, hT'] at h0
  simp only [Pi.zero_apply, mul_zero, zero_add] at h0
  have h1 := h.2 (a i) i
  rw [hT, hT', Pi.single_eq_same] at h1
  have hne : a' i = a i := by
    by_contra hne
    rw [Pi.single_eq_of_ne hne] at h1
    rcases hs i with e | e <;> rw [e] at h1 <;> omega
  rw [hne, Pi.single_eq_same] at h1
  rw [hT, hT', hne, h0, show s i = s' i by omega]

theorem orientCorners_some2 : ∀ f nf : Fin 4, ∀ o : Fin 2, ∃ k ∈ (orientCorners 2 f nf o).1, ∃ k' ∈ (orientCorners 2 f nf o).2, True := by
  decide +kernel

theorem orientCorners_some3 : ∀ f nf : Fin 6, ∀ o : Fin 4, ∃ k ∈ (orientCorners 3 f nf o).1, ∃ k' ∈ (orientCorners 3 f nf o).2, True := by
  decide +kernel

theorem orientCorners_some (hd : d = 2 ∨ d = 3) {f nf o : ℕ} (hf : f < 2 * d) (hnf : nf < 2 * d) (ho : o < 2 ^ (d - 1)) :
    ∃ k k', orientCorners d f nf o = (some k, some k') := by
  rcases hd with rfl | rfl
  · obtain ⟨k, h1, k', h2, _⟩ := orientCorners_some2 ⟨f, hf⟩ ⟨nf, hnf⟩ ⟨o, ho⟩
    exact ⟨k, k', Prod.ext h1 h2⟩
  · obtain ⟨k, h1, k', h2, _⟩ := orientCorners_some3 ⟨f, hf⟩ ⟨nf, hnf⟩ ⟨o, ho⟩
    exact ⟨k, k', Prod.ext h1 h2⟩

/-- A gluing map is the one of the code. -/
theorem Spec.Glues.eq_image (hd : d = 2 ∨ d = 3) {f nf o : ℕ} (hf : f < 2 * d) (hnf : nf < 2 * d) (ho : o < 2 ^ (d - 1))
    {ft : FTransform} (he : expandFaceInternal d f nf o = some ft) {T : (Fin d → ℤ) → Fin d → ℤ} (h : Glues f nf o T) :
    T = faceImage ft 0 := by
  obtain ⟨a, s, b, ha, hs, hT⟩ := h.rigid
  -- points of the face
  let P : (Fin d → ℤ) → Fin d → ℤ := fun v j => if (j : ℕ) = f / 2 then (if f % 2 = 1 then 2 ^ 30 else 0) else v j
  have hP : ∀ v : Fin d → ℤ, (∀ j, 0 ≤ v j ∧ v j ≤ 2 ^ 30) → OnFace f (P v) := by
    intro v hv
    refine ⟨fun j => ?_, fun j hj => ?_⟩
    · by_cases hj : (j : ℕ) = f / 2
      · simp only [P, if_pos hj]
        split <;> norm_num
      · simp only [P, if_neg hj]
        exact hv j
    · simp only [P, if_pos hj]
  have hP0 := (h.face _).mp (hP (fun _ => 0) (fun _ => by norm_num))
  have hP1 := (h.face _).mp (hP (fun _ => 2 ^ 30) (fun _ => by norm_num))
  have hn : ∀ i : Fin d, (i : ℕ) = nf / 2 → (a i : ℕ) = f / 2 := by
    intro i hi
    by_contra hne
    have e0 := hP0.2 i hi
    have e1 := hP1.2 i hi
    rw [hT] at e0 e1
    have k0 : P (fun _ => 0) (a i) = 0 := if_neg hne
    have k1 : P (fun _ => 2 ^ 30) (a i) = 2 ^ 30 := if_neg hne
    rw [k0] at e0
    rw [k1] at e1
    rcases hs i with e | e <;> rw [e] at e0 e1 <;> omega
  have hn' : ∀ i : Fin d, (a i : ℕ) = f / 2 → (i : ℕ) = nf / 2 := by
    intro i hi
    have := hn ⟨nf / 2, by omega⟩ rfl
    have := ha (Fin.ext (hi.trans this.symm) : a i = a ⟨nf / 2, by omega⟩)
    rw [this]
  have hform : T = glueForm f nf a (fun i => s i = 1) := by
    funext x i
    unfold glueForm
    rw [hT]
    by_cases hi : (i : ℕ) = nf / 2
    · rw [if_pos hi, normal_eq rfl]
      have e0 := hP0.2 i hi
      rw [hT] at e0
      have k0 : P (fun _ => 0) (a i) = if f % 2 = 1 then 2 ^ 30 else 0 := if_pos (hn i hi)
      rw [k0] at e0
      have i0 := (h.into (fun _ => 0)).mp (fun _ => by norm_num) i
      have i1 := (h.into (fun _ => 2 ^ 30)).mp (fun _ => by norm_num) i
      rw [hT, across_normal _ _ (hn i hi)] at i0 i1
      generalize x (a i) = v
      have g1 : f % 2 = 0 ∨ f % 2 = 1 := by omega
      have g2 : nf % 2 = 0 ∨ nf % 2 = 1 := by omega
      rcases g1 with g1 | g1 <;> rcases g2 with g2 | g2 <;> rcases hs i with e | e <;>
        simp only [g1, g2, e, if_true, if_false, zero_ne_one] at e0 i0 i1 ⊢ <;> omega
    · rw [if_neg hi]
      have hai : (a i : ℕ) ≠ f / 2 := fun e => hi (hn' i e)
      have e0 := hP0.1 i
      have e1 := hP1.1 i
      rw [hT] at e0 e1
      have k0 : P (fun _ => 0) (a i) = 0 := if_neg hai
      have k1 : P (fun _ => 2 ^ 30) (a i) = 2 ^ 30 := if_neg hai
      rw [k0] at e0
      rw [k1] at e1
      generalize x (a i) = v
      rcases hs i with e | e <;> rw [e] at e0 e1 ⊢ <;> simp <;> omega
  have hmatch : matchAxes f nf a := ⟨fun i => ⟨hn i, hn' i⟩, fun i j e => ha e⟩
  obtain ⟨k, k', hk⟩ := orientCorners_some hd hf hnf ho
  have hcorner : goodCorner f nf o T := by
    unfold goodCorner
    rw [hk]
    dsimp only
    intro i
    rw [h.corner k k']
    · intro hle
      unfold orientCorners at hk
      rw [if_pos hle] at hk
      exact ⟨congrArg Prod.fst hk, congrArg Prod.snd hk⟩
    · intro hlt
      unfold orientCorners at hk
      rw [if_neg (by omega)] at hk
      exact ⟨congrArg Prod.fst hk, congrArg Prod.snd hk⟩
  have hsame : sameFrame T (faceImage ft 0) := by
    have hh := h.hand
    rw [hform] at hcorner hh ⊢
    rcases hd with rfl | rfl
    · exact glue_all2 ⟨f, hf⟩ ⟨nf, hnf⟩ a hmatch ⟨o, ho⟩ ft he _ hcorner
    · exact glue_all3 ⟨f, hf⟩ ⟨nf, hnf⟩ a hmatch ⟨o, ho⟩ ft he _ hcorner (hh rfl)
  obtain ⟨_, _, _, _, _, hT'⟩ := (expand_glues hd hf hnf ho he).1.rigid
  exact sameFrame_eq hs hT hT' hsame

/-- C37. The documentation determines the map: there is exactly one way to glue two trees together at given
faces with a given orientation. -/
theorem C37_unique (hd : d = 2 ∨ d = 3) (f nf o : ℕ) (hf : f < 2 * d) (hnf : nf < 2 * d) (ho : o < 2 ^ (d - 1))
    (T T' : (Fin d → ℤ) → Fin d → ℤ) (h : Glues f nf o T) (h' : Glues f nf o T') : T = T' := by
  obtain ⟨ft, he, _⟩ := expand_good hd hf hnf ho
  rw [h.eq_image hd hf hnf ho he, h'.eq_image hd hf hnf ho he]

/-! ### Corners and edges -/

theorem corner_all3 : ∀ f nf : Fin 6, ∀ o : Fin 4, ∀ ft ∈ expandFaceInternal 3 f nf o, ∀ j : Fin 4,
    ∃ c ∈ faceCorner 3 f j, ∃ j' ∈ faceNeighborFaceCorner 3 j f nf o, ∃ c' ∈ faceNeighborCorner 3 c f nf o,
      faceCorner 3 nf j' = some c' ∧ faceImage ft 0 (cornerPoint c) = (cornerPoint c' : Fin 3 → ℤ) ∧
      faceNeighborFaceCorner 3 j' nf f o = some ↑j ∧ faceNeighborCorner 3 c' nf f o = some c := by
  decide +kernel

theorem corner_all2 : ∀ f nf : Fin 4, ∀ o : Fin 2, ∀ ft ∈ expandFaceInternal 2 f nf o, ∀ j : Fin 2,
    ∃ c ∈ faceCorner 2 f j, ∃ j' ∈ faceNeighborFaceCorner 2 j f nf o, ∃ c' ∈ faceNeighborCorner 2 c f nf o,
      faceCorner 2 nf j' = some c' ∧ faceImage ft 0 (cornerPoint c) = (cornerPoint c' : Fin 2 → ℤ) ∧
      faceNeighborFaceCorner 2 j' nf f o = some ↑j ∧ faceNeighborCorner 2 c' nf f o = some c := by
  decide +kernel

/-- C38. Let two trees be connected across faces `f` and `nf` with orientation `o`, and let `T` be the map of the
coordinates.  p4est_connectivity_face_neighbor_corner takes each corner `c` of the tree on face `f` to the
corner of the neighbor with the coordinates `T` of `c`; it is on face `nf`, and there it has the number that
p4est_connectivity_face_neighbor_face_corner gives for the number of `c` on `f`.  The functions for the
connection in the other direction lead back. -/
theorem C38_face_corners (hd : d = 2 ∨ d = 3) (f nf o : ℕ) (hf : f < 2 * d) (hnf : nf < 2 * d) (ho : o < 2 ^ (d - 1))
    (T : (Fin d → ℤ) → Fin d → ℤ) (hT : Glues f nf o T) (j : ℕ) (hj : j < 2 ^ (d - 1)) :
    ∃ c j' c', faceCorner d f j = some c ∧ faceNeighborFaceCorner d j f nf o = some j' ∧
      faceNeighborCorner d c f nf o = some c' ∧ faceCorner d nf j' = some c' ∧ T (cornerPoint c) = cornerPoint c' ∧
      faceNeighborFaceCorner d j' nf f o = some j ∧ faceNeighborCorner d c' nf f o = some c := by
  obtain ⟨ft, he, _⟩ := expand_good hd hf hnf ho
  rw [hT.eq_image hd hf hnf ho he]
  rcases hd with rfl | rfl
  · obtain ⟨c, h1, j', h2, c', h3, h4, h5, h6, h7⟩ := corner_all2 ⟨f, hf⟩ ⟨nf, hnf⟩ ⟨o, ho⟩ ft he ⟨j, hj⟩
    exact ⟨c, j', c', h1, h2, h3, h4, h5, h6, h7⟩
  · obtain ⟨c, h1, j', h2, c', h3, h4, h5, h6, h7⟩ := corner_all3 ⟨f, hf⟩ ⟨nf, hnf⟩ ⟨o, ho⟩ ft he ⟨j, hj⟩
    exact ⟨c, j', c', h1, h2, h3, h4, h5, h6, h7⟩

/-- The corners at the ends of edge `e` of a cube. -/
def Spec.edgeEnds (e : ℕ) : List ℕ :=
  (List.range 8).filter fun k => decide (∀ i : Fin 3, (edgeDir e i = 1 → k.testBit i = true) ∧ (edgeDir e i = -1 → k.testBit i = false))

/-- The number of the `j`-th edge on face `f` of a cube. -/
def Spec.faceEdge (f j : ℕ) : Option ℕ :=
  ((List.range 12).filter fun e => decide (∀ k ∈ edgeEnds e, k.testBit (f / 2) = (f % 2 == 1)))[j]?

theorem edge_all : ∀ f nf : Fin 6, ∀ o : Fin 4, ∀ ft ∈ expandFaceInternal 3 f nf o, ∀ j : Fin 4,
    ∃ e ∈ faceEdge f j, ∃ j' ∈ faceNeighborFaceEdge j f nf o, ∃ e' ∈ faceNeighborEdge e f nf o,
      faceEdge nf j' = some e' ∧
      (∀ k ∈ edgeEnds e, ∃ k' ∈ edgeEnds e', faceImage ft 0 (cornerPoint k) = (cornerPoint k' : Fin 3 → ℤ)) ∧
      faceNeighborFaceEdge j' nf f o = some ↑j ∧ faceNeighborEdge e' nf f o = some e := by
  decide +kernel

/-- C38. Likewise for the edges in three dimensions: p8est_connectivity_face_neighbor_edge takes each edge of
the tree on face `f` to the edge of the neighbor between the same two points, with the number that
p8est_connectivity_face_neighbor_face_edge gives, and the reverse connection leads back. -/
theorem C38_face_edges (f nf o : ℕ) (hf : f < 6) (hnf : nf < 6) (ho : o < 4)
    (T : (Fin 3 → ℤ) → Fin 3 → ℤ) (hT : Glues f nf o T) (j : ℕ) (hj : j < 4) :
    ∃ e j' e', faceEdge f j = some e ∧ faceNeighborFaceEdge j f nf o = some j' ∧
      faceNeighborEdge e f nf o = some e' ∧ faceEdge nf j' = some e' ∧
      (∀ k ∈ edgeEnds e, ∃ k' ∈ edgeEnds e', T (cornerPoint k) = cornerPoint k') ∧
      faceNeighborFaceEdge j' nf f o = some j ∧ faceNeighborEdge e' nf f o = some e := by
  obtain ⟨ft, he, _⟩ := expand_good (d := 3) (Or.inr rfl) hf hnf ho
  rw [hT.eq_image (Or.inr rfl) hf hnf ho he]
  obtain ⟨e, h1, j', h2, e', h3, h4, h5, h6, h7⟩ := edge_all ⟨f, hf⟩ ⟨nf, hnf⟩ ⟨o, ho⟩ ft he ⟨j, hj⟩
  exact ⟨e, j', e', h1, h2, h3, h4, h5, h6, h7⟩

/-- A concrete case: edges 4, 6, 8, 10 and corners 0, 2, 4, 6 lie on face 0. -/
example : (List.range 4).map (faceEdge 0) = [some 4, some 6, some 8, some 10] ∧ edgeEnds 10 = [2, 6] ∧
    (List.range 4).map (faceCorner 3 0) = [some 0, some 2, some 4, some 6] ∧
    (List.range 4).map (fun j => faceNeighborFaceCorner 3 j 0 3 2) = [some 2, some 3, some 0, some 1] := by
  decide +kernel

end P4est
