import Verif.Lemmas.CornerTargets
import Verif.Model.Canonical
import Verif.Spec.Canonical

/-! # Canonical coordinates -/

namespace P4est
open Spec

variable {d : ℕ} {conn : FaceConn} {cc : CornerConn}

/-! ### Steps -/

theorem stepFace_tree (hconn : FaceConsistent d conn) {x y : ℕ × (Fin d → ℤ)} (h : StepFace conn x y) :
    x.1 < conn.numTrees ∧ y.1 < conn.numTrees := by
  obtain ⟨f, nf, o, T, hf, hnf, h1, h2, -⟩ := h
  have hl := (List.getElem?_eq_some_iff.mp h1).1
  rw [hconn.trees] at hl
  have ht : x.1 < conn.numTrees := by
    by_contra hc
    have := Nat.mul_le_mul_left (2 * d) (not_lt.mp hc)
    omega
  exact ⟨ht, (hconn.range _ _ _ _ ht hf h1 h2).1⟩

/-- The map of a connection and the map back. -/
theorem glue_back (hd : d = 2 ∨ d = 3) {f nf o : ℕ} (hf : f < 2 * d) (hnf : nf < 2 * d) (ho : o < 2 ^ (d - 1))
    {T : (Fin d → ℤ) → Fin d → ℤ} (hT : Glues f nf o T) : ∃ T', Glues nf f o T' ∧ ∀ x, T' (T x) = x := by
  obtain ⟨ft, ft', T1, h1, h2, h3, -, h5, -⟩ := C37_transform_face hd f nf o hf hnf ho
  obtain ⟨gt, gt', T2, g1, g2, g3, g4, -⟩ := C37_transform_face hd nf f o hnf hf ho
  rw [h2, Option.some.injEq] at g1
  subst g1
  refine ⟨T2, g3, fun x => ?_⟩
  have e := C37_unique hd f nf o hf hnf ho _ _ hT h3
  subst e
  have := h5 x x
  rw [g4, Option.some.injEq] at this
  exact this

theorem entry_orient (hconn : FaceConsistent d conn) {t f t' nf o : ℕ} (ht : t < conn.numTrees) (hf : f < 2 * d)
    (h1 : conn.treeToTree[2 * d * t + f]? = some t') (h2 : conn.treeToFace[2 * d * t + f]? = some (nf + 2 * d * o)) :
    o < 2 ^ (d - 1) := by
  have := (hconn.range _ _ _ _ ht hf h1 h2).2
  by_contra hc
  have := Nat.mul_le_mul_left (2 * d) (not_lt.mp hc)
  omega

theorem stepFace_symm (hd : d = 2 ∨ d = 3) (hconn : FaceConsistent d conn) {x y : ℕ × (Fin d → ℤ)} (h : StepFace conn x y) :
    StepFace conn y x := by
  have ht := (stepFace_tree hconn h).1
  obtain ⟨f, nf, o, T, hf, hnf, h1, h2, h3, h4, h5, h6⟩ := h
  obtain ⟨b1, b2⟩ := hconn.back _ _ _ _ _ ht hf hnf h1 h2
  obtain ⟨T', g1, g2⟩ := glue_back hd hf hnf (entry_orient hconn ht hf h1 h2) h4
  refine ⟨nf, f, o, T', hnf, hf, b1, b2, ?_, g1, ?_, ?_⟩
  · rcases h3 with h3 | h3
    · exact Or.inl (Ne.symm h3)
    · exact Or.inr (Ne.symm h3)
  · rw [h6]; exact (h4.face _).mp h5
  · rw [h6, g2]

theorem onFace_iff {f : ℕ} {x : Fin d → ℤ} (hx : InCube x) (hf : f < 2 * d) :
    OnFace f x ↔ x ⟨f / 2, by omega⟩ = if f % 2 = 1 then 2 ^ 30 else 0 := by
  constructor
  · rintro ⟨-, h⟩
    exact h _ rfl
  · intro h
    refine ⟨hx, fun i hi => ?_⟩
    rw [← h]
    congr 1
    exact Fin.ext hi

theorem fin_arg (x : Fin d → ℤ) {a b : ℕ} (h : a = b) (ha : a < d) (hb : b < d) : x ⟨a, ha⟩ = x ⟨b, hb⟩ := by subst h; rfl

/-- Points with one contact are connected to points with one contact. -/
theorem stepFace_offEdges (hd : d = 2 ∨ d = 3) (hconn : FaceConsistent d conn) {x y : ℕ × (Fin d → ℤ)} (h : StepFace conn x y)
    (hx : OffEdges x.2) : OffEdges y.2 := by
  have ht := (stepFace_tree hconn h).1
  obtain ⟨f, nf, o, T, hf, hnf, h1, h2, h3, h4, h5, h6⟩ := h
  have ho := entry_orient hconn ht hf h1 h2
  obtain ⟨ft, he, hg⟩ := expand_good hd hf hnf ho
  have hxc := h5.1
  have hy := (h4.face _).mp h5
  have hT := h4.eq_image hd hf hnf ho he
  rw [← h6] at hy
  have hyc := hy.1
  have htan : ∀ (r : ℕ) (v : ℤ), tangent r 0 v = 0 ∨ tangent r 0 v = 2 ^ 30 → v = 0 ∨ v = 2 ^ 30 := by
    intro r v hv
    rw [tangent_eq] at hv
    split at hv <;> omega
  have hbad : ∀ (a : ℕ) (ha : a < d), a ≠ f / 2 → ¬ (x.2 ⟨a, ha⟩ = 0 ∨ x.2 ⟨a, ha⟩ = 2 ^ 30) := by
    intro a ha hne hv
    rcases hv with hv | hv
    · have h7 : OnFace (2 * a) x.2 := (onFace_iff hxc (by omega)).mpr (by
        rw [if_neg (by omega), ← hv]; exact fin_arg _ (by omega) _ _)
      have := hx _ _ hf (by omega) h5 h7
      omega
    · have h7 : OnFace (2 * a + 1) x.2 := (onFace_iff hxc (by omega)).mpr (by
        rw [if_pos (by omega), ← hv]; exact fin_arg _ (by omega) _ _)
      have := hx _ _ hf (by omega) h5 h7
      omega
  have hall : ∀ i : Fin d, (i : ℕ) ≠ nf / 2 → ¬ (y.2 i = 0 ∨ y.2 i = 2 ^ 30) := by
    rw [hg.all_target]
    rw [h6, hT]
    refine ⟨fun _ hv => ?_, fun hc => absurd hg.tf hc, fun h3d _ hv => ?_⟩
    · rw [hg.image0] at hv
      exact hbad _ hg.my0 (by rw [← hg.myf]; exact hg.myne) (htan _ _ hv)
    · rw [hg.image1 h3d] at hv
      exact hbad _ (hg.my1 h3d).1 (by rw [← hg.myf]; exact (hg.my1 h3d).2.2) (htan _ _ hv)
  have huniq : ∀ g, g < 2 * d → OnFace g y.2 → g = nf := by
    intro g hgd hon
    have e1 := (onFace_iff hyc hgd).mp hon
    have e2 := (onFace_iff hyc hnf).mp hy
    have hdiv : g / 2 = nf / 2 := by
      by_contra hc
      refine hall ⟨g / 2, by omega⟩ hc ?_
      rw [e1]
      split <;> simp
    have e3 : y.2 ⟨g / 2, by omega⟩ = y.2 ⟨nf / 2, by omega⟩ := fin_arg _ hdiv _ _
    rw [e1, e2] at e3
    split at e3 <;> split at e3 <;> omega
  intro g g' hg1 hg2 o1 o2
  rw [huniq g hg1 o1, huniq g' hg2 o2]

/-- Two steps at a point with one contact lead back. -/
theorem stepFace_twice (hd : d = 2 ∨ d = 3) (hconn : FaceConsistent d conn) {x y z : ℕ × (Fin d → ℤ)} (h : StepFace conn x y)
    (hx : OffEdges x.2) (h' : StepFace conn y z) : z = x := by
  have hy := stepFace_offEdges hd hconn h hx
  have hb := stepFace_symm hd hconn h
  have ht := (stepFace_tree hconn hb).1
  obtain ⟨f, nf, o, T, hf, hnf, h1, h2, h3, h4, h5, h6⟩ := hb
  obtain ⟨g, ng, p, S, hg, hng, k1, k2, k3, k4, k5, k6⟩ := h'
  obtain rfl := hy _ _ hf hg h5 k5
  rw [h1, Option.some.injEq] at k1
  rw [h2, Option.some.injEq] at k2
  have e1 : nf = ng := by
    have := congrArg (· % (2 * d)) k2
    simpa only [code_mod hnf, code_mod hng] using this
  have e2 : o = p := by
    have := congrArg (· / (2 * d)) k2
    simpa only [code_div hnf, code_div hng] using this
  subst e1 e2
  have := C37_unique hd _ _ _ hf hnf (entry_orient hconn ht hf h1 h2) _ _ h4 k4
  subst this
  exact Prod.ext k1.symm (by rw [k6, h6])

theorem eqvGen_symm {α : Type*} {r : α → α → Prop} (hs : ∀ x y, r x y → r y x) {x y : α} (h : Relation.EqvGen r x y) :
    Relation.ReflTransGen r x y := by
  induction h with
  | rel x y h => exact .single h
  | refl x => exact .refl
  | symm x y _ ih =>
    have : Std.Symm r := ⟨hs⟩
    exact Relation.ReflTransGen.stdSymm.symm _ _ ih
  | trans x y z _ _ ih1 ih2 => exact ih1.trans ih2

/-- The class of a point with at most one contact. -/
theorem faceClass (hd : d = 2 ∨ d = 3) (hconn : FaceConsistent d conn) {x y : ℕ × (Fin d → ℤ)} (hx : OffEdges x.2)
    (h : Relation.EqvGen (StepFace conn) x y) : y = x ∨ StepFace conn x y := by
  replace h := eqvGen_symm (fun _ _ => stepFace_symm hd hconn) h
  induction h with
  | refl => exact Or.inl rfl
  | tail _ hs ih =>
    rcases ih with rfl | ih
    · exact Or.inr hs
    · exact Or.inl (stepFace_twice hd hconn ih hx hs)

/-! ### Two dimensions -/

theorem stepCorner_symm (hcc : CornerConsistent conn.numTrees cc) {x y : ℕ × (Fin 2 → ℤ)} (h : StepCorner cc x y) :
    StepCorner cc y x := by
  obtain ⟨c, c', hc, hc', hs, h1, h2⟩ := h
  refine ⟨c', c, hc', hc, ?_, h2, h1⟩
  refine sameCorner_symm hcc (x := (x.1, c)) ?_ hc hs
  obtain ⟨k, hk, h3, -⟩ := hs
  have hl := (List.getElem?_eq_some_iff.mp h3).1
  rw [hcc.arrays.entries (by omega)] at hl
  dsimp only at hl ⊢
  omega

theorem cornerPoint_onFace {c : ℕ} (i : Fin 2) : OnFace (faceOf c i) (cornerPoint c : Fin 2 → ℤ) := by
  refine ⟨fun j => ?_, fun j hj => ?_⟩
  · unfold cornerPoint; split <;> norm_num
  · rw [faceOf_div] at hj
    obtain rfl : j = i := Fin.ext hj
    unfold cornerPoint
    simp only [faceOf_mod]

theorem cornerPoint_not_offEdges (c : ℕ) : ¬ OffEdges (cornerPoint c : Fin 2 → ℤ) := by
  intro h
  have := h (faceOf c 0) (faceOf c 1) (faceOf_lt c 0) (faceOf_lt c 1) (cornerPoint_onFace 0) (cornerPoint_onFace 1)
  have h0 := faceOf_div c 0
  have h1 := faceOf_div c 1
  rw [this, h1] at h0
  norm_num at h0

theorem offEdges_or_corner {x : Fin 2 → ℤ} (hx : InCube x) : OffEdges x ∨ ∃ c < 4, x = cornerPoint c := by
  by_cases h : (x 0 = 0 ∨ x 0 = 2 ^ 30) ∧ (x 1 = 0 ∨ x 1 = 2 ^ 30)
  · right
    obtain ⟨h0, h1⟩ := h
    rcases h0 with h0 | h0 <;> rcases h1 with h1 | h1
    · exact ⟨0, by norm_num, by funext i; fin_cases i <;> simp [cornerPoint, h0, h1]⟩
    · exact ⟨2, by norm_num, by funext i; fin_cases i <;> simp [cornerPoint, h0, h1] <;> decide⟩
    · exact ⟨1, by norm_num, by funext i; fin_cases i <;> simp [cornerPoint, h0, h1] <;> decide⟩
    · exact ⟨3, by norm_num, by funext i; fin_cases i <;> simp [cornerPoint, h0, h1] <;> decide⟩
  · left
    intro f g hf hg h1 h2
    rw [onFace_iff hx hf] at h1
    rw [onFace_iff hx hg] at h2
    interval_cases f <;> interval_cases g <;> norm_num at h1 h2 ⊢ <;>
      first
        | (rw [h1] at h2; norm_num at h2; done)
        | (refine h ⟨?_, ?_⟩ <;> omega; done)

/-- The class of a point. -/
theorem pointClass (hconn : FaceConsistent 2 conn) (hcc : CornerConsistent conn.numTrees cc) (hall : CornersComplete conn cc)
    {x y : ℕ × (Fin 2 → ℤ)} (ht : x.1 < conn.numTrees) (hx : InCube x.2) (h : SamePoint conn cc x y) :
    y = x ∨ StepFace conn x y ∨ StepCorner cc x y := by
  have hd : (2 : ℕ) = 2 ∨ (2 : ℕ) = 3 := Or.inl rfl
  rcases offEdges_or_corner hx with ho | ⟨c, hc, e⟩
  · replace h := eqvGen_symm (fun _ _ h => h.imp (stepFace_symm hd hconn) (stepCorner_symm hcc)) h
    suffices hP : (y = x ∨ StepFace conn x y) ∧ OffEdges y.2 by
      rcases hP.1 with h | h
      · exact Or.inl h
      · exact Or.inr (Or.inl h)
    induction h with
    | refl => exact ⟨Or.inl rfl, ho⟩
    | tail _ hs ih =>
      obtain ⟨ih, hoy⟩ := ih
      rcases hs with hs | ⟨c, -, -, -, -, hs, -⟩
      · refine ⟨?_, stepFace_offEdges hd hconn hs hoy⟩
        rcases ih with rfl | ih
        · exact Or.inr hs
        · exact Or.inl (stepFace_twice hd hconn ih ho hs)
      · rw [hs] at hoy
        exact absurd hoy (cornerPoint_not_offEdges c)
  · have hxe : x = (x.1, cornerPoint c) := Prod.ext rfl e
    rw [hxe] at h ⊢
    exact hall _ _ _ ht hc h

/-! ### The choice -/

theorem notAfter_refl (x : ℕ × (Fin d → ℤ)) : NotAfter x x := Or.inr ⟨rfl, le_rfl⟩

theorem notAfter_trans {x y z : ℕ × (Fin d → ℤ)} (h : NotAfter x y) (h' : NotAfter y z) : NotAfter x z := by
  unfold NotAfter at *
  omega

theorem cube_int32 {x : Fin d → ℤ} (h : InCube x) : Int32 x := fun i => by have := h i; omega

/-- A candidate against the best so far. -/
theorem take_spec (hd : 0 < d) {s : ℕ × (Fin d → ℤ)} {n : ℕ} {y : Fin d → ℤ} (hs : InCube s.2) (hy : InCube y) (hn : n ≤ s.1) :
    (takeLower s n y = s ∨ takeLower s n y = (n, y)) ∧ NotAfter (takeLower s n y) s ∧ NotAfter (takeLower s n y) (n, y) := by
  unfold takeLower
  split
  · rename_i h
    exact ⟨Or.inr rfl, Or.inl h, notAfter_refl _⟩
  · rename_i h
    have he : s.1 = n := by omega
    have hc := coordsCompare_cases hd (cube_int32 hy) (cube_int32 hs)
    split
    · rename_i h2
      refine ⟨Or.inr (by rw [he]), Or.inr ⟨rfl, ?_⟩, by rw [he]; exact notAfter_refl _⟩
      rcases hc with h3 | h3 | h3
      · exact h3.1.le
      · rw [h3.1]
      · omega
    · rename_i h2
      refine ⟨Or.inl rfl, notAfter_refl _, Or.inr ⟨he, ?_⟩⟩
      rcases hc with h3 | h3 | h3
      · omega
      · rw [h3.1]
      · exact h3.1.le

/-- A loop over candidates. -/
theorem candidates {α β : Type*} {le : α → α → Prop} (hrefl : ∀ a, le a a) (htrans : ∀ a b c, le a b → le b c → le a c)
    {good : α → Prop} {cand : β → α → Prop} {step : α → β → Option α} (l : List β)
    (hstep : ∀ s b, b ∈ l → good s → ∃ s', step s b = some s' ∧ good s' ∧ le s' s ∧ ∀ y, cand b y → le s' y) (s : α) (hs : good s) :
    ∃ s', l.foldlM step s = some s' ∧ good s' ∧ le s' s ∧ ∀ b ∈ l, ∀ y, cand b y → le s' y := by
  induction l generalizing s with
  | nil => exact ⟨s, rfl, hs, hrefl s, by simp⟩
  | cons b l ih =>
    obtain ⟨s1, h1, h2, h3, h4⟩ := hstep s b (by simp) hs
    obtain ⟨s2, g1, g2, g3, g4⟩ := ih (fun s b hb => hstep s b (by simp [hb])) s1 h2
    refine ⟨s2, by rw [List.foldlM_cons, h1]; exact g1, g2, htrans _ _ _ g3 h3, fun b' hb' y hy => ?_⟩
    rcases List.mem_cons.mp hb' with rfl | hb'
    · exact htrans _ _ _ g3 (h4 y hy)
    · exact g4 b' hb' y hy

theorem contact_iff {f : ℕ} {x : Fin d → ℤ} (hx : InCube x) (hf : f < 2 * d) : contact x f = true ↔ OnFace f x := by
  rw [onFace_iff hx hf]
  unfold contact readAxis
  rw [dif_pos (show f / 2 < d by omega)]
  simp [rootLen_eq]

theorem stepFace_cube {x y : ℕ × (Fin d → ℤ)} (h : StepFace conn x y) : InCube y.2 := by
  obtain ⟨f, nf, o, T, hf, hnf, h1, h2, h3, h4, h5, h6⟩ := h
  rw [h6]
  exact ((h4.face _).mp h5).1

/-- The step across the face `f`. -/
def StepAt (conn : FaceConn) (x : ℕ × (Fin d → ℤ)) (f : ℕ) (y : ℕ × (Fin d → ℤ)) : Prop :=
  ∃ nf o T, nf < 2 * d ∧ conn.treeToTree[2 * d * x.1 + f]? = some y.1 ∧
    conn.treeToFace[2 * d * x.1 + f]? = some (nf + 2 * d * o) ∧ (y.1 ≠ x.1 ∨ nf ≠ f) ∧ Glues f nf o T ∧ OnFace f x.2 ∧ y.2 = T x.2

theorem canonFace_spec (hd : d = 2 ∨ d = 3) (hconn : FaceConsistent d conn) (mem : Fin d → ℤ) {t : ℕ} (ht : t < conn.numTrees)
    {x : Fin d → ℤ} (hx : InCube x) {f : ℕ} (hf : f < 2 * d) {s : ℕ × (Fin d → ℤ)} (hs : InCube s.2) :
    ∃ s', canonFace mem conn t x s f = some s' ∧ (s' = s ∨ StepFace conn (t, x) s') ∧ NotAfter s' s ∧
      ∀ y, StepAt conn (t, x) f y → NotAfter s' y := by
  unfold canonFace
  by_cases hc : contact x f = false
  · rw [if_pos hc]
    refine ⟨s, rfl, Or.inl rfl, notAfter_refl _, ?_⟩
    rintro y ⟨nf, o, T, -, -, -, -, -, h, -⟩
    rw [← contact_iff hx hf, hc] at h
    exact absurd h (by simp)
  · rw [if_neg hc]
    have hon : OnFace f x := (contact_iff hx hf).mp (by simpa using hc)
    obtain ⟨t', nf, o, e1, e2, ht', hnf, ho⟩ := hconn.entries ht hf
    rw [e1, e2]
    simp only [Option.bind_eq_bind, Option.bind_some]
    have hcode : ∀ y, StepAt conn (t, x) f y → y.1 = t' ∧ (t' ≠ t ∨ nf ≠ f) ∧ ∃ T, Glues f nf o T ∧ y.2 = T x := by
      rintro y ⟨ng, p, S, hng, k1, k2, k3, k4, k5, k6⟩
      dsimp only at k1 k2 k3
      rw [e1, Option.some.injEq] at k1
      rw [e2, Option.some.injEq] at k2
      have e1 : nf = ng := by
        have := congrArg (· % (2 * d)) k2
        simpa only [code_mod hnf, code_mod hng] using this
      have e2 : o = p := by
        have := congrArg (· / (2 * d)) k2
        simpa only [code_div hnf, code_div hng] using this
      subst e1 e2
      exact ⟨k1.symm, by rw [k1]; exact k3, S, k4, k6⟩
    by_cases hb : t' = t ∧ nf + 2 * d * o = f
    · rw [if_pos hb]
      refine ⟨s, rfl, Or.inl rfl, notAfter_refl _, fun y hy => ?_⟩
      obtain ⟨-, h2, -⟩ := hcode y hy
      have : nf = f := by
        have h3 := congrArg (· % (2 * d)) hb.2
        simpa only [code_mod hnf, Nat.mod_eq_of_lt hf] using h3
      rcases h2 with h2 | h2
      · exact absurd hb.1 h2
      · exact absurd this h2
    · rw [if_neg hb]
      have hne : t' ≠ t ∨ nf ≠ f := by
        by_contra hcon
        push Not at hcon
        obtain ⟨h1, h2⟩ := hcon
        have := hconn.boundary t f o ht hf (by rw [e1, h1]) (by rw [e2, h2])
        subst this
        exact hb ⟨h1, by rw [h2]; simp⟩
      by_cases hl : s.1 < t'
      · rw [if_pos hl]
        refine ⟨s, rfl, Or.inl rfl, notAfter_refl _, fun y hy => Or.inl ?_⟩
        rw [(hcode y hy).1]; exact hl
      · rw [if_neg hl]
        obtain ⟨ft, ft', T, a1, -, a3, a4, -⟩ := C37_transform_face hd f nf o hf hnf ho
        have hfind : findFaceTransform d conn t f = some (some (t', ft)) := by
          unfold findFaceTransform
          rw [e1, e2]
          simp only [Option.bind_eq_bind, Option.bind_some]
          rw [code_mod hnf, code_div hnf, if_neg (by
            rintro ⟨h1, h2⟩
            rcases hne with h | h
            · exact h h1
            · exact h h2)]
          rw [expand_code hnf] at a1
          rw [a1]; rfl
        rw [hfind]
        simp only [Option.bind_some]
        rw [if_neg (by simp), a4]
        simp only [Option.bind_some]
        have hstep : StepFace conn (t, x) (t', T x) := ⟨f, nf, o, T, hf, hnf, e1, e2, hne, a3, hon, rfl⟩
        obtain ⟨b1, b2, b3⟩ := take_spec (by omega) hs (stepFace_cube hstep) (not_lt.mp hl)
        refine ⟨_, rfl, ?_, b2, fun y hy => ?_⟩
        · rcases b1 with b1 | b1
          · exact Or.inl b1
          · rw [b1]; exact Or.inr hstep
        · obtain ⟨g1, -, S, g2, g3⟩ := hcode y hy
          have := C37_unique hd f nf o hf hnf ho _ _ g2 a3
          subst this
          have : y = (t', S x) := Prod.ext g1 g3
          rw [this]
          exact b3

/-- The loop over the faces. -/
theorem canonFaces_spec (hd : d = 2 ∨ d = 3) (hconn : FaceConsistent d conn) (mem : Fin d → ℤ) {t : ℕ} (ht : t < conn.numTrees)
    {x : Fin d → ℤ} (hx : InCube x) :
    ∃ s, (List.range (2 * d)).foldlM (canonFace mem conn t x) (t, x) = some s ∧ (s = (t, x) ∨ StepFace conn (t, x) s) ∧
      InCube s.2 ∧ NotAfter s (t, x) ∧ ∀ y, StepFace conn (t, x) y → NotAfter s y := by
  obtain ⟨s, h1, h2, h3, h4⟩ := candidates (le := NotAfter) (good := fun s => (s = (t, x) ∨ StepFace conn (t, x) s) ∧ InCube s.2)
    (cand := StepAt conn (t, x)) notAfter_refl (fun _ _ _ => notAfter_trans) (step := canonFace mem conn t x) (List.range (2 * d)) (by
      intro s f hf hs
      obtain ⟨s', a1, a2, a3, a4⟩ := canonFace_spec hd hconn mem ht hx (List.mem_range.mp hf) hs.2
      refine ⟨s', a1, ?_, a3, a4⟩
      rcases a2 with rfl | a2
      · exact hs
      · exact ⟨Or.inr a2, stepFace_cube a2⟩) (t, x) ⟨Or.inl rfl, hx⟩
  refine ⟨s, h1, h2.1, h2.2, h3, ?_⟩
  rintro y ⟨f, nf, o, T, hf, hrest⟩
  exact h4 f (List.mem_range.mpr hf) y ⟨nf, o, T, hrest⟩

theorem contacts_zero {x : Fin d → ℤ} (hx : InCube x) (h : contacts d x = 0) {f : ℕ} (hf : f < 2 * d) : ¬ OnFace f x := by
  unfold contacts at h
  rw [List.length_eq_zero_iff, List.filter_eq_nil_iff] at h
  intro hc
  rw [← contact_iff hx hf] at hc
  have := h (f / 2) (List.mem_range.mpr (by omega))
  rcases Nat.mod_two_eq_zero_or_one f with e | e
  · rw [show 2 * (f / 2) = f by omega, hc] at this
    simp at this
  · rw [show 2 * (f / 2) + 1 = f by omega, hc] at this
    simp at this

theorem contacts_one {x : Fin d → ℤ} (hx : InCube x) : contacts d x ≤ 1 ↔ OffEdges x := by
  unfold contacts
  have hmem : ∀ f, f < 2 * d → OnFace f x →
      f / 2 ∈ (List.range d).filter fun i => contact x (2 * i) || contact x (2 * i + 1) := by
    intro f hf hon
    rw [← contact_iff hx hf] at hon
    rw [List.mem_filter, List.mem_range, Bool.or_eq_true]
    refine ⟨by omega, ?_⟩
    rcases Nat.mod_two_eq_zero_or_one f with e | e
    · left; rw [show 2 * (f / 2) = f by omega]; exact hon
    · right; rw [show 2 * (f / 2) + 1 = f by omega]; exact hon
  constructor
  · intro h f g hf hg h1 h2
    have m1 := hmem f hf h1
    have m2 := hmem g hg h2
    have hdiv : f / 2 = g / 2 := by
      match hl : (List.range d).filter fun i => contact x (2 * i) || contact x (2 * i + 1) with
      | [] => rw [hl] at m1; simp at m1
      | [a] => rw [hl] at m1 m2; simp at m1 m2; omega
      | a :: b :: l => rw [hl] at h; simp at h
    rw [onFace_iff hx hf] at h1
    rw [onFace_iff hx hg] at h2
    have e3 : x ⟨f / 2, by omega⟩ = x ⟨g / 2, by omega⟩ := by congr 1; exact Fin.ext hdiv
    rw [h1, h2] at e3
    split at e3 <;> split at e3 <;> omega
  · intro h
    by_contra hc
    have hnd : ((List.range d).filter fun i => contact x (2 * i) || contact x (2 * i + 1)).Nodup := List.nodup_range.filter _
    have hmem' : ∀ i ∈ (List.range d).filter fun i => contact x (2 * i) || contact x (2 * i + 1),
        ∃ f, f < 2 * d ∧ f / 2 = i ∧ OnFace f x := by
      intro i hi
      rw [List.mem_filter, List.mem_range, Bool.or_eq_true] at hi
      rcases hi.2 with h2 | h2
      · exact ⟨2 * i, by omega, by omega, (contact_iff hx (by omega)).mp h2⟩
      · exact ⟨2 * i + 1, by omega, by omega, (contact_iff hx (by omega)).mp h2⟩
    match hl : (List.range d).filter fun i => contact x (2 * i) || contact x (2 * i + 1) with
    | [] => rw [hl] at hc; simp at hc
    | [a] => rw [hl] at hc; simp at hc
    | a :: b :: l =>
      rw [hl] at hnd hmem'
      obtain ⟨f, f1, f2, f3⟩ := hmem' a (by simp)
      obtain ⟨g, g1, g2, g3⟩ := hmem' b (by simp)
      have := h f g f1 g1 f3 g3
      subst this
      rw [f2] at g2
      subst g2
      simp at hnd

/-- The function at points with at most one contact. -/
theorem canonicalizeWith_spec (hd : d = 2 ∨ d = 3) (hconn : FaceConsistent d conn) (mem : Fin d → ℤ) {t : ℕ} (ht : t < conn.numTrees)
    {x : Fin d → ℤ} (hx : InCube x) (ho : OffEdges x) (rest : ℕ × (Fin d → ℤ) → Option (ℕ × (Fin d → ℤ))) :
    ∃ s, canonicalizeWith mem conn rest t x = some s ∧ (s = (t, x) ∨ StepFace conn (t, x) s) ∧
      NotAfter s (t, x) ∧ ∀ y, StepFace conn (t, x) y → NotAfter s y := by
  unfold canonicalizeWith
  by_cases h0 : contacts d x = 0
  · rw [if_pos h0]
    refine ⟨_, rfl, Or.inl rfl, notAfter_refl _, ?_⟩
    rintro y ⟨f, nf, o, T, hf, -, -, -, -, -, hon, -⟩
    exact absurd hon (contacts_zero hx h0 hf)
  · rw [if_neg h0]
    obtain ⟨s, h1, h2, -, h3, h4⟩ := canonFaces_spec hd hconn mem ht hx
    rw [h1]
    simp only [Option.bind_eq_bind, Option.bind_some]
    have := (contacts_one hx).mpr ho
    rw [if_pos (by omega)]
    exact ⟨s, rfl, h2, h3, h4⟩

theorem cornerCoords_eq (c : ℕ) : cornerCoords c = cornerPoint c := rfl

theorem cornerPoint_cube (c : ℕ) : InCube (cornerPoint c : Fin 2 → ℤ) := (cornerPoint_onFace (c := c) 0).1

/-- The loop over the transforms of a corner. -/
theorem canonTake_spec (l : List (ℕ × ℕ)) (s : ℕ × (Fin 2 → ℤ)) (hs : InCube s.2) :
    (l.foldl canonTake s = s ∨ ∃ e ∈ l, l.foldl canonTake s = (e.1, cornerPoint e.2)) ∧ NotAfter (l.foldl canonTake s) s ∧
      ∀ e ∈ l, NotAfter (l.foldl canonTake s) (e.1, cornerPoint e.2) := by
  induction l generalizing s with
  | nil => exact ⟨Or.inl rfl, notAfter_refl _, by simp⟩
  | cons e l ih =>
    rw [List.foldl_cons]
    have h1 : (canonTake s e = s ∨ canonTake s e = (e.1, cornerPoint e.2)) ∧ NotAfter (canonTake s e) s ∧
        NotAfter (canonTake s e) (e.1, cornerPoint e.2) := by
      unfold canonTake
      split
      · rename_i h
        exact ⟨Or.inl rfl, notAfter_refl _, Or.inl h⟩
      · rename_i h
        exact take_spec (by norm_num) hs (cornerPoint_cube _) (not_lt.mp h)
    have hs' : InCube (canonTake s e).2 := by
      rcases h1.1 with h | h <;> rw [h]
      · exact hs
      · exact cornerPoint_cube _
    obtain ⟨g1, g2, g3⟩ := ih _ hs'
    refine ⟨?_, notAfter_trans g2 h1.2.1, fun e' he' => ?_⟩
    · rcases g1 with g1 | ⟨e', he', g1⟩
      · rw [g1]
        rcases h1.1 with h | h
        · exact Or.inl h
        · exact Or.inr ⟨e, by simp, h⟩
      · exact Or.inr ⟨e', by simp [he'], g1⟩
    · rcases List.mem_cons.mp he' with rfl | he'
      · exact notAfter_trans g2 h1.2.2
      · exact g3 e' he'

theorem acrossFace_step {t c : ℕ} (hc : c < 4) {e : ℕ × ℕ} (h : AcrossFace conn t c e) :
    StepFace (d := 2) conn (t, cornerPoint c) (e.1, cornerPoint e.2) := by
  obtain ⟨i, nf, o, hnf, ho, h1, h2, h3, h4⟩ := h
  obtain ⟨nc, k1, k2⟩ := corner_across hc i hnf ho
  rw [h4, Option.some.injEq] at k1
  subst k1
  obtain ⟨-, -, T, -, -, hT, -⟩ := C37_transform_face (d := 2) (Or.inl rfl) (faceOf c i) nf o (faceOf_lt c i) hnf (by simpa using ho)
  exact ⟨faceOf c i, nf, o, T, faceOf_lt c i, hnf, h1, h2, h3, hT, cornerPoint_onFace i, (k2 T hT).symm⟩

theorem contact_corner {c : ℕ} {x : Fin 2 → ℤ} (hx : InCube x) :
    (contact x (faceOf c 0) && contact x (faceOf c 1)) = true ↔ x = cornerPoint c := by
  rw [Bool.and_eq_true, contact_iff hx (faceOf_lt c 0), contact_iff hx (faceOf_lt c 1)]
  constructor
  · rintro ⟨h0, h1⟩
    funext i
    fin_cases i
    · have := h0.2 0 (faceOf_div c 0).symm
      simp only [faceOf_mod] at this
      exact this
    · have := h1.2 1 (faceOf_div c 1).symm
      simp only [faceOf_mod] at this
      exact this
  · rintro rfl
    exact ⟨cornerPoint_onFace 0, cornerPoint_onFace 1⟩

theorem canonCorner_spec (hconn : FaceConsistent 2 conn) (hcc : CornerConsistent conn.numTrees cc) {t : ℕ} (ht : t < conn.numTrees)
    {x : Fin 2 → ℤ} (hx : InCube x) {c : ℕ} (hc : c < 4) {s : ℕ × (Fin 2 → ℤ)} (hs : InCube s.2) (hself : NotAfter s (t, x))
    (hface : ∀ y, StepFace conn (t, x) y → NotAfter s y) :
    ∃ s', canonCorner conn cc t x s c = some s' ∧ (s' = s ∨ StepCorner cc (t, x) s') ∧ NotAfter s' s ∧
      ∀ y, (x = cornerPoint c ∧ ∃ c' < 4, SameCorner cc (t, c) (y.1, c') ∧ y.2 = cornerPoint c') → NotAfter s' y := by
  unfold canonCorner
  have q0 : entry cornerFacesTable c 0 = some (faceOf c 0) := entry_faceOf hc 0
  have q1 : entry cornerFacesTable c 1 = some (faceOf c 1) := entry_faceOf hc 1
  rw [q0, q1]
  simp only [Option.bind_eq_bind, Option.bind_some]
  by_cases hx' : x = cornerPoint c
  · rw [if_pos ((contact_corner hx).mpr hx')]
    obtain ⟨l, h1, h2, h3⟩ := findCornerTransform_spec hconn hcc ht hc
    rw [h1]
    simp only [Option.bind_some]
    obtain ⟨g1, g2, g3⟩ := canonTake_spec l s hs
    refine ⟨_, rfl, ?_, g2, ?_⟩
    · rcases g1 with g1 | ⟨e, he, g1⟩
      · exact Or.inl g1
      · right
        rw [g1]
        have hsc := h2 e he
        have hc' : e.2 < 4 := by
          obtain ⟨k, hk, -, hl⟩ := hsc
          exact (hcc.listed hl).2
        exact ⟨c, e.2, hc, hc', hsc, hx', rfl⟩
    · rintro y ⟨-, c', hc', hsc, hy⟩
      have hye : y = ((y.1, c').1, cornerPoint (y.1, c').2) := Prod.ext rfl hy
      rcases h3 _ hsc with h | h | h
      · rw [hye]; exact g3 _ h
      · rw [hye, h]
        rw [hx'] at hself
        exact notAfter_trans g2 hself
      · have := acrossFace_step hc h
        rw [← hx'] at this
        rw [hye]
        exact notAfter_trans g2 (hface _ this)
  · rw [if_neg (fun h => hx' ((contact_corner hx).mp h))]
    exact ⟨s, rfl, Or.inl rfl, notAfter_refl _, fun y hy => absurd hy.1 hx'⟩

theorem stepCorner_cube {x y : ℕ × (Fin 2 → ℤ)} (h : StepCorner cc x y) : InCube y.2 := by
  obtain ⟨c, c', -, -, -, -, h⟩ := h
  rw [h]; exact cornerPoint_cube c'

/-- The function in two dimensions. -/
theorem canonicalize_spec (hconn : FaceConsistent 2 conn) (hcc : CornerConsistent conn.numTrees cc) (mem : Fin 2 → ℤ) {t : ℕ}
    (ht : t < conn.numTrees) {x : Fin 2 → ℤ} (hx : InCube x) :
    ∃ s, canonicalize mem conn cc t x = some s ∧ (s = (t, x) ∨ StepFace conn (t, x) s ∨ StepCorner cc (t, x) s) ∧
      NotAfter s (t, x) ∧ ∀ y, StepFace conn (t, x) y ∨ StepCorner cc (t, x) y → NotAfter s y := by
  by_cases ho : OffEdges x
  · obtain ⟨s, h1, h2, h3, h4⟩ := canonicalizeWith_spec (Or.inl rfl) hconn mem ht hx ho
      (fun s => (List.range 4).foldlM (canonCorner conn cc t x) s)
    refine ⟨s, h1, ?_, h3, ?_⟩
    · rcases h2 with h | h
      · exact Or.inl h
      · exact Or.inr (Or.inl h)
    · rintro y (h | ⟨c, -, -, -, -, h, -⟩)
      · exact h4 y h
      · dsimp only at h
        rw [h] at ho
        exact absurd ho (cornerPoint_not_offEdges c)
  · have hc : ¬ contacts 2 x ≤ 1 := fun h => ho ((contacts_one hx).mp h)
    unfold canonicalize canonicalizeWith
    rw [if_neg (by omega)]
    obtain ⟨s, h1, h2, h3, h4, h5⟩ := canonFaces_spec (Or.inl rfl) hconn mem ht hx
    rw [h1]
    simp only [Option.bind_eq_bind, Option.bind_some]
    rw [if_neg (by omega)]
    obtain ⟨s', k1, k2, k3, k4⟩ := candidates (le := NotAfter)
      (good := fun s => (s = (t, x) ∨ StepFace conn (t, x) s ∨ StepCorner cc (t, x) s) ∧ InCube s.2 ∧ NotAfter s (t, x) ∧
        ∀ y, StepFace conn (t, x) y → NotAfter s y)
      (cand := fun c y => x = cornerPoint c ∧ ∃ c' < 4, SameCorner cc (t, c) (y.1, c') ∧ y.2 = cornerPoint c')
      notAfter_refl (fun _ _ _ => notAfter_trans) (step := canonCorner conn cc t x) (List.range 4) (by
        rintro s c hc ⟨g1, g2, g3, g4⟩
        obtain ⟨s', a1, a2, a3, a4⟩ := canonCorner_spec hconn hcc ht hx (List.mem_range.mp hc) g2 g3 g4
        refine ⟨s', a1, ⟨?_, ?_, notAfter_trans a3 g3, fun y hy => notAfter_trans a3 (g4 y hy)⟩, a3, a4⟩
        · rcases a2 with rfl | a2
          · exact g1
          · exact Or.inr (Or.inr a2)
        · rcases a2 with rfl | a2
          · exact g2
          · exact stepCorner_cube a2) s
        ⟨by rcases h2 with h | h; exacts [Or.inl h, Or.inr (Or.inl h)], h3, h4, h5⟩
    refine ⟨s', k1, k2.1, k2.2.2.1, ?_⟩
    rintro y (h | ⟨c, c', hc, hc', hsc, e1, e2⟩)
    · exact k2.2.2.2 y h
    · exact k4 c (List.mem_range.mpr hc) y ⟨e1, c', hc', hsc, e2⟩

/-- Two points that are not after each other are equal. -/
theorem notAfter_antisymm {x y : ℕ × (Fin d → ℤ)} (hd : 0 < d) (hx : InCube x.2) (hy : InCube y.2) (h : NotAfter x y)
    (h' : NotAfter y x) : x = y := by
  unfold NotAfter at *
  have h1 : x.1 = y.1 ∧ curve x.2 = curve y.2 := by omega
  refine Prod.ext h1.1 ?_
  rcases coordsCompare_cases hd (cube_int32 hx) (cube_int32 hy) with h2 | h2 | h2
  · omega
  · exact h2.1
  · omega

theorem canonicalize_mem (hconn : FaceConsistent 2 conn) (hcc : CornerConsistent conn.numTrees cc) (mem mem' : Fin 2 → ℤ) {t : ℕ}
    (ht : t < conn.numTrees) {x : Fin 2 → ℤ} (hx : InCube x) : canonicalize mem conn cc t x = canonicalize mem' conn cc t x := by
  obtain ⟨s, h1, h2, h3, h4⟩ := canonicalize_spec hconn hcc mem ht hx
  obtain ⟨r, g1, g2, g3, g4⟩ := canonicalize_spec hconn hcc mem' ht hx
  have cube : ∀ {s : ℕ × (Fin 2 → ℤ)}, s = (t, x) ∨ StepFace conn (t, x) s ∨ StepCorner cc (t, x) s → InCube s.2 := by
    rintro s (rfl | h | h)
    · exact hx
    · exact stepFace_cube h
    · exact stepCorner_cube h
  have a : NotAfter s r := by
    rcases g2 with rfl | h
    · exact h3
    · exact h4 r h
  have b : NotAfter r s := by
    rcases h2 with rfl | h
    · exact g3
    · exact g4 s h
  rw [h1, g1, notAfter_antisymm (by norm_num) (cube h2) (cube g2) a b]

end P4est
