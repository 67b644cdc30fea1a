import Verif.Lemmas.ExchangePart

/-! # The answer to the quadrants of another part -/

namespace P4est
open Spec

variable {d : ℕ} {k : ℕ}

/-- One process has this part after the first pass. -/
structure PartOk (k : ℕ) (P : Part d) : Prop where
  ends : EndsOk P.f P.l
  tiles : Tiles P.f P.l P.leaves
  some_ : P.leaves ≠ []
  balanced : Balanced k P.leaves

theorem PartOk.inside {P : Part d} (h : PartOk k P) {x : Quad d} (hx : x ∈ P.leaves) : Cells x ⊆ Section P.f P.l := by
  rw [← h.tiles.cover]
  exact fun p hp => ⟨x, hx, hp⟩

theorem PartOk.ne (hd : 0 < d) {P : Part d} (h : PartOk k P) : start P.f < stop P.l := by
  obtain ⟨q, hq⟩ := List.exists_mem_of_ne_nil _ h.some_
  have := (section_iff hd (h.tiles.valid q hq)).mp (h.inside hq)
  have := start_lt_stop q
  omega

/-- The seeds in a leaf that are left divide what all of them divide. -/
theorem uniq_inside (hd : 0 < d) {ins : List (ℕ × Quad d)} (hv : ∀ x ∈ ins, Valid x.2 ∧ 0 < x.2.level ∧ childId x.2 = 0)
    {y r : Quad d} (hy : Aligned y) {t : ℕ} (h : Divides (Cells y) k {b | (t, b) ∈ ins ∧ Cells b ⊂ Cells y} r) :
    Divides (Cells y) k {b | (t, b) ∈ uniqifyOverlap ins ∧ Cells b ⊂ Cells y} r := by
  intro U hU hG hf
  refine h U hU hG ?_
  rintro s ⟨hs, hsy⟩ u hu hsu
  obtain ⟨v1, v2, -⟩ := hv _ hs
  obtain ⟨z, z1, z2, z3⟩ := (C94_uniqify hd ins hv).2.2.2.1 _ hs
  have hzt : z = (t, z.2) := Prod.ext z2 rfl
  have hpu := (inside_iff_parent hd v1.aligned v2 (hU.legal u hu).1).mp hsu
  have hpy := (inside_iff_parent hd v1.aligned v2 hy).mp hsy
  exact hf z.2 ⟨hzt ▸ z1, lt_of_lt_of_le z3 hpy⟩ u hu (lt_of_lt_of_le z3 hpu)

theorem divides_one {D : Set (Fin d → ℤ)} {S T : Set (Quad d)} {r : Quad d} (h : S ⊆ T) (hd : Divides D k S r) :
    Divides D k T r :=
  fun U h1 h2 h3 => hd U h1 h2 fun s hs => h3 s (h hs)

theorem respond_spec (hdim : d = 2 ∨ d = 3) (hk1 : 1 ≤ k) (hkd : k ≤ d) (hedge : ¬ (d = 3 ∧ k = 2)) {P Q : Part d}
    (hP : PartOk k P) (hQ : PartOk k Q) (hap : Section P.f P.l ∩ Section Q.f Q.l = ∅) :
    ∃ a, P.respond k (Q.sends P) = some a ∧
      (∀ z ∈ a.2, Valid z.2 ∧ childId z.2 = 0 ∧ ∃ y ∈ P.border, Cells z.2 ⊂ Cells y) ∧
      (∀ y ∈ P.border, ∀ r, Valid r → Cells r ⊆ Cells y →
        ((∃ z ∈ a.2, Cells z.2 ⊂ Cells y ∧ Forces k z.2 r) ↔ ∃ x ∈ Q.sends P, Touching x y ∧ Forces k x r)) ∧
      (∀ z ∈ a.1, Valid z.2 ∧ childId z.2 = 0 ∧ ∃ x ∈ Q.sends P, Cells z.2 ⊂ Cells x) ∧
      (∀ x ∈ Q.sends P, ∀ r, Valid r → Cells r ⊆ Cells x →
        ((∃ z ∈ a.1, Cells z.2 ⊂ Cells x ∧ Forces k z.2 r) ↔ ∃ y ∈ P.border, ¬ Touching y x ∧ Forces k y r)) := by
  have hd : 0 < d := by omega
  obtain ⟨pB, pL⟩ := border_hasBorder hdim hP.ends hP.tiles
  obtain ⟨qB, -⟩ := border_hasBorder hdim hQ.ends hQ.tiles
  have hsx : ∀ x ∈ Q.sends P, x ∈ Q.leaves ∧ P.gets x = true := fun x hx =>
    ⟨qB.1 x (List.mem_filter.mp hx).1, (List.mem_filter.mp hx).2⟩
  have hxv : ∀ x ∈ Q.sends P, Valid x := fun x hx => hQ.tiles.valid x (hsx x hx).1
  have hpv : ∀ y ∈ P.border, Valid y := fun y hy => hP.tiles.valid y (pB.1 y hy)
  let ins : List (OverlapIn d Unit) := (Q.sends P).map fun q => ⟨q, 0, ()⟩
  have hmem : ∀ x ∈ ins, x.q ∈ Q.sends P ∧ x.tree = 0 := by
    intro x hx
    obtain ⟨q, hq, rfl⟩ := List.mem_map.mp hx
    exact ⟨hq, rfl⟩
  have hin : ∀ x ∈ ins, Valid P.f ∧ Valid P.l ∧ P.f.level = 29 ∧ P.l.level = 29 ∧ Aligned x.q ∧ x.q.level ≤ 29 ∧
      Cells x.q ⊆ TreeBox d ∧ (∀ y ∈ P.border, Cells y ⊆ TreeBox d) ∧ LeavesFor P.f P.l x.q P.border := by
    intro x hx
    have hq := (hmem x hx).1
    have hv := hxv _ hq
    refine ⟨hP.ends.f_valid, hP.ends.l_valid, hP.ends.f_level, hP.ends.l_level, hv.aligned, hv.1, valid_treeBox hv,
      fun y hy => valid_treeBox (hpv y hy), pB.leavesFor hdim hP.tiles pL hv ?_ ?_⟩
    · rw [Set.eq_empty_iff_forall_notMem] at hap ⊢
      rintro p ⟨h1, h2⟩
      exact hap p ⟨h2, hQ.inside (hsx _ hq).1 h1⟩
    · obtain ⟨w, -, -, h3, h4⟩ := (gets_iff hd hP.ends (hP.ne hd) hv).mp (hsx _ hq).2
      exact ⟨_, h3, insulQuad_touching _ w, h4⟩
  obtain ⟨out, inn, c1, c2, c3, seeds, c4, c5, c6⟩ := C93_forest_partial hdim hk1 hkd (wholeTrees_root (d := d))
    (fun _ => (P.border, P.f, P.l)) (fun _ _ => []) ins hedge hin
  have hone : ∀ {q r : Quad d}, Valid q → Valid r → (Divides (TreeBox d) k {q} r ↔ Forces k q r) := by
    intro q r hq hr
    rw [divides_treeBox hd (S := {q}) (by simpa using hq) hr]
    simp
  have hvinn : ∀ z ∈ inn, Valid z.2 ∧ 0 < z.2.level ∧ childId z.2 = 0 := fun z hz =>
    ⟨(c2 z hz).1, (c2 z hz).2.1, (c2 z hz).2.2.1⟩
  have hout : ∀ z, z ∈ out ↔ ∃ x ∈ Q.sends P, ∃ u ∈ seeds ⟨x, 0, ()⟩, z = (0, sibling u 0) := by
    intro z
    rw [c5]
    constructor
    · rintro ⟨x, hx, u, hu, h⟩
      obtain ⟨q, hq, rfl⟩ := List.mem_map.mp hx
      rw [if_pos (by rw [isInsideRoot_iff]; exact (hxv q hq).2.2)] at h
      exact ⟨q, hq, u, hu, h⟩
    · rintro ⟨q, hq, u, hu, h⟩
      refine ⟨⟨q, 0, ()⟩, List.mem_map.mpr ⟨q, hq, rfl⟩, u, hu, ?_⟩
      rw [if_pos (by rw [isInsideRoot_iff]; exact (hxv q hq).2.2)]
      exact h
  have hseed : ∀ x ∈ Q.sends P, ∀ u ∈ seeds ⟨x, 0, ()⟩, Aligned u ∧ u.level ≤ 29 ∧ x.level < u.level ∧ Cells u ⊆ Cells x :=
    fun x hx => c4 ⟨x, 0, ()⟩ (List.mem_map.mpr ⟨x, hx, rfl⟩)
  have hsib : ∀ x ∈ Q.sends P, ∀ u ∈ seeds ⟨x, 0, ()⟩, Valid (sibling u 0) ∧ 0 < (sibling u 0).level ∧ childId (sibling u 0) = 0 ∧
      Cells (sibling u 0) ⊂ Cells x := by
    intro x hx u hu
    obtain ⟨a1, a2, a3, a4⟩ := hseed x hx u hu
    have a0 : 0 < u.level := by omega
    have hss : Cells u ⊂ Cells x := ⟨a4, fun hc => by
      have := ((cells_subset_iff hd a1 (hxv x hx).aligned).mp hc).1
      omega⟩
    have hs' := (sibling_ssubset hd a1 a0 (hxv x hx).aligned).mpr hss
    have hpl : (parent u).level < 30 := by show u.level - 1 < 30; omega
    have hse := sibling_eq a1 a0 0
    have hua : Aligned (sibling u 0) := by
      rw [hse]
      exact child_aligned (parent_aligned a1 a0) hpl 0
    refine ⟨valid_of_treeBox hua a2 (hs'.1.trans (valid_treeBox (hxv x hx))), a0, ?_, hs'⟩
    rw [hse]
    exact childId_child (parent_aligned a1 a0) hpl (by positivity)
  have hvout : ∀ z ∈ out, Valid z.2 ∧ 0 < z.2.level ∧ childId z.2 = 0 := by
    intro z hz
    obtain ⟨x, hx, u, hu, rfl⟩ := (hout z).mp hz
    obtain ⟨h1, h2, h3, -⟩ := hsib x hx u hu
    exact ⟨h1, h2, h3⟩
  have hss : ∀ {b y : Quad d}, Valid b → Valid y → Cells b ⊂ Cells y → Aligned b ∧ b.level ≤ 29 ∧ y.level < b.level ∧
      Cells b ⊆ Cells y := fun hb hy h => ⟨hb.aligned, hb.1, ((valid_ssubset_iff hd hy hb).mp h).1, h.1⟩
  have e1 := (C94_uniqify hd inn hvinn).1
  have e2 := (C94_uniqify hd out hvout).1
  refine ⟨(uniqifyOverlap out, uniqifyOverlap inn), ?_, ?_, ?_, ?_, ?_⟩
  · unfold Part.respond balanceResponse
    show (computeOverlap k (fun _ => (P.border, P.f, P.l)) (fun _ _ => []) ins >>= fun r => _) = _
    rw [c1]
    rfl
  · intro z hz
    have := c2 z (e1 z hz)
    exact ⟨this.1, this.2.2.1, this.2.2.2⟩
  · intro y hy r hr hry
    constructor
    · rintro ⟨z, hz, hzy, hfz⟩
      have hzi := e1 z hz
      have h1 : Divides (Cells y) k {b | (z.1, b) ∈ inn ∧ Cells b ⊂ Cells y} r := by
        rw [divides_inside hd (hpv y hy).aligned (hpv y hy).1 (S := {b | (z.1, b) ∈ inn ∧ Cells b ⊂ Cells y})
          (fun b hb => hss (hvinn _ hb.1).1 (hpv y hy) hb.2) hr.aligned hr.1 hry]
        exact ⟨z.2, ⟨hzi, hzy⟩, hfz⟩
      obtain ⟨x, hx, -, h2, h3⟩ := (c3 z.1 y hy r (hpv y hy) hr.aligned hr.1 hry).mp h1
      exact ⟨x.q, (hmem x hx).1, h2, (hone (hxv _ (hmem x hx).1) hr).mp h3⟩
    · rintro ⟨x, hx, h2, h3⟩
      have h1 := (c3 0 y hy r (hpv y hy) hr.aligned hr.1 hry).mpr
        ⟨⟨x, 0, ()⟩, List.mem_map.mpr ⟨x, hx, rfl⟩, rfl, h2, (hone (hxv x hx) hr).mpr h3⟩
      have h4 := uniq_inside hd hvinn (hpv y hy).aligned h1
      rw [divides_inside hd (hpv y hy).aligned (hpv y hy).1 (S := {b | (0, b) ∈ uniqifyOverlap inn ∧ Cells b ⊂ Cells y})
          (fun b hb => hss (hvinn _ (e1 _ hb.1)).1 (hpv y hy) hb.2) hr.aligned hr.1 hry] at h4
      obtain ⟨b, hb, h5⟩ := h4
      exact ⟨(0, b), hb.1, hb.2, h5⟩
  · intro z hz
    obtain ⟨x, hx, u, hu, rfl⟩ := (hout z).mp (e2 z hz)
    obtain ⟨h1, h2, h3, h4⟩ := hsib x hx u hu
    exact ⟨h1, h3, x, hx, h4⟩
  · intro x hx r hr hrx
    have hxi : (⟨x, 0, ()⟩ : OverlapIn d Unit) ∈ ins := List.mem_map.mpr ⟨x, hx, rfl⟩
    have hxV := hxv x hx
    have h6 := c6 ⟨x, 0, ()⟩ hxi r hr.aligned hr.1 hrx
    have h7 : Divides (Cells x) k {b | ∃ u ∈ {u | u ∈ seeds ⟨x, 0, ()⟩}, b = sibling u 0} r ↔
        Divides (Cells x) k {u | u ∈ seeds ⟨x, 0, ()⟩} r :=
      divides_siblings hd fun u hu => ⟨(hseed x hx u hu).1, by have := (hseed x hx u hu).2.2.1; omega⟩
    constructor
    · rintro ⟨z, hz, hzx, hfz⟩
      obtain ⟨x', hx', u, hu, rfl⟩ := (hout z).mp (e2 z hz)
      obtain ⟨s1, s2, s3, s4⟩ := hsib x' hx' u hu
      have hxx : x' = x := linear_eq_of_meet hQ.tiles.linear (hsx x' hx').1 (hsx x hx).1
        ⟨_, s4.1 (corner_mem _), hzx.1 (corner_mem _)⟩
      subst hxx
      have h8 : Divides (Cells x') k {b | ∃ u ∈ {u | u ∈ seeds ⟨x', 0, ()⟩}, b = sibling u 0} r := by
        rw [divides_inside hd hxV.aligned hxV.1 (S := {b | ∃ u ∈ {u | u ∈ seeds ⟨x', 0, ()⟩}, b = sibling u 0})
          (by rintro b ⟨v, hv, rfl⟩; exact hss (hsib x' hx v hv).1 hxV (hsib x' hx v hv).2.2.2) hr.aligned hr.1 hrx]
        exact ⟨_, ⟨u, hu, rfl⟩, hfz⟩
      obtain ⟨y, hy, h9, h10⟩ := h6.mp (h7.mp h8)
      exact ⟨y, hy, h9, (hone (hpv y hy) hr).mp h10⟩
    · rintro ⟨y, hy, h9, h10⟩
      have h8 := h7.mpr (h6.mpr ⟨y, hy, h9, (hone (hpv y hy) hr).mpr h10⟩)
      have h11 : Divides (Cells x) k {b | (0, b) ∈ out ∧ Cells b ⊂ Cells x} r := by
        refine divides_one ?_ h8
        rintro b ⟨u, hu, rfl⟩
        exact ⟨(hout _).mpr ⟨x, hx, u, hu, rfl⟩, (hsib x hx u hu).2.2.2⟩
      have h4 := uniq_inside hd hvout hxV.aligned h11
      rw [divides_inside hd hxV.aligned hxV.1 (S := {b | (0, b) ∈ uniqifyOverlap out ∧ Cells b ⊂ Cells x})
          (fun b hb => hss (hvout _ (e2 _ hb.1)).1 hxV hb.2) hr.aligned hr.1 hrx] at h4
      obtain ⟨b, hb, h5⟩ := h4
      exact ⟨(0, b), hb.1, hb.2, h5⟩

end P4est
