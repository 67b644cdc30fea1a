import Verif.Props.BalanceClosed
import Verif.Props.Overlap
import Verif.Props.Neighborhood

/-! # Quadrants around a quadrant -/

namespace P4est
open Spec

variable {d : ℕ} {k : ℕ}

/-- A quadrant with a point in the tree is in the tree. -/
theorem valid_of_point {n : Quad d} {p : Fin d → ℤ} (hn : Aligned n) (h29 : n.level ≤ 29) (hp : p ∈ Cells n)
    (ht : p ∈ TreeBox d) : Valid n := by
  refine ⟨h29, hn, fun i => ?_⟩
  have h1 := hp i
  have h2 : 0 ≤ p i ∧ p i < 2 ^ 30 := ht i
  obtain ⟨m, hm⟩ := hn.2 i
  have hs := side_pos n
  have e : (2 : ℤ) ^ (30 - n.level) = side n := rfl
  refine ⟨?_, lt_of_le_of_lt h1.1 h2.2⟩
  by_contra hc
  push Not at hc
  have hm0 : m < 0 := by
    by_contra hm0
    push Not at hm0
    have : 0 ≤ side n * m := mul_nonneg hs.le hm0
    rw [hm] at hc
    exact absurd hc (not_lt.mpr this)
  have : side n * m ≤ side n * (-1) := mul_le_mul_of_nonneg_left (by omega) hs.le
  have h3 : n.c i = side n * m := hm
  have h4 := h1.2
  have e2 : side n = qlen n.level := rfl
  nlinarith

/-- The points next to a quadrant are in the quadrants around it. -/
theorem near_layer (hdim : d = 2 ∨ d = 3) {x : Quad d} {a b : Fin d → ℤ} (ha : a ∈ Cells x) (hb : b ∉ Cells x)
    (h : ∀ i, a i ≤ b i + 1 ∧ b i ≤ a i + 1) : ∃ w < 3 ^ d, w ≠ 3 ^ d / 2 ∧ b ∈ Cells (insulQuad x w) := by
  let o : Fin d → ℤ := fun i => if b i < x.c i then -1 else if x.c i + side x ≤ b i then 1 else 0
  have ho : ∀ i, o i = -1 ∨ o i = 0 ∨ o i = 1 := by
    intro i
    show (if _ then _ else _) = _ ∨ (if _ then _ else _) = _ ∨ (if _ then _ else _) = _
    split_ifs <;> simp
  obtain ⟨w, hw, ho'⟩ := insulOff_exists hdim ho
  have hp := side_pos x
  have hmem : b ∈ Cells (insulQuad x w) := by
    intro i
    have h1 := ha i
    have h2 := h i
    have e1 : side (insulQuad x w) = side x := rfl
    have e2 : qlen x.level = side x := rfl
    have h3 : (insulQuad x w).c i = x.c i + o i * side x := by rw [insulQuad_c, ho' i, e2]
    rw [e1, h3]
    show x.c i + (if b i < x.c i then -1 else if x.c i + side x ≤ b i then 1 else 0) * side x ≤ b i ∧
      b i < x.c i + (if b i < x.c i then -1 else if x.c i + side x ≤ b i then 1 else 0) * side x + side x
    split_ifs with c1 c2 <;> constructor <;> omega
  refine ⟨w, hw, ?_, hmem⟩
  rintro rfl
  apply hb
  have : insulQuad x (3 ^ d / 2) = x := by
    apply Quad.ext'
    · intro i
      rw [insulQuad_c]
      have : insulOff d (3 ^ d / 2) i = 0 := by
        rcases hdim with rfl | rfl
        · have : ∀ i, insulOff 2 (3 ^ 2 / 2) i = 0 := by decide +kernel
          exact this i
        · have : ∀ i, insulOff 3 (3 ^ 3 / 2) i = 0 := by decide +kernel
          exact this i
      rw [this]; ring
    · rfl
  rwa [this] at hmem

/-- Quadrants that touch have points next to each other. -/
theorem touching_near {a b : Quad d} (h : Touching a b) :
    ∃ x ∈ Cells a, ∃ y ∈ Cells b, ∀ i, x i ≤ y i + 1 ∧ y i ≤ x i + 1 := by
  refine ⟨fun i => max (a.c i) (min (b.c i) (a.c i + side a - 1)), ?_,
    fun i => max (b.c i) (min (a.c i) (b.c i + side b - 1)), ?_, ?_⟩
  · intro i
    have := side_pos a
    dsimp only
    omega
  · intro i
    have := side_pos b
    dsimp only
    omega
  · intro i
    have h1 := h i
    have := side_pos a
    have := side_pos b
    dsimp only
    omega

theorem touch_touching {a b : Quad d} (h : Touch k a b) : Touching a b := by
  obtain ⟨A, -, -, h3, h4⟩ := h
  intro i
  have := side_pos a
  have := side_pos b
  by_cases hi : i ∈ A
  · rcases h3 i hi with h | h <;> constructor <;> omega
  · have := h4 i hi
    unfold OverlapOn at this
    constructor <;> omega

/-- Along a line from a point in a set to a point outside of it the set is left at some place. -/
theorem leave_set (S : Set (Fin d → ℤ)) (q : Quad d) : ∀ (N : ℕ) (a b : Fin d → ℤ), a ∈ Cells q → b ∈ Cells q → a ∈ S → b ∉ S →
    (∀ i, a i ≤ b i + N ∧ b i ≤ a i + N) →
    ∃ a' ∈ Cells q, ∃ b' ∈ Cells q, a' ∈ S ∧ b' ∉ S ∧ ∀ i, a' i ≤ b' i + 1 ∧ b' i ≤ a' i + 1 := by
  intro N
  induction N with
  | zero =>
    intro a b _ _ ha hb h
    exfalso
    apply hb
    have : b = a := funext fun i => by have := h i; push_cast at this; omega
    rw [this]; exact ha
  | succ N ih =>
    intro a b haq hbq ha hb h
    let c : Fin d → ℤ := fun i => if a i < b i then a i + 1 else if b i < a i then a i - 1 else a i
    have hc : ∀ i, (a i < b i ∧ c i = a i + 1) ∨ (b i < a i ∧ c i = a i - 1) ∨ (a i = b i ∧ c i = a i) := by
      intro i
      show (_ ∧ (if _ then _ else _) = _) ∨ (_ ∧ (if _ then _ else _) = _) ∨ (_ ∧ (if _ then _ else _) = _)
      split_ifs with h1 h2
      · exact Or.inl ⟨h1, rfl⟩
      · exact Or.inr (Or.inl ⟨h2, rfl⟩)
      · exact Or.inr (Or.inr ⟨by omega, rfl⟩)
    have hcq : c ∈ Cells q := by
      intro i
      have h1 := haq i
      have h2 := hbq i
      rcases hc i with g | g | g <;> constructor <;> omega
    by_cases hcS : c ∈ S
    · refine ih c b hcq hbq hcS hb fun i => ?_
      have h1 := h i
      push_cast at h1
      rcases hc i with g | g | g <;> constructor <;> omega
    · refine ⟨a, haq, c, hcq, ha, hcS, fun i => ?_⟩
      rcases hc i with g | g | g <;> constructor <;> omega

theorem leave_quad (S : Set (Fin d → ℤ)) {q : Quad d} {a b : Fin d → ℤ} (haq : a ∈ Cells q) (hbq : b ∈ Cells q) (ha : a ∈ S)
    (hb : b ∉ S) :
    ∃ a' ∈ Cells q, ∃ b' ∈ Cells q, a' ∈ S ∧ b' ∉ S ∧ ∀ i, a' i ≤ b' i + 1 ∧ b' i ≤ a' i + 1 := by
  refine leave_set S q (side q).toNat a b haq hbq ha hb fun i => ?_
  have h1 := haq i
  have h2 := hbq i
  have := side_pos q
  rw [Int.toNat_of_nonneg this.le]
  constructor <;> omega

/-- The leaves that have a quadrant around them that is not in the part are in `B`. -/
def HasBorder (f l : Quad d) (L B : List (Quad d)) : Prop :=
  (∀ x ∈ B, x ∈ L) ∧ ∀ x ∈ L, ∀ w < 3 ^ d, w ≠ 3 ^ d / 2 → Valid (insulQuad x w) →
    ¬ Cells (insulQuad x w) ⊆ Section f l → x ∈ B

/-- A leaf with a point of the tree next to it that is not in the part. -/
theorem HasBorder.near (hdim : d = 2 ∨ d = 3) {f l : Quad d} {L B : List (Quad d)} (hT : Tiles f l L)
    (h : HasBorder f l L B) {x : Quad d} (hx : x ∈ L) {a b : Fin d → ℤ} (ha : a ∈ Cells x) (hb : b ∈ TreeBox d)
    (hbs : b ∉ Section f l) (hab : ∀ i, a i ≤ b i + 1 ∧ b i ≤ a i + 1) : x ∈ B := by
  have hxs : Cells x ⊆ Section f l := by
    rw [← hT.cover]
    exact fun p hp => ⟨x, hx, hp⟩
  obtain ⟨w, h1, h2, h3⟩ := near_layer hdim ha (fun h => hbs (hxs h)) hab
  have hxv := hT.valid x hx
  exact h.2 x hx w h1 h2 (valid_of_point (insulQuad_aligned hxv.aligned w) hxv.1 h3 hb) fun hc => hbs (hc h3)

/-- A quadrant that is in the part with only some of its points contains a leaf of the border. -/
theorem HasBorder.straddle (hdim : d = 2 ∨ d = 3) {f l : Quad d} {L B : List (Quad d)} (hT : Tiles f l L)
    (h : HasBorder f l L B) {s : Quad d} (hs : Aligned s) (hsb : Cells s ⊆ TreeBox d) (hm : (Cells s ∩ Section f l).Nonempty)
    (hn : ¬ Cells s ⊆ Section f l) : ∃ x ∈ B, Cells x ⊂ Cells s := by
  obtain ⟨a, ha1, ha2⟩ := hm
  obtain ⟨b, hb1, hb2⟩ := Set.not_subset.mp hn
  obtain ⟨a', h1, b', h2, h3, h4, h5⟩ := leave_quad _ ha1 hb1 ha2 hb2
  rw [← hT.cover] at h3
  obtain ⟨x, hx, hxa⟩ := h3
  have hxs : Cells x ⊆ Section f l := by
    rw [← hT.cover]
    exact fun p hp => ⟨x, hx, hp⟩
  have hnot : ¬ Cells s ⊆ Cells x := fun hc => h4 (hxs (hc h2))
  refine ⟨x, h.near hdim hT hx hxa (hsb h2) h4 h5, ?_, hnot⟩
  exact (laminar hs (hT.valid x hx).aligned ⟨a', h1, hxa⟩).resolve_right hnot

/-- Where a quadrant that touches a quadrant from elsewhere meets the part there is a leaf of the border. -/
theorem HasBorder.found (hdim : d = 2 ∨ d = 3) {f l : Quad d} {L B : List (Quad d)} (hT : Tiles f l L)
    (h : HasBorder f l L B) {q : Quad d} (hq : Valid q) (hqs : Cells q ∩ Section f l = ∅) {s : Quad d} (hs : Valid s)
    (ht : Touching s q) (hm : (Cells s ∩ Section f l).Nonempty) : ∃ x ∈ B, Cells x ⊆ Cells s ∨ Cells s ⊆ Cells x := by
  by_cases hc : Cells s ⊆ Section f l
  · obtain ⟨a, ha, b, hb, hab⟩ := touching_near ht
    have ha' := hc ha
    rw [← hT.cover] at ha'
    obtain ⟨x, hx, hxa⟩ := ha'
    refine ⟨x, h.near hdim hT hx hxa (valid_treeBox hq hb) (fun hb' => ?_) hab, ?_⟩
    · rw [Set.eq_empty_iff_forall_notMem] at hqs
      exact hqs b ⟨hb, hb'⟩
    · exact laminar (hT.valid x hx).aligned hs.aligned ⟨a, hxa, ha⟩ |>.symm
  · obtain ⟨x, hx, hxs⟩ := h.straddle hdim hT hs.aligned (valid_treeBox hs) hm hc
    exact ⟨x, hx, Or.inl hxs.1⟩

/-- The leaves of the border are enough for the comparison with a quadrant from elsewhere. -/
theorem HasBorder.leavesFor (hdim : d = 2 ∨ d = 3) {f l : Quad d} {L B : List (Quad d)} (hT : Tiles f l L)
    (h : HasBorder f l L B) (hlin : Linear B) {q : Quad d} (hq : Valid q) (hqs : Cells q ∩ Section f l = ∅)
    (hne : ∃ s, Valid s ∧ Touching s q ∧ (Cells s ∩ Section f l).Nonempty) :
    LeavesFor f l q B where
  valid x hx := hT.valid x (h.1 x hx)
  linear := hlin
  inside x hx := by
    rw [← hT.cover]
    exact fun p hp => ⟨x, h.1 x hx, hp⟩
  apart x hx := by
    rw [Set.eq_empty_iff_forall_notMem] at hqs ⊢
    rintro p ⟨h1, h2⟩
    refine hqs p ⟨h2, ?_⟩
    rw [← hT.cover]
    exact ⟨x, h.1 x hx, h1⟩
  some_ := by
    obtain ⟨s, h1, h2, h3⟩ := hne
    obtain ⟨x, hx, -⟩ := h.found hdim hT hq hqs h1 h2 h3
    exact List.ne_nil_of_mem hx
  found s hs _ _ ht hm := h.found hdim hT hq hqs hs ht hm

/-- When a quadrant that touches is enlarged but stays apart it still touches. -/
theorem touch_enlarge {a b v : Quad d} (h : Touch k a b) (hbv : Cells b ⊆ Cells v) (hdis : ¬ (Cells a ∩ Cells v).Nonempty) :
    Touch k a v := by
  classical
  obtain ⟨A, h1, h2, h3, h4⟩ := h
  have hpa := side_pos a
  have hpb := side_pos b
  have hext := cells_ext hbv
  have hov : ∀ i, i ∉ A → OverlapOn a v i := fun i hi => by
    have := h4 i hi
    have := hext i
    unfold OverlapOn at *
    omega
  refine ⟨A.filter fun i => ¬ OverlapOn a v i, ?_, ?_, ?_, ?_⟩
  · rw [Finset.one_le_card]
    by_contra hc
    rw [Finset.not_nonempty_iff_eq_empty, Finset.filter_eq_empty_iff] at hc
    push Not at hc
    have hall : ∀ i, OverlapOn a v i := fun i => by
      by_cases hi : i ∈ A
      · exact hc hi
      · exact hov i hi
    apply hdis
    refine ⟨fun i => max (a.c i) (v.c i), fun i => ?_, fun i => ?_⟩
    · have := hall i
      unfold OverlapOn at this
      dsimp only
      omega
    · have hpv := side_pos v
      have := hall i
      unfold OverlapOn at this
      dsimp only
      omega
  · exact (Finset.card_filter_le _ _).trans h2
  · intro i hi
    rw [Finset.mem_filter] at hi
    have g1 := h3 i hi.1
    have g2 := hi.2
    have := hext i
    unfold OverlapOn at g2
    unfold MeetOn at g1 ⊢
    omega
  · intro i hi
    by_cases hA : i ∈ A
    · by_contra hc
      exact hi (Finset.mem_filter.mpr ⟨hA, hc⟩)
    · exact hov i hA

theorem touch_symm {a b : Quad d} (h : Touch k a b) : Touch k b a := by
  obtain ⟨A, h1, h2, h3, h4⟩ := h
  exact ⟨A, h1, h2, fun i hi => (h3 i hi).symm, fun i hi => ⟨(h4 i hi).2, (h4 i hi).1⟩⟩

/-- For quadrants outside of a part that is balanced it is enough to know the border of the part. -/
theorem HasBorder.enough (hdim : d = 2 ∨ d = 3) {f l : Quad d} {L B : List (Quad d)} (hT : Tiles f l L)
    (h : HasBorder f l L B) (hbal : Balanced k L) {r : Quad d} (hrs : Cells r ∩ Section f l = ∅)
    (hdv : Divides (TreeBox d) k {y | y ∈ L} r) : Divides (TreeBox d) k {y | y ∈ B} r := by
  intro U hU hG hfine
  have hsec : ∀ x ∈ L, Cells x ⊆ Section f l := fun x hx => by
    rw [← hT.cover]
    exact fun p hp => ⟨x, hx, hp⟩
  have hleq : ∀ x ∈ L, ∀ y ∈ L, (Cells x ∩ Cells y).Nonempty → x = y := fun x hx y hy => linear_eq_of_meet hT.linear hx hy
  have hbox : ∀ u ∈ U, Cells u ⊆ TreeBox d := fun u hu x hx => (hU.cover x).mpr ⟨u, hu, hx⟩
  have hside : ∀ u ∈ U, (Cells u ∩ Section f l).Nonempty → Cells u ⊆ Section f l := by
    intro u hu hm
    by_contra hc
    obtain ⟨x, hx, hxu⟩ := h.straddle hdim hT (hU.legal u hu).1 (hbox u hu) hm hc
    exact hfine x hx u hu hxu
  let U' : Set (Quad d) := {u | (u ∈ U ∧ ∀ x ∈ L, ¬ Cells x ⊂ Cells u) ∨ (u ∈ L ∧ ∃ v ∈ U, Cells u ⊂ Cells v)}
  have hP : Paves (TreeBox d) U' := by
    refine ⟨?_, ?_, ?_⟩
    · rintro u (⟨hu, -⟩ | ⟨hu, -⟩)
      · exact hU.legal u hu
      · exact ⟨(hT.valid u hu).aligned, (hT.valid u hu).1⟩
    · rintro u (⟨hu, hu'⟩ | ⟨hu, w, hw, hw'⟩) v (⟨hv, hv'⟩ | ⟨hv, z, hz, hz'⟩) hm
      · exact hU.disjoint u hu v hv hm
      · exfalso
        have : u = z := hU.disjoint u hu z hz (hm.mono (Set.inter_subset_inter_right _ hz'.1))
        rw [← this] at hz'
        exact hu' v hv hz'
      · exfalso
        have : w = v := hU.disjoint w hw v hv (hm.mono (Set.inter_subset_inter_left _ hw'.1))
        rw [this] at hw'
        exact hv' u hu hw'
      · exact hleq u hu v hv hm
    · intro x
      constructor
      · intro hx
        obtain ⟨u, hu, hxu⟩ := (hU.cover x).mp hx
        by_cases hk : ∀ y ∈ L, ¬ Cells y ⊂ Cells u
        · exact ⟨u, Or.inl ⟨hu, hk⟩, hxu⟩
        · push Not at hk
          obtain ⟨y, hy, hyu⟩ := hk
          have hus := hside u hu ⟨y.c, hyu.1 (corner_mem y), hsec y hy (corner_mem y)⟩
          have hxs := hus hxu
          rw [← hT.cover] at hxs
          obtain ⟨z, hz, hxz⟩ := hxs
          refine ⟨z, Or.inr ⟨hz, u, hu, ?_⟩, hxz⟩
          have hnot : ¬ Cells u ⊆ Cells z := fun hc => by
            have : y = z := hleq y hy z hz ⟨y.c, corner_mem y, hc (hyu.1 (corner_mem y))⟩
            rw [this] at hyu
            exact hyu.2 hc
          exact ⟨(laminar (hU.legal u hu).1 (hT.valid z hz).aligned ⟨x, hxu, hxz⟩).resolve_right hnot, hnot⟩
      · rintro ⟨u, ⟨hu, -⟩ | ⟨hu, v, hv, hv'⟩, hxu⟩
        · exact hbox u hu hxu
        · exact hbox v hv (hv'.1 hxu)
  have hd : 0 < d := by omega
  have hlev : ∀ x ∈ L, ∀ v ∈ U, Cells x ⊂ Cells v → v.level ≤ x.level := fun x hx v hv hs =>
    ((cells_subset_iff hd (hU.legal v hv).1 (hT.valid x hx).aligned).mp hs.1).1
  have hG' : GradedBy k U' := by
    rintro a (⟨ha, ha'⟩ | ⟨ha, v, hv, hv'⟩) b (⟨hb, hb'⟩ | ⟨hb, w, hw, hw'⟩) ht
    · exact hG a ha b hb ht
    · have h1 : ¬ (Cells a ∩ Cells w).Nonempty := fun hm => by
        have := hU.disjoint a ha w hw hm
        rw [← this] at hw'
        exact ha' b hb hw'
      have := hG a ha w hw (touch_enlarge ht hw'.1 h1)
      have := hlev b hb w hw hw'
      omega
    · by_cases hm : (Cells b ∩ Section f l).Nonempty
      · have hbs := hside b hb hm
        have hc := hbs (corner_mem b)
        rw [← hT.cover] at hc
        obtain ⟨y, hy, hby⟩ := hc
        have hyb : Cells b ⊆ Cells y := by
          rcases laminar (hU.legal b hb).1 (hT.valid y hy).aligned ⟨b.c, corner_mem b, hby⟩ with g | g
          · by_contra hc
            exact hb' y hy ⟨g, hc⟩
          · exact g
        have h1 : ¬ (Cells a ∩ Cells y).Nonempty := fun hm' => by
          have e := hleq a ha y hy hm'
          subst e
          have hbv : b = v := hU.disjoint b hb v hv ⟨b.c, corner_mem b, hv'.1 hby⟩
          subst hbv
          exact hv'.2 hyb
        have := hbal a ha y hy (touch_enlarge ht hyb h1)
        have := ((cells_subset_iff hd (hT.valid y hy).aligned (hU.legal b hb).1).mp hyb).1
        omega
      · exfalso
        obtain ⟨x, hx, y, hy, hxy⟩ := touching_near (touch_touching ht)
        exact hfine a (h.near hdim hT ha hx (hbox b hb hy) (fun hs => hm ⟨y, hy, hs⟩) hxy) v hv hv'
    · exact hbal a ha b hb ht
  have hfin := hdv U' hP hG' (by
    rintro y hy u (⟨hu, hu'⟩ | ⟨hu, -⟩) hs
    · exact hu' y hy hs
    · have := hleq y hy u hu ⟨y.c, corner_mem y, hs.1 (corner_mem y)⟩
      rw [this] at hs
      exact lt_irrefl _ hs)
  intro u hu hru
  refine hfin u (Or.inl ⟨hu, fun x hx hxu => ?_⟩) hru
  have hus := hside u hu ⟨x.c, hxu.1 (corner_mem x), hsec x hx (corner_mem x)⟩
  rw [Set.eq_empty_iff_forall_notMem] at hrs
  exact hrs r.c ⟨corner_mem r, hus (hru (corner_mem r))⟩

end P4est
