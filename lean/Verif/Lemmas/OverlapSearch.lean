import Verif.Lemmas.OverlapScan
import Verif.Props.Search
import Verif.Lemmas.BalanceSub
import Verif.Props.Balance
import Verif.Props.FaceNeighbor

/-! # The leaves that belong to one quadrant of the insulation layer -/

namespace P4est
open Spec

variable {d : ℕ} {k : ℕ}

theorem volume_le {a b : Quad d} (h : a.level ≤ b.level) : volume b ≤ volume a := by
  unfold volume
  exact Nat.pow_le_pow_right (by norm_num) (Nat.mul_le_mul_left _ (by omega))

theorem volume_pos' (a : Quad d) : 0 < volume a := by unfold volume; positivity

theorem starts_of_linear {L : List (Quad d)} (hd : 0 < d) (hv : ∀ x ∈ L, Valid x) (hl : Linear L) :
    ∀ i j (hi : i < L.length) (hj : j < L.length), i < j → stop L[i] ≤ start L[j] := by
  intro i j hi hj hij
  obtain ⟨h1, h2⟩ := List.pairwise_iff_getElem.mp hl i j hi hj hij
  have v1 := hv _ (List.getElem_mem hi)
  have v2 := hv _ (List.getElem_mem hj)
  by_contra hc
  push Not at hc
  have h3 : start L[i] ≤ start L[j] := by
    rcases h1 with h | h
    · exact h.le
    · exact h.1.le
  rw [Set.eq_empty_iff_forall_notMem] at h2
  exact h2 L[j].c ⟨(mem_iff_pos v1.aligned v1.int32 v2.int32).mpr ⟨h3, hc⟩, corner_mem _⟩

/-- In the order of the tree the quadrants inside of `s` are those from `s` to its last descendant. -/
theorem between_iff (hd : 0 < d) {s y : Quad d} (hs : Valid s) (hy : Valid y) :
    Cells y ⊆ Cells s ↔ ¬ Before y s ∧ ¬ Before (lastDesc s 29) y := by
  have hs29 := hs.1
  have hy29 := hy.1
  have e1 := stop_lastDesc hs.aligned hs.int32 hs29 (show 29 ≤ 30 by norm_num)
  have hvol : volume (lastDesc s 29) ≤ volume y := volume_le (by simpa using hy29)
  have hvol2 : volume (lastDesc s 29) ≤ volume s := volume_le (by simpa using hs29)
  have p1 := volume_pos' (lastDesc s 29)
  have es : ∀ q : Quad d, stop q = start q + volume q := fun q => rfl
  rw [valid_subset_iff hd hs hy]
  have b1 : Before y s ↔ start y < start s ∨ (start y = start s ∧ y.level < s.level) := Iff.rfl
  have b2 : Before (lastDesc s 29) y ↔ start (lastDesc s 29) < start y ∨ (start (lastDesc s 29) = start y ∧ 29 < y.level) := Iff.rfl
  rw [b1, b2]
  have e2 := es (lastDesc s 29)
  have e3 := es y
  have e4 := es s
  constructor
  · rintro ⟨h1, h2⟩
    refine ⟨?_, ?_⟩
    · rintro (h | ⟨h, h3⟩)
      · omega
      · have : volume y ≤ volume s := by omega
        have hsub : Cells y ⊆ Cells s := (valid_subset_iff hd hs hy).mpr ⟨h1, h2⟩
        have := ((cells_subset_iff hd hs.aligned hy.aligned).mp hsub).1
        omega
    · rintro (h | ⟨h, h3⟩)
      · omega
      · omega
  · rintro ⟨h1, h2⟩
    push Not at h1 h2
    have h3 : start s ≤ start y := h1.1
    have h4 : start y < stop s := by omega
    have hmem : y.c ∈ Cells s := (mem_iff_pos hs.aligned hs.int32 hy.int32).mpr ⟨h3, h4⟩
    rw [← valid_subset_iff hd hs hy]
    rcases laminar hs.aligned hy.aligned ⟨y.c, hmem, corner_mem y⟩ with h | h
    · exact h
    · have h5 := (valid_subset_iff hd hy hs).mp h
      have h6 := ((cells_subset_iff hd hy.aligned hs.aligned).mp h).1
      have h7 : start y = start s := by omega
      have h8 := h1.2 h7
      exact cells_subset hs.aligned hy.aligned (by omega) hmem

/-- A quadrant that contains `s` is not after the last descendant. -/
theorem around_before (hd : 0 < d) {s y : Quad d} (hs : Valid s) (hy : Valid y) (h : Cells s ⊆ Cells y) :
    ¬ Before (lastDesc s 29) y := by
  have hs29 := hs.1
  have hy29 := hy.1
  have e1 := stop_lastDesc hs.aligned hs.int32 hs29 (show 29 ≤ 30 by norm_num)
  have hvol2 : volume (lastDesc s 29) ≤ volume s := volume_le (by simpa using hs29)
  have es : ∀ q : Quad d, stop q = start q + volume q := fun q => rfl
  have h1 := (valid_subset_iff hd hy hs).mp h
  have b2 : Before (lastDesc s 29) y ↔ start (lastDesc s 29) < start y ∨ (start (lastDesc s 29) = start y ∧ 29 < y.level) := Iff.rfl
  rw [b2]
  have e2 := es (lastDesc s 29)
  have e4 := es s
  omega

theorem insulQuad_aligned {inq : Quad d} (h : Aligned inq) (w : ℕ) : Aligned (insulQuad inq w) := by
  refine ⟨h.1, fun i => ?_⟩
  have h1 := h.2 i
  show qlen inq.level ∣ inq.c i + insulOff d w i * qlen inq.level
  exact dvd_add h1 (dvd_mul_left _ _)

theorem inside_of_overlap (hd : 0 < d) {s x : Quad d} (hs : Aligned s) (hs29 : s.level ≤ 29) (hx : Valid x)
    (h : Cells x ⊆ Cells s ∨ Cells s ⊆ Cells x) : Valid s := by
  rcases h with h | h
  · refine ⟨hs29, hs, fun i => ?_⟩
    have h1 := h (corner_mem x) i
    have h2 := hx.2.2 i
    obtain ⟨m, hm⟩ := hs.2 i
    have hp : 0 < side s := side_pos s
    have : 0 ≤ m := by
      by_contra hc
      push Not at hc
      have : side s * m ≤ side s * (-1) := mul_le_mul_of_nonneg_left (by omega) hp.le
      omega
    have : 0 ≤ side s * m := mul_nonneg hp.le this
    omega
  · exact valid_subset hx hs hs29 (h (corner_mem s))

theorem insulOff_middle (hdim : d = 2 ∨ d = 3) {w : ℕ} (hw : w < 3 ^ d) (hm : w ≠ 3 ^ d / 2) :
    ∃ i, insulOff d w i ≠ 0 := by
  rcases hdim with rfl | rfl
  · have : ∀ w < 9, w ≠ 4 → ∃ i, insulOff 2 w i ≠ 0 := by decide +kernel
    exact this w hw (by simpa using hm)
  · have : ∀ w < 27, w ≠ 13 → ∃ i, insulOff 3 w i ≠ 0 := by decide +kernel
    exact this w hw (by simpa using hm)

theorem insulQuad_ne (hdim : d = 2 ∨ d = 3) (inq : Quad d) {w : ℕ} (hw : w < 3 ^ d) (hm : w ≠ 3 ^ d / 2) :
    insulQuad inq w ≠ inq := by
  obtain ⟨i, hi⟩ := insulOff_middle hdim hw hm
  intro h
  have h1 : (insulQuad inq w).c i = inq.c i := by rw [h]
  rw [insulQuad_c] at h1
  have hp : 0 < qlen inq.level := side_pos inq
  have h2 : insulOff d w i * qlen inq.level = 0 := by linarith
  rcases mul_eq_zero.mp h2 with h3 | h3
  · exact hi h3
  · omega

theorem insulQuad_touching (inq : Quad d) (w : ℕ) : Touching (insulQuad inq w) inq := by
  intro i
  have hp : 0 < qlen inq.level := side_pos inq
  have e1 : side (insulQuad inq w) = qlen inq.level := rfl
  have e2 : side inq = qlen inq.level := rfl
  rw [e1, e2, insulQuad_c]
  rcases insulOff_cases w i with e | e | e <;> rw [e] <;> constructor <;> linarith

theorem sortedWeak_of_linear {L : List (Quad d)} (h : Linear L) : SortedWeak L := by
  unfold SortedWeak
  exact List.Pairwise.imp (fun h => h.1.asymm) h

theorem linear_eq_of_meet {L : List (Quad d)} (h : Linear L) {x y : Quad d} (hx : x ∈ L) (hy : y ∈ L)
    (hm : (Cells x ∩ Cells y).Nonempty) : x = y := by
  obtain ⟨i, hi, rfl⟩ := List.getElem_of_mem hx
  obtain ⟨j, hj, rfl⟩ := List.getElem_of_mem hy
  have hp := List.pairwise_iff_getElem.mp h
  rcases Nat.lt_trichotomy i j with h1 | h1 | h1
  · rw [(hp i j hi hj h1).2] at hm
    exact absurd hm Set.not_nonempty_empty
  · subst h1; rfl
  · rw [Set.inter_comm, (hp j i hj hi h1).2] at hm
    exact absurd hm Set.not_nonempty_empty

/-- What one quadrant of the insulation layer does. -/
theorem which_spec (hdim : d = 2 ∨ d = 3) {f l inq : Quad d} {L : List (Quad d)} (hf : Valid f) (hl : Valid l)
    (hf29 : f.level = 29) (hl29 : l.level = 29) (hq : Aligned inq) (hq29 : inq.level ≤ 29) (hL : LeavesFor f l inq L)
    {w : ℕ} (hw : w < 3 ^ d) (hm : w ≠ 3 ^ d / 2) (st : OverlapSt d) :
    (overlapWhich k L f l inq st w = some st ∧
      (∀ x ∈ L, ¬ Cells (insulQuad inq w) ⊆ Cells x) ∧ ∀ x ∈ L, ¬ Cells x ⊆ Cells (insulQuad inq w)) ∨
    (∃ T : List (Quad d), overlapWhich k L f l inq st w = some { st with seeds := (T.foldl (overlapStep k inq
          ((insulToFace d).getD w (-1)) ((insulToEdge d).getD w (-1)) ((insulToCorner d).getD w (-1)))
          (inq.level + 1, st.seeds)).2 } ∧
      (∀ x, x ∈ T ↔ x ∈ L ∧ Cells x ⊆ Cells (insulQuad inq w)) ∧
      ∀ x ∈ L, Cells (insulQuad inq w) ⊆ Cells x → x.level = inq.level) ∨
    (∃ j, ∃ hj : j < L.length, overlapWhich k L f l inq st w = overlapCoarse k inq L[j] j st ∧
      Cells (insulQuad inq w) ⊆ Cells L[j] ∧
      ∀ x ∈ L, Cells x ⊆ Cells (insulQuad inq w) → x.level = inq.level) := by
  have hd : 0 < d := by omega
  set s := insulQuad inq w with hs
  have hsa : Aligned s := insulQuad_aligned hq w
  have hs29 : s.level ≤ 29 := hq29
  have hslev : s.level = inq.level := rfl
  have es : ∀ q : Quad d, stop q = start q + volume q := fun q => rfl
  have hvf : volume f = 2 ^ d := by unfold volume; rw [hf29]; norm_num
  have hvl : volume l = 2 ^ d := by unfold volume; rw [hl29]; norm_num
  have hv29 : ∀ q : Quad d, q.level ≤ 29 → 2 ^ d ≤ volume q := fun q h => by
    rw [← hvf]; exact volume_le (by omega)
  have hP : 0 < 2 ^ d := by positivity
  have hlen : 0 < L.length := List.length_pos_iff.mpr hL.some_
  have hin : ∀ x ∈ L, start f ≤ start x ∧ stop x ≤ stop l := fun x hx =>
    (section_iff hd (hL.valid x hx)).mp (hL.inside x hx)
  unfold overlapWhich
  simp only []
  rw [if_neg hm, ← hs]
  by_cases hroot : isInsideRoot s = true
  swap
  · left
    rw [if_pos hroot]
    refine ⟨rfl, fun x hx hc => ?_, fun x hx hc => ?_⟩
    · exact hroot (isInsideRoot_iff.mpr (inside_of_overlap hd hsa hs29 (hL.valid x hx) (Or.inr hc)).2.2)
    · exact hroot (isInsideRoot_iff.mpr (inside_of_overlap hd hsa hs29 (hL.valid x hx) (Or.inl hc)).2.2)
  rw [if_neg (not_not.mpr hroot)]
  have hsv : Valid s := ⟨hs29, hsa, isInsideRoot_iff.mp hroot⟩
  set fd := firstDesc s 29 with hfd
  set ld := lastDesc s 29 with hld
  have ifd : Int32 fd.c := hsv.int32
  have ild : Int32 ld.c := lastDesc_int32 hsa hsv.int32 hs29
  have elds : stop ld = stop s := stop_lastDesc hsa hsv.int32 hs29 (by norm_num)
  have efds : start fd = start s := rfl
  have hvld : volume ld = 2 ^ d := by show 2 ^ (d * (30 - 29)) = 2 ^ d; norm_num
  have e1 := es ld
  have e2 := es s
  have e3 := es f
  have e4 := es l
  have hvs := hv29 s hs29
  have bld : ∀ y : Quad d, y.level = 29 → (Before ld y ↔ start ld < start y) := fun y hy => by
    have : Before ld y ↔ start ld < start y ∨ (start ld = start y ∧ 29 < y.level) := Iff.rfl
    rw [this, hy]; simp
  have bfd : Before l fd ↔ start l < start s := by
    have : Before l fd ↔ start l < start s ∨ (start l = start s ∧ l.level < 29) := Iff.rfl
    rw [this, hl29]; simp
  have hiff : (compare ld f < 0 ∨ compare l fd < 0) ↔ (start ld < start f ∨ start l < start s) := by
    rw [compare_neg_iff hd ild hf.int32, compare_neg_iff hd hl.int32 ifd, bld f hf29, bfd]
  by_cases hskip : start ld < start f ∨ start l < start s
  · left
    rw [if_pos (hiff.mpr hskip)]
    refine ⟨rfl, fun x hx hc => ?_, fun x hx hc => ?_⟩
    · have h1 := (valid_subset_iff hd (hL.valid x hx) hsv).mp hc
      have h2 := hin x hx
      omega
    · have h1 := (valid_subset_iff hd hsv (hL.valid x hx)).mp hc
      have h2 := hin x hx
      have h3 := hv29 x (hL.valid x hx).1
      have h4 := es x
      omega
  rw [if_neg (fun h => hskip (hiff.mp h))]
  push Not at hskip
  -- some leaf is related to `s`
  have hfl : start f < stop l := by
    have h1 := hin _ (List.getElem_mem hlen)
    have h4 := es L[0]
    have h3 := hv29 _ (hL.valid _ (List.getElem_mem hlen)).1
    omega
  have hmeet : (Cells s ∩ Section f l).Nonempty := by
    by_cases h : start f ≤ start s
    · exact ⟨s.c, corner_mem s, hsv.int32, h, by show start s < stop l; omega⟩
    · exact ⟨f.c, (mem_iff_pos hsa hsv.int32 hf.int32).mpr ⟨by show start s ≤ start f; omega,
        by show start f < stop s; omega⟩, hf.int32, le_refl _, hfl⟩
  obtain ⟨x0, hx0, hrel⟩ := hL.found s hsv hslev (insulQuad_ne hdim inq hw hm) (insulQuad_touching inq w) hmeet
  have hi32 : ∀ x ∈ L, Int32 x.c := fun x hx => (hL.valid x hx).int32
  have hsw := sortedWeak_of_linear hL.linear
  have hx0b : ¬ Before ld x0 := by
    rcases hrel with h | h
    · exact ((between_iff hd hsv (hL.valid x0 hx0)).mp h).2
    · exact around_before hd hsv (hL.valid x0 hx0) h
  have hord := starts_of_linear hd hL.valid hL.linear
  have hbef : ∀ i j (hi : i < L.length) (hj : j < L.length), i < j → Before L[i] L[j] := fun i j hi hj hij =>
    (List.pairwise_iff_getElem.mp hL.linear i j hi hj hij).1
  -- the last index
  obtain ⟨lg, hlg, hg, hgg, hlast, hafter⟩ : ∃ lg : ℕ × ℕ,
      overlapLast L l ld = some lg ∧ ∃ hg : lg.1 < L.length, lg.2 < L.length ∧ ¬ Before ld L[lg.1] ∧
        ∀ j (hj : j < L.length), lg.1 < j → Before ld L[j] := by
    unfold overlapLast
    by_cases hc : compare l ld ≤ 0
    · rw [if_pos hc]
      refine ⟨_, rfl, by show L.length - 1 < L.length; omega, by show L.length / 2 < L.length; omega, ?_, ?_⟩
      · intro hb
        have h1 := hin _ (List.getElem_mem (show L.length - 1 < L.length by omega))
        have h2 : ¬ Before ld l := by
          rw [← compare_pos_iff hd hl.int32 ild]; omega
        rw [bld l hl29] at h2
        have h3 := hv29 _ (hL.valid _ (List.getElem_mem (show L.length - 1 < L.length by omega))).1
        have h4 := es L[L.length - 1]
        have h5 : start ld ≤ start L[L.length - 1] := by
          rcases hb with h | h
          · exact h.le
          · exact h.1.le
        have h6 := (hL.valid _ (List.getElem_mem (show L.length - 1 < L.length by omega))).1
        rcases hb with h | h
        · have : start ld < start L[L.length - 1] := h
          omega
        · have := h.2
          have : ld.level = 29 := rfl
          simp only at *
          omega
      · intro j hj h
        simp only at h
        omega
    · rw [if_neg hc]
      obtain ⟨r, hr, hcase⟩ := C24_higher_bound hd L ld (L.length / 2) hi32 ild hsw (Or.inl (by omega))
      rw [hr]
      rcases hcase with ⟨rfl, h⟩ | ⟨i, hi, rfl, h1, h2⟩
      · exact absurd (h x0 hx0) hx0b
      · exact ⟨(i, i), rfl, hi, hi, h1, h2⟩
  rw [hlg]
  -- the first index
  obtain ⟨first, hfirst, hcase⟩ : ∃ first, overlapFirst L f fd s lg.2 = some first ∧
      ((first = none ∧ ∀ x ∈ L, Before x s) ∨
       (∃ i, ∃ h : i < L.length, first = some i ∧ ¬ Before L[i] s ∧ ∀ j (hj : j < i), Before L[j] s)) := by
    unfold overlapFirst
    by_cases hc : compare fd f < 0
    · rw [if_pos hc]
      refine ⟨some 0, rfl, Or.inr ⟨0, hlen, rfl, ?_, fun j hj => by omega⟩⟩
      have h1 := (compare_neg_iff hd ifd hf.int32).mp hc
      have h2 : start s < start f := by
        rcases h1 with h | h
        · exact h
        · have h3 := h.2
          have : fd.level = 29 := rfl
          omega
      have h3 := hin _ (List.getElem_mem hlen)
      rintro (h | h)
      · have : start L[0] < start s := h
        omega
      · have : start L[0] = start s := h.1
        omega
    · rw [if_neg hc]
      exact C24_lower_bound hd L s lg.2 hi32 hsv.int32 hsw (Or.inl hgg)
  have hbetw : ∀ j (hj : j < L.length), Cells L[j] ⊆ Cells s → j ≤ lg.1 ∧ ¬ Before L[j] s := by
    intro j hj h
    have h1 := (between_iff hd hsv (hL.valid _ (List.getElem_mem hj))).mp h
    refine ⟨?_, h1.1⟩
    by_contra hc
    exact h1.2 (hafter j hj (by omega))
  have hle_last : ∀ j (hj : j < L.length), j ≤ lg.1 → ¬ Before ld L[j] := by
    intro j hj h hb
    rcases Nat.lt_or_ge j lg.1 with h1 | h1
    · exact hlast (hb.trans (hbef j lg.1 hj hg h1))
    · have : j = lg.1 := by omega
      subst this
      exact hlast hb
  -- the leaf around `s`
  have hcoarse : (∀ x ∈ L, ¬ Cells x ⊆ Cells s) → Cells s ⊆ Cells L[lg.1] := by
    intro hno
    rcases hrel with h | h
    · exact absurd h (hno x0 hx0)
    · obtain ⟨j, hj, rfl⟩ := List.getElem_of_mem hx0
      have h1 := (valid_subset_iff hd (hL.valid _ hx0) hsv).mp h
      rcases Nat.lt_trichotomy j lg.1 with h2 | h2 | h2
      · have h3 := hord j lg.1 hj hg h2
        have h4 : start L[lg.1] ≤ start ld := by
          by_contra hc
          exact hlast (Or.inl (by show start ld < start L[lg.1]; omega))
        omega
      · subst h2; exact h
      · exact absurd (hafter j hj h2) hx0b
  simp only [Option.bind_eq_bind, Option.bind_some]
  rw [hfirst]
  simp only [Option.bind_some]
  have hget : L[lg.1]? = some L[lg.1] := List.getElem?_eq_getElem hg
  rcases hcase with ⟨rfl, hall⟩ | ⟨i, hi, rfl, hnb, hbefore⟩
  · right; right
    have hno : ∀ x ∈ L, ¬ Cells x ⊆ Cells s := fun x hx h =>
      ((between_iff hd hsv (hL.valid x hx)).mp h).1 (hall x hx)
    refine ⟨lg.1, hg, ?_, hcoarse hno, fun x hx h => absurd h (hno x hx)⟩
    simp only [hget, Option.bind_some]
  · have hge : ∀ j (hj : j < L.length), i ≤ j → ¬ Before L[j] s := by
      intro j hj h hb
      rcases Nat.lt_or_ge i j with h1 | h1
      · exact hnb ((hbef i j hi hj h1).trans hb)
      · have : i = j := by omega
        subst this
        exact hnb hb
    have hinner : ∀ j (hj : j < L.length), (Cells L[j] ⊆ Cells s ↔ i ≤ j ∧ j ≤ lg.1) := by
      intro j hj
      constructor
      · intro h
        obtain ⟨h1, h2⟩ := hbetw j hj h
        refine ⟨?_, h1⟩
        by_contra hc
        exact h2 (hbefore j (by omega))
      · rintro ⟨h1, h2⟩
        exact (between_iff hd hsv (hL.valid _ (List.getElem_mem hj))).mpr ⟨hge j hj h1, hle_last j hj h2⟩
    by_cases hc1 : i > lg.1
    · right; right
      have hno : ∀ x ∈ L, ¬ Cells x ⊆ Cells s := by
        intro x hx h
        obtain ⟨j, hj, rfl⟩ := List.getElem_of_mem hx
        have := (hinner j hj).mp h
        omega
      refine ⟨lg.1, hg, ?_, hcoarse hno, fun x hx h => absurd h (hno x hx)⟩
      simp only [if_pos (Or.inl hc1 : i > lg.1 ∨ compare fd ld = 0), hget, Option.bind_some]
    · by_cases hc2 : compare fd ld = 0
      · right; right
        have h29 : s.level = 29 := by
          have h1 := (compare_eq_zero_iff hd ifd ild).mp hc2
          have h2 : start fd = start ld := by rw [h1]
          have h3 : volume s = 2 ^ d := by omega
          by_contra hne
          have h4 : s.level < 29 := by omega
          unfold volume at h3
          have h5 := Nat.pow_right_injective (le_refl 2) h3
          have : d * 2 ≤ d * (30 - s.level) := Nat.mul_le_mul_left _ (by omega)
          omega
        have hlev : ∀ x ∈ L, Cells x ⊆ Cells s → x.level = inq.level := by
          intro x hx h
          have h1 := ((cells_subset_iff hd hsa (hL.valid x hx).aligned).mp h).1
          have h2 := (hL.valid x hx).1
          omega
        have h6 := (hinner lg.1 hg).mpr ⟨by omega, le_refl _⟩
        have h7 := hlev _ (List.getElem_mem hg) h6
        refine ⟨lg.1, hg, ?_, ?_, hlev⟩
        · simp only [if_pos (Or.inr hc2 : i > lg.1 ∨ compare fd ld = 0), hget, Option.bind_some]
        · have h8 := (valid_subset_iff hd hsv (hL.valid _ (List.getElem_mem hg))).mp h6
          have h9 : volume L[lg.1] = volume s := by unfold volume; rw [h7, hslev]
          have h10 := es L[lg.1]
          exact (valid_subset_iff hd (hL.valid _ (List.getElem_mem hg)) hsv).mpr ⟨by omega, by omega⟩
      · right; left
        refine ⟨(L.drop i).take (lg.1 + 1 - i), ?_, ?_, ?_⟩
        · have hcc : ¬ (i > lg.1 ∨ compare fd ld = 0) := by
            rintro (h | h)
            · exact hc1 h
            · exact hc2 h
          simp only [if_neg hcc]
        · intro x
          rw [List.mem_iff_getElem]
          constructor
          · rintro ⟨n, hn, rfl⟩
            rw [List.length_take, List.length_drop] at hn
            rw [List.getElem_take, List.getElem_drop]
            exact ⟨List.getElem_mem _, (hinner (i + n) (by omega)).mpr ⟨by omega, by omega⟩⟩
          · rintro ⟨hx, h⟩
            obtain ⟨j, hj, rfl⟩ := List.getElem_of_mem hx
            have h1 := (hinner j hj).mp h
            refine ⟨j - i, by rw [List.length_take, List.length_drop]; omega, ?_⟩
            rw [List.getElem_take, List.getElem_drop]
            congr 1
            omega
        · intro x hx h
          have h6 := (hinner i hi).mpr ⟨le_refl _, by omega⟩
          have h7 : L[i] = x := linear_eq_of_meet hL.linear (List.getElem_mem hi) hx
            ⟨_, corner_mem _, h (h6 (corner_mem _))⟩
          rw [h7] at h6
          have h8 := ((cells_subset_iff hd hsa (hL.valid x hx).aligned).mp h6).1
          have h9 := ((cells_subset_iff hd (hL.valid x hx).aligned hsa).mp h).1
          omega

end P4est
