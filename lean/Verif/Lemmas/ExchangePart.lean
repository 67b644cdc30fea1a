import Verif.Model.BalanceExchange
import Verif.Lemmas.ExchangeGeom
import Verif.Props.Uniqify

/-! # The border of a part and its receivers -/

namespace P4est
open Spec

variable {d : ℕ} {k : ℕ}

/-- The ends of a part. -/
structure EndsOk (f l : Quad d) : Prop where
  f_valid : Valid f
  f_level : f.level = 29
  l_valid : Valid l
  l_level : l.level = 29

theorem fine_compare (hd : 0 < d) {a b : Quad d} (ha : Int32 a.c) (hb : Int32 b.c) (h : a.level = 29) (h' : b.level = 29) :
    compare a b ≤ 0 ↔ start a ≤ start b := by
  rw [compare_nonpos_iff hd ha hb, before_interval]
  omega

theorem fine_stop {a b : Quad d} (ha : Aligned a) (hb : Aligned b) (h : a.level = b.level) (hlt : start a < stop b) :
    start a ≤ start b := by
  have hv : volume a = volume b := volume_congr h
  obtain ⟨x, hx⟩ := volume_dvd_start ha
  obtain ⟨y, hy⟩ := volume_dvd_start hb
  rw [stop_eq, hx, hy, hv] at hlt
  rw [hx, hy, hv]
  have h1 : volume b * x < volume b * (y + 1) := by rw [Nat.mul_add]; omega
  have h2 := Nat.lt_of_mul_lt_mul_left h1
  exact Nat.mul_le_mul_left _ (by omega)

theorem fine_le_stop {a b : Quad d} (h : a.level = b.level) (hle : start a ≤ start b) : stop a ≤ stop b := by
  have hv : volume a = volume b := volume_congr h
  rw [stop_eq, stop_eq, hv]
  omega

theorem firstDesc_valid {q : Quad d} (h : Valid q) : Valid (firstDesc q QMAXLEVEL) :=
  ⟨le_rfl, firstDesc_aligned h.aligned (show q.level ≤ 29 from h.1) (by decide), fun i => h.2.2 i⟩

theorem lastDesc_valid' {q : Quad d} (h : Valid q) : Valid (lastDesc q QMAXLEVEL) := by
  have ha := lastDesc_aligned h.aligned (l := QMAXLEVEL) h.1 (by decide)
  exact ⟨le_rfl, ha, fun i => valid_treeBox h (lastDesc_mem (l := QMAXLEVEL) h.1) i⟩

theorem cells_in_root {q : Quad d} (h : Valid q) : Cells q ⊆ Cells (root d) := by
  apply cells_subset root_valid.aligned h.aligned (Nat.zero_le _)
  intro i
  have := h.2.2 i
  simpa [root, side] using this

/-- A position is sent to a part exactly if they have a point in common. -/
theorem range_meets (hd : 0 < d) {f l n : Quad d} (he : EndsOk f l) (hn : Valid n) (hfl : start f < stop l) :
    (compare (firstDesc n QMAXLEVEL) l ≤ 0 ∧ compare f (lastDesc n QMAXLEVEL) ≤ 0) ↔
      (Cells n ∩ Section f l).Nonempty := by
  have v1 := firstDesc_valid hn
  have v2 := lastDesc_valid' hn
  rw [fine_compare hd v1.int32 he.l_valid.int32 rfl he.l_level, fine_compare hd he.f_valid.int32 v2.int32 he.f_level rfl,
    start_firstDesc]
  have e2 : stop (lastDesc n QMAXLEVEL) = stop n := stop_lastDesc hn.aligned hn.int32 (l := QMAXLEVEL) hn.1 (by decide)
  have hnn := start_lt_stop n
  constructor
  · rintro ⟨h1, h2⟩
    have h3 := fine_le_stop (a := f) (b := lastDesc n QMAXLEVEL) (by rw [he.f_level]; rfl) h2
    rw [e2] at h3
    have hff := start_lt_stop f
    have hll := start_lt_stop l
    rcases le_total (start n) (start f) with h | h
    · refine ⟨f.c, (mem_iff_pos hn.aligned hn.int32 he.f_valid.int32).mpr ⟨h, ?_⟩, he.f_valid.int32, le_rfl, hfl⟩
      have : curve f.c = start f := rfl
      omega
    · refine ⟨n.c, corner_mem n, hn.int32, h, ?_⟩
      have : curve n.c = start n := rfl
      omega
  · rintro ⟨p, h1, h2, h3, h4⟩
    have h5 := (mem_iff_pos hn.aligned hn.int32 h2).mp h1
    constructor
    · have := fine_stop (a := firstDesc n QMAXLEVEL) (b := l) v1.aligned he.l_valid.aligned (by rw [he.l_level]; rfl)
        (by rw [start_firstDesc]; omega)
      rwa [start_firstDesc] at this
    · exact fine_stop he.f_valid.aligned v2.aligned (by rw [he.f_level]; rfl) (by rw [e2]; omega)

theorem insul_valid_iff {q : Quad d} (hq : Valid q) (w : ℕ) : isInsideRoot (insulQuad q w) = true ↔ Valid (insulQuad q w) := by
  rw [isInsideRoot_iff]
  constructor
  · intro h
    exact ⟨hq.1, insulQuad_aligned hq.aligned w, h⟩
  · intro h
    exact h.2.2

theorem gets_iff (hd : 0 < d) {P : Part d} (he : EndsOk P.f P.l) (hfl : start P.f < stop P.l) {q : Quad d} (hq : Valid q) :
    P.gets q = true ↔ ∃ w < 3 ^ d, w ≠ 3 ^ d / 2 ∧ Valid (insulQuad q w) ∧
      (Cells (insulQuad q w) ∩ Section P.f P.l).Nonempty := by
  unfold Part.gets
  simp only [List.any_eq_true, List.mem_range, Bool.and_eq_true, decide_eq_true_eq, insul_valid_iff hq]
  constructor
  · rintro ⟨w, h1, ⟨⟨h2, h3⟩, h4⟩, h5⟩
    exact ⟨w, h1, h2, h3, (range_meets hd he h3 hfl).mp ⟨h4, h5⟩⟩
  · rintro ⟨w, h1, h2, h3, h4⟩
    obtain ⟨h5, h6⟩ := (range_meets hd he h3 hfl).mpr h4
    exact ⟨w, h1, ⟨⟨h2, h3⟩, h5⟩, h6⟩

theorem insulOff_first (i : Fin d) : insulOff d 0 i = -1 := by
  unfold insulOff
  simp

theorem insulOff_last (hdim : d = 2 ∨ d = 3) (i : Fin d) : insulOff d (3 ^ d - 1) i = 1 := by
  rcases hdim with rfl | rfl
  · revert i; decide +kernel
  · revert i; decide +kernel

theorem border_hasBorder (hdim : d = 2 ∨ d = 3) {P : Part d} (he : EndsOk P.f P.l) (hT : Tiles P.f P.l P.leaves) :
    HasBorder P.f P.l P.leaves P.border ∧ Linear P.border := by
  have hd : 0 < d := by omega
  unfold Part.border
  split_ifs with hw
  · refine ⟨⟨by simp, fun x hx w h1 h2 hv hn => absurd ?_ hn⟩, List.Pairwise.nil⟩
    rw [section_iff hd hv, hw.1, hw.2, start_firstDesc, stop_lastDesc root_valid.aligned root_valid.int32 (l := QMAXLEVEL)
      (Nat.zero_le _) (by decide)]
    exact (valid_subset_iff hd root_valid hv).mp (cells_in_root hv)
  · refine ⟨⟨fun x hx => (List.mem_filter.mp hx).1, fun x hx w h1 h2 hv hn => ?_⟩, hT.linear.sublist List.filter_sublist⟩
    rw [List.mem_filter]
    refine ⟨hx, ?_⟩
    rw [Bool.not_eq_true', Bool.eq_false_iff]
    intro hown
    apply hn
    have hxv := hT.valid x hx
    unfold Part.ownsAround Part.owns at hown
    simp only [Bool.and_eq_true, decide_eq_true_eq] at hown
    obtain ⟨⟨⟨g1, g2⟩, g3, -⟩, -, g4⟩ := hown
    have hs := side_pos x
    have e : qlen x.level = side x := rfl
    have c0 : ∀ i, (insulQuad x 0).c i = x.c i - side x := fun i => by
      rw [insulQuad_c, insulOff_first, e]; ring
    have c1 : ∀ i, (insulQuad x (3 ^ d - 1)).c i = x.c i + side x := fun i => by
      rw [insulQuad_c, insulOff_last hdim, e]; ring
    have hx2 := fun i => hxv.2.2 i
    have v0 : Valid (insulQuad x 0) := ⟨hxv.1, insulQuad_aligned hxv.aligned _, fun i => ⟨g1 i, by
      have h2 := (hx2 i).2
      rw [c0 i]; omega⟩⟩
    have v1 : Valid (insulQuad x (3 ^ d - 1)) := ⟨hxv.1, insulQuad_aligned hxv.aligned _, fun i => ⟨by
      have h2 := (hx2 i).1
      rw [c1 i]; omega, g2 i⟩⟩
    have d0 := firstDesc_valid v0
    have d1 := lastDesc_valid' v1
    rw [fine_compare hd he.f_valid.int32 d0.int32 he.f_level rfl, start_firstDesc] at g3
    rw [fine_compare hd d1.int32 he.l_valid.int32 rfl he.l_level] at g4
    have g5 := fine_le_stop (by rw [he.l_level]; rfl) g4
    rw [stop_lastDesc v1.aligned v1.int32 (l := QMAXLEVEL) v1.1 (by decide)] at g5
    intro p hp
    have hpb := valid_treeBox hv hp
    have hpt : InTree p := fun i => hpb i
    have hpi : Int32 p := aligned_int32_cells hv.aligned hv.int32 hp
    let z : Fin d → ℤ := fun i => x.c i + 2 * side x - 1
    have hz : z ∈ Cells (insulQuad x (3 ^ d - 1)) := fun i => by
      rw [c1 i]
      show _ ≤ x.c i + 2 * side x - 1 ∧ x.c i + 2 * side x - 1 < _ + side x
      omega
    have hzb := valid_treeBox v1 hz
    have hzt : InTree z := fun i => hzb i
    have hzi : Int32 z := aligned_int32_cells v1.aligned v1.int32 hz
    have b : ∀ i, x.c i - side x ≤ p i ∧ p i ≤ z i := fun i => by
      have h3 := hp i
      have e1 : side (insulQuad x w) = side x := rfl
      rw [insulQuad_c, e, e1] at h3
      show _ ∧ _ ≤ x.c i + 2 * side x - 1
      rcases insulOff_cases w i with h | h | h <;> rw [h] at h3 <;> constructor <;> linarith [h3.1, h3.2]
    have k1 : curve (insulQuad x 0).c ≤ curve p := curve_mono (fun i => v0.2.2 i) hpt fun i => by rw [c0 i]; exact (b i).1
    have k2 : curve p ≤ curve z := curve_mono hpt hzt fun i => (b i).2
    have k3 := ((mem_iff_pos v1.aligned v1.int32 hzi).mp hz).2
    refine ⟨hpi, ?_, by omega⟩
    have : start (insulQuad x 0) = curve (insulQuad x 0).c := rfl
    omega

end P4est
