import Verif.Lemmas.Coarsen
import Verif.Props.Curve

/-! # Consecutive leaves with child ids 0, 1, ... are a family -/

namespace P4est
open Spec

variable {d : ℕ} {α σ : Type}

theorem childId_zero {q : Quad d} (h : q.level = 0) : childId q = 0 := by
  unfold childId ancestorId; rw [h]; simp

theorem start_childId {q : Quad d} (hq : Aligned q) (hi : Int32 q.c) (h0 : 0 < q.level) :
    start q = start (parent q) + childId q * volume q ∧ volume (parent q) = 2 ^ d * volume q := by
  have hp := parent_aligned hq h0
  have hl := hq.1
  have hpi : Int32 (parent q).c := by
    intro i
    rw [parent_c hq h0]
    have := hi i
    obtain ⟨m, hm⟩ : ∃ m, m = q.level - 1 := ⟨_, rfl⟩
    have e : (2:ℤ) ^ 31 = 2 ^ (30 - (q.level - 1)) * 2 ^ (q.level - 1 + 1) := by
      rw [← pow_add]; congr 1; omega
    set S := (2:ℤ) ^ (30 - (q.level - 1)) with hS
    have hSp : 0 < S := by positivity
    constructor
    · have : -(2 ^ (q.level - 1 + 1)) ≤ q.c i / S := by
        rw [Int.le_ediv_iff_mul_le hSp]; nlinarith
      nlinarith
    · have := Int.mul_ediv_self_le (x := q.c i) hSp.ne'
      linarith [this]
  have hc := curve_child hp hpi (show (parent q).level < 30 by simp; omega) (childId_lt q)
  have hv := volume_child (show (parent q).level < 30 by simp; omega) (childId q)
  rw [child_parent hq h0] at hc hv
  exact ⟨hc, hv⟩

theorem root_valid : Valid (root d) :=
  ⟨Nat.zero_le _, ⟨Nat.zero_le _, fun _ => dvd_zero _⟩, fun _ => ⟨le_rfl, by norm_num [root]⟩⟩

theorem valid_stop_le (hd : 0 < d) {q : Quad d} (h : Valid q) : stop q ≤ 2 ^ (d * 30) := by
  have hr : Valid (root d) := root_valid
  have : Cells q ⊆ Cells (root d) := by
    apply cells_subset hr.aligned h.aligned (Nat.zero_le _)
    intro i
    have := h.2.2 i
    change (0:ℤ) ≤ _ ∧ _ < 0 + 2 ^ 30
    omega
  rw [subset_iff_interval hd hr.aligned h.aligned hr.int32 h.int32, stop_root] at this
  exact this.2

theorem next_same_level (hd : 0 < d) {q r : Quad d} (hq : Valid q) (hr : Valid r) (h : stop q = start r)
    (hc : childId r = childId q + 1) : 0 < q.level ∧ q.level = r.level := by
  have hr0 : 0 < r.level := by
    by_contra h0
    rw [childId_zero (q := r) (by omega)] at hc; omega
  have hq0 : 0 < q.level := by
    by_contra h0
    have h1 := valid_stop_le hd hr
    have h2 := start_lt_stop r
    have : stop q = start q + 2 ^ (d * 30) := by
      rw [stop_eq]; unfold volume; rw [show q.level = 0 by omega]
    omega
  refine ⟨hq0, ?_⟩
  obtain ⟨e1, v1⟩ := start_childId hq.aligned hq.int32 hq0
  obtain ⟨e2, v2⟩ := start_childId hr.aligned hr.int32 hr0
  have hlt := childId_lt r
  have hD : 0 < 2 ^ d := by positivity
  rcases Nat.lt_trichotomy q.level r.level with hl | hl | hl
  · -- `r` finer: its parent's volume divides the end of `q`
    exfalso
    have hd1 : volume (parent r) ∣ stop q :=
      (volume_dvd (by simp; omega)).trans (volume_dvd_stop hq.aligned)
    have hd2 := volume_dvd_start (parent_aligned hr.aligned hr0)
    rw [h, e2, Nat.dvd_add_right hd2, v2] at hd1
    have := Nat.le_of_dvd (Nat.mul_pos (by omega) (volume_pos r)) hd1
    have := Nat.le_of_mul_le_mul_right this (volume_pos r)
    omega
  · exact hl
  · exfalso
    have hd1 : volume (parent q) ∣ stop q := by
      rw [h]
      exact (volume_dvd (by simp; omega)).trans (volume_dvd_start hr.aligned)
    have hd2 := volume_dvd_start (parent_aligned hq.aligned hq0)
    rw [stop_eq, e1, Nat.add_assoc, ← Nat.succ_mul, Nat.dvd_add_right hd2, v1] at hd1
    have := Nat.le_of_dvd (Nat.mul_pos (by omega) (volume_pos q)) hd1
    have := Nat.le_of_mul_le_mul_right this (volume_pos q)
    omega

theorem parent_valid {q : Quad d} (hq : Valid q) (h0 : 0 < q.level) : Valid (parent q) := by
  have hp := parent_aligned hq.aligned h0
  have hm := child_corner_mem hp (by have := hq.1; simp; omega) (childId q)
  rw [child_parent hq.aligned h0] at hm
  exact valid_super hq hp (by have := hq.1; simp; omega) hm

/-- In a gapless list of legal leaves, a window with child ids 0, ..., 2^d-1 holds all children of
one quadrant. -/
theorem family_of_ids (hd : 0 < d) {fam : List (Leaf d α)} (hv : ∀ x ∈ fam, Valid x.q)
    (hg : Gapless (fam.map Leaf.q)) (hids : IdsOk fam) {c0 : Leaf d α} (h0 : fam[0]? = some c0) :
    0 < c0.q.level ∧ Valid (parent c0.q) ∧ fam.map Leaf.q = childrenv (parent c0.q) := by
  have hD := two_le_pow hd
  have hlen : fam.length = 2 ^ d := by
    have := congrArg List.length hids
    simpa using this
  have hid : ∀ i (h : i < fam.length), childId (fam[i]).q = i := by
    intro i h
    have h1 : (fam.map (fun x => childId x.q))[i]'(by simpa using h) = (List.range (2 ^ d))[i]'(by simp; omega) := by
      congr 1
    simpa using h1
  have hc0 : fam[0]'(by omega) = c0 := by
    rw [List.getElem?_eq_getElem (by omega), Option.some.injEq] at h0; exact h0
  have hstep : ∀ i (h : i + 1 < fam.length), stop (fam[i]).q = start (fam[i+1]).q := by
    intro i h
    have := (List.isChain_iff_getElem.mp hg) i (by simpa using h)
    simpa using this
  have hvi : ∀ i (h : i < fam.length), Valid (fam[i]).q := fun i h => hv _ (List.getElem_mem h)
  have h01 := next_same_level hd (hvi 0 (by omega)) (hvi 1 (by omega)) (hstep 0 (by omega))
    (by rw [hid, hid])
  rw [hc0] at h01
  have hvc : Valid c0.q := by rw [← hc0]; exact hvi 0 (by omega)
  have hp := parent_valid hvc h01.1
  have hpl : (parent c0.q).level < 30 := by have := hp.1; omega
  refine ⟨h01.1, hp, ?_⟩
  have hall : ∀ i (h : i < fam.length), (fam[i]).q = child (parent c0.q) i := by
    intro i
    induction i with
    | zero =>
      intro h
      have := child_parent hvc.aligned h01.1
      rw [hc0]
      rw [show childId c0.q = 0 by rw [← hc0]; exact hid 0 _] at this
      exact this.symm
    | succ i ih =>
      intro h
      have hi := ih (by omega)
      have hs := hstep i h
      have hl := (next_same_level hd (hvi i (by omega)) (hvi (i+1) h) hs (by rw [hid, hid])).2
      rw [hi, child_level] at hl
      have hca := child_aligned hp.aligned hpl (i + 1)
      have hci := child_int32 hp.aligned hp.int32 hpl (i + 1)
      have hst : start (fam[i+1]).q = start (child (parent c0.q) (i + 1)) := by
        rw [← hs, hi, stop_eq]
        have e1 := curve_child hp.aligned hp.int32 hpl (show i < 2 ^ d by omega)
        have e2 := curve_child hp.aligned hp.int32 hpl (show i + 1 < 2 ^ d by omega)
        have ev : volume (child (parent c0.q) i) = volume (child (parent c0.q) (i + 1)) := volume_congr rfl
        unfold start
        rw [e1, e2, ev]; ring
      apply eq_of_interval hd (hvi _ h).aligned hca (hvi _ h).int32 hci hst
      rw [stop_eq, stop_eq, hst]
      congr 1
      apply volume_congr
      rw [child_level]; omega
  refine List.ext_getElem (by simp [childrenv, hlen]) fun i h1 h2 => ?_
  simp only [List.getElem_map, childrenv, List.getElem_range]
  exact hall i (by simpa using h1)

/-- Conversely the children of a quadrant have the ids 0, ..., 2^d-1. -/
theorem ids_of_family {fam : List (Leaf d α)} {p : Quad d} (hp : Aligned p) (hl : p.level < 30)
    (h : fam.map Leaf.q = childrenv p) : IdsOk fam := by
  unfold IdsOk
  rw [show (fun x : Leaf d α => childId x.q) = childId ∘ Leaf.q from rfl, ← List.map_map, h, childrenv, List.map_map]
  conv_rhs => rw [← List.map_id (List.range (2 ^ d))]
  apply List.map_congr_left
  intro k hk
  exact childId_child hp hl (by simpa using hk)

end P4est
