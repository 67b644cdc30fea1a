import Verif.Lemmas.SeedsTest

/-! # Which quadrants a quadrant forces to be divided -/

namespace P4est
open Spec

variable {d : ℕ} {k : ℕ}

/-- `q` forces `r` to be divided, in numbers. -/
def Forces (k : ℕ) (q r : Quad d) : Prop := ∃ m, q.level = r.level + m + 1 ∧ CanReach k m (halfDist q r)

theorem split_level {l0 : ℕ} {lo hi : Fin d → ℤ} {q : Quad d} {l : ℕ} {n : Fin d → ℤ}
    (h : SplitAt l0 lo hi k {q} l n) : l < q.level := by
  induction h with
  | base hs hl _ => rw [Set.mem_singleton_iff.mp hs] at hl; omega
  | step _ _ _ _ _ _ ih => omega

/-- Division because of one quadrant, in numbers. -/
theorem split_forces {l0 : ℕ} {lo hi : Fin d → ℤ} (hD : Dom l0 lo hi) {q r : Quad d}
    (hq : SplitSource l0 lo hi q) (hr : Aligned r) (h0 : l0 ≤ r.level) (hrb : Cells r ⊆ BoxOf lo hi) :
    SplitAt l0 lo hi k {q} r.level (numAt r r.level) ↔ Forces k q r := by
  have h29 := hq.fine
  have key : ∀ m, q.level = r.level + m + 1 →
      (SplitAt l0 lo hi k {q} r.level (numAt r r.level) ↔ CanReach k m (halfDist q r)) := by
    intro m hm
    rw [split_iff_reach hD hq h0 hm (by rw [qat_num hr]; exact hrb)]
    have : (fun i => gap m (numAt q (r.level + m) i) (numAt r r.level i)) = halfDist q r := by
      funext i
      exact gap_outNum (by omega) hm i
    rw [this]
  constructor
  · intro h
    have hl := split_level h
    exact ⟨q.level - r.level - 1, by omega, (key _ (by omega)).mp h⟩
  · rintro ⟨m, hm, h⟩
    exact (key m hm).mpr h

/-- The division of a quadrant in the trees. -/
theorem dom_trees {lo hi : Fin d → ℤ} (h : WholeTrees lo hi) : Dom 0 lo hi where
  low := by norm_num
  dlo i := (h i).1
  dhi i := (h i).2
  fit u _ := Nat.zero_le _

/-- The division of a quadrant in `p`. -/
theorem dom_quad (hd : 0 < d) {p : Quad d} (hp : Aligned p) (hp29 : p.level ≤ 29) :
    Dom p.level p.c (fun i => p.c i + side p) where
  low := hp29
  dlo i := hp.2 i
  dhi i := dvd_add (hp.2 i) dvd_rfl
  fit u hu := by
    have h1 := cells_sub_box.mp hu ⟨0, hd⟩
    have h2 : side u ≤ side p := by omega
    by_contra hc
    have h3 : (2 : ℤ) ^ (30 - p.level) < 2 ^ (30 - u.level) := pow_lt_pow_right₀ (by norm_num) (by omega)
    have e1 : side u = 2 ^ (30 - u.level) := rfl
    have e2 : side p = 2 ^ (30 - p.level) := rfl
    omega

theorem divides_trees (hd : 0 < d) {lo hi : Fin d → ℤ} (hw : WholeTrees lo hi) {q r : Quad d}
    (hq : Aligned q) (hq29 : q.level ≤ 29) (hqb : Cells q ⊆ BoxOf lo hi) (hr : Aligned r)
    (hr29 : r.level ≤ 29) (hrb : Cells r ⊆ BoxOf lo hi) :
    Divides (BoxOf lo hi) k {q} r ↔ Forces k q r := by
  have hD := dom_trees hw
  have hs : SplitSource 0 lo hi q := ⟨hq, hq29, fun h => Nat.pos_of_ne_zero h, hqb⟩
  rw [divides_iff hd hD (by rintro s rfl; exact hs) hr hr29 hrb, split_forces hD hs hr (Nat.zero_le _) hrb]

theorem divides_inside (hd : 0 < d) {p : Quad d} (hp : Aligned p) (hp29 : p.level ≤ 29) {S : Set (Quad d)}
    (hS : ∀ s ∈ S, Aligned s ∧ s.level ≤ 29 ∧ p.level < s.level ∧ Cells s ⊆ Cells p) {r : Quad d}
    (hr : Aligned r) (hr29 : r.level ≤ 29) (hrp : Cells r ⊆ Cells p) :
    Divides (Cells p) k S r ↔ ∃ s ∈ S, Forces k s r := by
  have hD := dom_quad hd hp hp29
  have hS' : ∀ s ∈ S, SplitSource p.level p.c (fun i => p.c i + side p) s :=
    fun s hs => ⟨(hS s hs).1, (hS s hs).2.1, fun _ => (hS s hs).2.2.1, (hS s hs).2.2.2⟩
  have h0 := hD.fit r hrp
  rw [show Cells p = BoxOf p.c (fun i => p.c i + side p) from rfl, divides_iff hd hD hS' hr hr29 hrp]
  constructor
  · intro h
    obtain ⟨s, hs, h1⟩ := split_exists h
    exact ⟨s, hs, (split_forces hD (hS' s hs) hr h0 hrp).mp h1⟩
  · rintro ⟨s, hs, h⟩
    refine split_mono (S := {s}) (by simpa using hs) ((split_forces hD (hS' s hs) hr h0 hrp).mpr h)

/-- The parent. -/
def upOf (s : Quad d) : Quad d := qat (s.level - 1) (numAt s (s.level - 1))

/-- What is forced by a quadrant in `p` whose parent is forced by `q` is forced by `q`. -/
theorem forces_trans (hd : 0 < d) {lo hi : Fin d → ℤ} (hw : WholeTrees lo hi) {q p s r : Quad d}
    (hq : Aligned q) (hq29 : q.level ≤ 29) (hqb : Cells q ⊆ BoxOf lo hi)
    (hp : Aligned p) (hp29 : p.level ≤ 29) (hpb : Cells p ⊆ BoxOf lo hi)
    (hs : Aligned s) (hs29 : s.level ≤ 29) (hps : p.level < s.level) (hsp : Cells s ⊆ Cells p)
    (hr : Aligned r) (hrp : Cells r ⊆ Cells p) (hup : Forces k q (upOf s)) (h : Forces k s r) : Forces k q r := by
  have hDt := dom_trees hw
  have hDp := dom_quad hd hp hp29
  have hqs : SplitSource 0 lo hi q := ⟨hq, hq29, fun h => Nat.pos_of_ne_zero h, hqb⟩
  have hss : SplitSource p.level p.c (fun i => p.c i + side p) s := ⟨hs, hs29, fun _ => hps, hsp⟩
  rw [← split_forces hDt hqs hr (Nat.zero_le _) (hrp.trans hpb)]
  have h1 := (split_forces hDp hss hr (hDp.fit r hrp) hrp).mpr h
  have hbase : SplitAt p.level p.c (fun i => p.c i + side p) k {s} (s.level - 1) (numAt s (s.level - 1)) :=
    SplitAt.base rfl (by omega) rfl
  have hupb : Cells (upOf s) ⊆ BoxOf lo hi :=
    ((hbase.inv hDp (by rintro t rfl; exact hss)).2.2).trans hpb
  have hua : Aligned (upOf s) := qat_aligned (by omega) _
  have h2 := (split_forces hDt hqs hua (Nat.zero_le _) hupb).mpr hup
  have hnum : numAt (upOf s) (s.level - 1) = numAt s (s.level - 1) := by
    funext i
    exact Int.mul_ediv_cancel_left _ (by positivity)
  have h2' : SplitAt 0 lo hi k {q} (s.level - 1) (numAt s (s.level - 1)) := by
    rw [← hnum]; exact h2
  clear hbase
  generalize numAt r r.level = n0 at h1 ⊢
  generalize r.level = l1 at h1 ⊢
  induction h1 with
  | @base t l n ht hl hn =>
    rw [Set.mem_singleton_iff.mp ht] at hl hn
    have : s.level - 1 = l := by omega
    rw [this, ← hn] at h2'
    exact h2'
  | step A _ _ hA hn hb ih => exact SplitAt.step A ih (Nat.zero_le _) hA hn (hb.trans hpb)

/-! ## Numbers -/

theorem gap_half (j : ℕ) (T P : ℤ) : (gap (j + 1) T P + 1) / 2 = gap j (T / 2) P := by
  unfold gap
  rw [pow_succ]
  have : (0 : ℤ) < 2 ^ j := by positivity
  rw [show P * (2 ^ j * 2) = 2 * (P * 2 ^ j) by ring]
  generalize P * 2 ^ j = X
  generalize (2 : ℤ) ^ j = M at *
  omega

/-- From finer quadrants the same is reached. -/
theorem reach_finer {P : Fin d → ℤ} {j : ℕ} : ∀ {c : ℕ} {T : Fin d → ℤ},
    CanReach k j (fun i => gap j (T i / 2 ^ c) (P i)) → CanReach k (j + c) (fun i => gap (j + c) (T i) (P i))
  | 0, T, h => by simpa using h
  | c + 1, T, h => by
    refine ⟨∅, by simp, by simp, ?_⟩
    have := reach_finer (c := c) (T := fun i => T i / 2) (by
      convert h using 3
      rw [Int.ediv_ediv_of_nonneg (by norm_num), pow_succ, mul_comm])
    have e : (fun i => if i ∈ (∅ : Finset (Fin d)) then gap (j + (c + 1)) (T i) (P i) / 2
        else (gap (j + (c + 1)) (T i) (P i) + 1) / 2) = fun i => gap (j + c) (T i / 2) (P i) := by
      funext i
      simp only [Finset.notMem_empty, if_false]
      exact gap_half (j + c) (T i) (P i)
    show CanReach k (j + c) _
    rw [e]
    exact this

theorem num_div {s : Quad d} {l c : ℕ} (h : l + c ≤ 30) (i : Fin d) : numAt s l i = numAt s (l + c) i / 2 ^ c := by
  show s.c i / 2 ^ (30 - l) = s.c i / 2 ^ (30 - (l + c)) / 2 ^ c
  rw [Int.ediv_ediv_of_nonneg (by positivity), ← pow_add]
  congr 2
  omega

/-- A quadrant forces what can be reached from a coarser one that contains it. -/
theorem forces_of {s r : Quad d} (hs : s.level ≤ 29) {j c : ℕ} (hl : s.level = r.level + j + c + 1)
    (h : CanReach k j (fun i => gap j (numAt s (r.level + j) i) (numAt r r.level i))) : Forces k s r := by
  refine ⟨j + c, by omega, ?_⟩
  have h1 : CanReach k (j + c) (fun i => gap (j + c) (numAt s (r.level + j + c) i) (numAt r r.level i)) := by
    apply reach_finer
    have e : (fun i => gap j (numAt s (r.level + j + c) i / 2 ^ c) (numAt r r.level i)) =
        fun i => gap j (numAt s (r.level + j) i) (numAt r r.level i) := by
      funext i
      rw [num_div (s := s) (l := r.level + j) (c := c) (by omega) i]
    rw [e]
    exact h
  have e : (fun i => gap (j + c) (numAt s (r.level + j + c) i) (numAt r r.level i)) = halfDist s r := by
    funext i
    have := gap_outNum (q := s) (p := r) (m := j + c) (by omega) (by omega) i
    rw [← Nat.add_assoc] at this
    exact this
  rw [← e]
  exact h1

/-- A quadrant forces all coarser quadrants that contain it. -/
theorem forces_anc {s r : Quad d} (hs : s.level ≤ 29) (hl : r.level < s.level)
    (h : numAt r r.level = numAt s r.level) : Forces k s r := by
  obtain ⟨c, hc⟩ : ∃ c, s.level = r.level + 0 + c + 1 := ⟨s.level - r.level - 1, by omega⟩
  refine forces_of hs hc ?_
  intro i
  rw [h]
  unfold gap
  simp

end P4est
