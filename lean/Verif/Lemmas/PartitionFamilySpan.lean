import Verif.Lemmas.PartitionFamilyNear

/-! # From the messages to the correction in `p4est_partition_for_coarsening` -/

namespace P4est
open Spec

variable {d : ℕ}

/-! ### Siblings in the global sequence -/

theorem GPath.get_lt {a b : ℕ} {L : List (ℕ × Quad d)} (h : GPath a L b) {i j : ℕ} (hij : i < j) {x y : ℕ × Quad d}
    (hx : L[i]? = some x) (hy : L[j]? = some y) : gstop x ≤ gstart y := by
  induction L generalizing a i j with
  | nil => simp at hx
  | cons z L ih =>
    obtain ⟨j, rfl⟩ : ∃ j', j = j' + 1 := ⟨j - 1, by omega⟩
    rw [List.getElem?_cons_succ] at hy
    cases i with
    | zero =>
      rw [List.getElem?_cons_zero] at hx
      injection hx with hx; subst hx
      exact (GPath.mem h.2 (List.mem_of_getElem? hy)).1
    | succ i =>
      rw [List.getElem?_cons_succ] at hx
      exact ih h.2 (by omega) hx hy

/-- The global sequence of leaves. -/
structure GSeq (L : List (ℕ × Quad d)) : Prop where
  path : ∃ b, GPath 0 L b
  valid : ∀ x ∈ L, Valid x.2

theorem GSeq.lt {L : List (ℕ × Quad d)} (h : GSeq L) {i j : ℕ} (hij : i < j) {x y : ℕ × Quad d}
    (hx : L[i]? = some x) (hy : L[j]? = some y) : gstop x ≤ gstart y := by
  obtain ⟨b, hb⟩ := h.path
  exact hb.get_lt hij hx hy

theorem GSeq.inj {L : List (ℕ × Quad d)} (h : GSeq L) {i j : ℕ} {x : ℕ × Quad d}
    (hx : L[i]? = some x) (hy : L[j]? = some x) : i = j := by
  have := gstart_lt_gstop x
  rcases Nat.lt_trichotomy i j with h1 | h1 | h1
  · have := h.lt h1 hx hy; omega
  · exact h1
  · have := h.lt h1 hy hx; omega

/-- Two leaves of a tree of which one contains the other are the same. -/
theorem GSeq.disjoint {L : List (ℕ × Quad d)} (h : GSeq L) {i j t : ℕ} {x y : Quad d}
    (hx : L[i]? = some (t, x)) (hy : L[j]? = some (t, y)) (h1 : start x ≤ start y) (h2 : stop y ≤ stop x) : i = j := by
  have e1 := start_lt_stop x
  have e2 := start_lt_stop y
  rcases Nat.lt_trichotomy i j with h3 | h3 | h3
  · have := h.lt h3 hx hy; unfold gstart gstop at this; simp only at this; omega
  · exact h3
  · have := h.lt h3 hy hx; unfold gstart gstop at this; simp only at this; omega

/-- The family of `p` is at the positions `m, m + 1, ...`. -/
def Fam (L : List (ℕ × Quad d)) (m t : ℕ) (p : Quad d) : Prop := ∀ k, k < 2 ^ d → L[m + k]? = some (t, child p k)

theorem sib_child {L : List (ℕ × Quad d)} (h : GSeq L) {t j : ℕ} {p : Quad d} (hs : Sib L t p j) :
    ∃ k, k < 2 ^ d ∧ L[j]? = some (t, child p k) ∧ childId (child p k) = k ∧
      start (child p k) = start p + k * volume (child p k) ∧ volume p = 2 ^ d * volume (child p k) := by
  obtain ⟨q, hq, hp⟩ := hs
  obtain ⟨h0, rfl⟩ := isParent_iff.mp hp
  have hv := h.valid _ (List.mem_of_getElem? hq)
  simp only at hv
  obtain ⟨e1, e2⟩ := start_childId hv.aligned hv.int32 h0
  refine ⟨childId q, childId_lt q, ?_⟩
  rw [child_parent hv.aligned h0]
  exact ⟨hq, rfl, e1, e2⟩

theorem volume_child_eq {p : Quad d} {k k' : ℕ} (h1 : volume p = 2 ^ d * volume (child p k))
    (h2 : volume p = 2 ^ d * volume (child p k')) : volume (child p k) = volume (child p k') := by
  rw [h1] at h2
  exact Nat.eq_of_mul_eq_mul_left (by positivity) h2

theorem GSeq.sib_lt {L : List (ℕ × Quad d)} (h : GSeq L) {t i j k l : ℕ} {p : Quad d}
    (h1 : L[i]? = some (t, child p k)) (h2 : L[j]? = some (t, child p l))
    (s1 : start (child p k) = start p + k * volume (child p k)) (s2 : start (child p l) = start p + l * volume (child p l))
    (v1 : volume p = 2 ^ d * volume (child p k)) (v2 : volume p = 2 ^ d * volume (child p l)) (hij : i < j) : k < l := by
  have := h.lt hij h1 h2
  unfold gstart gstop at this
  simp only at this
  rw [stop_eq, s1, s2, volume_child_eq v2 v1] at this
  have h3 : (k + 1) * volume (child p k) ≤ l * volume (child p k) := by rw [Nat.add_one_mul]; omega
  have := Nat.le_of_mul_le_mul_right h3 (volume_pos _)
  omega

/-- The child id of leaf `j`. -/
def idOf (L : List (ℕ × Quad d)) (j : ℕ) : ℕ := (L[j]?).elim 0 fun x => childId x.2

theorem sib_id {L : List (ℕ × Quad d)} (h : GSeq L) {t j : ℕ} {p : Quad d} (hs : Sib L t p j) :
    idOf L j < 2 ^ d ∧ L[j]? = some (t, child p (idOf L j)) ∧
      start (child p (idOf L j)) = start p + idOf L j * volume (child p (idOf L j)) ∧
      volume p = 2 ^ d * volume (child p (idOf L j)) := by
  obtain ⟨k, h1, h2, h3, h4, h5⟩ := sib_child h hs
  have : idOf L j = k := by unfold idOf; rw [h2]; exact h3
  rw [this]
  exact ⟨h1, h2, h4, h5⟩

theorem sib_id_lt {L : List (ℕ × Quad d)} (h : GSeq L) {t i j : ℕ} {p : Quad d} (hi : Sib L t p i) (hj : Sib L t p j)
    (hij : i < j) : idOf L i < idOf L j := by
  obtain ⟨-, a2, a3, a4⟩ := sib_id h hi
  obtain ⟨-, b2, b3, b4⟩ := sib_id h hj
  exact h.sib_lt a2 b2 a3 b3 a4 b4 hij

theorem sib_id_inj {L : List (ℕ × Quad d)} (h : GSeq L) {t i j : ℕ} {p : Quad d} (hi : Sib L t p i) (hj : Sib L t p j)
    (e : idOf L i = idOf L j) : i = j := by
  rcases Nat.lt_trichotomy i j with h1 | h1 | h1
  · have := sib_id_lt h hi hj h1; omega
  · exact h1
  · have := sib_id_lt h hj hi h1; omega

theorem sib_card {L : List (ℕ × Quad d)} (h : GSeq L) {t : ℕ} {p : Quad d} {W : Finset ℕ} (hW : ∀ j ∈ W, Sib L t p j) :
    W.card ≤ 2 ^ d := by
  have := Finset.card_le_card_of_injOn (s := W) (t := Finset.range (2 ^ d)) (idOf L)
    (fun j hj => by simpa using (sib_id h (hW j hj)).1)
    (fun i hi j hj e => sib_id_inj h (hW i hi) (hW j hj) e)
  simpa using this

theorem sib_full {L : List (ℕ × Quad d)} (h : GSeq L) {t : ℕ} {p : Quad d} {W : Finset ℕ} (hW : ∀ j ∈ W, Sib L t p j)
    (hc : W.card = 2 ^ d) : ∃ m, Fam L m t p ∧ W = Finset.Ico m (m + 2 ^ d) := by
  have himg : W.image (idOf L) = Finset.range (2 ^ d) := by
    apply Finset.eq_of_subset_of_card_le
    · intro k hk
      obtain ⟨j, hj, rfl⟩ := Finset.mem_image.mp hk
      simpa using (sib_id h (hW j hj)).1
    · rw [Finset.card_image_of_injOn (fun i hi j hj e => sib_id_inj h (hW i hi) (hW j hj) e), hc]
      simp
  have hex : ∀ k, ∃ j, k < 2 ^ d → j ∈ W ∧ idOf L j = k := by
    intro k
    by_cases hk : k < 2 ^ d
    · have : k ∈ W.image (idOf L) := by rw [himg]; simpa using hk
      obtain ⟨j, hj, e⟩ := Finset.mem_image.mp this
      exact ⟨j, fun _ => ⟨hj, e⟩⟩
    · exact ⟨0, fun hk' => absurd hk' hk⟩
  choose J hJ using hex
  have hstep : ∀ k, k + 1 < 2 ^ d → J (k + 1) = J k + 1 := by
    intro k hk
    obtain ⟨w1, i1⟩ := hJ k (by omega)
    obtain ⟨w2, i2⟩ := hJ (k + 1) hk
    have hlt : J k < J (k + 1) := by
      by_contra hge
      rcases Nat.lt_or_ge (J (k + 1)) (J k) with h1 | h1
      · have := sib_id_lt h (hW _ w2) (hW _ w1) h1; omega
      · rw [show J k = J (k + 1) by omega] at i1; omega
    by_contra hne
    obtain ⟨-, a2, a3, a4⟩ := sib_id h (hW _ w1)
    obtain ⟨-, b2, b3, b4⟩ := sib_id h (hW _ w2)
    rw [i1] at a2 a3 a4
    rw [i2] at b2 b3 b4
    have hlen := (List.getElem?_eq_some_iff.mp b2).1
    obtain ⟨z, hz⟩ : ∃ z, L[J k + 1]? = some z := ⟨_, List.getElem?_eq_getElem (by omega)⟩
    have e1 := h.lt (show J k < J k + 1 by omega) a2 hz
    have e2 := h.lt (show J k + 1 < J (k + 1) by omega) hz b2
    have e3 := gstart_lt_gstop z
    unfold gstop at e1
    unfold gstart at e2
    simp only at e1 e2
    rw [stop_eq, a3] at e1
    rw [b3, volume_child_eq b4 a4, Nat.add_one_mul] at e2
    unfold gstart gstop at e3
    unfold gstart at e1
    unfold gstop at e2
    omega
  have hall : ∀ k, k < 2 ^ d → J k = J 0 + k := by
    intro k
    induction k with
    | zero => intro _; rfl
    | succ k ih => intro hk; rw [hstep k hk, ih (by omega)]; omega
  refine ⟨J 0, fun k hk => ?_, ?_⟩
  · obtain ⟨w, i⟩ := hJ k hk
    have := (sib_id h (hW _ w)).2.1
    rw [i, hall k hk] at this
    exact this
  · ext j
    rw [Finset.mem_Ico]
    constructor
    · intro hj
      have hk := (sib_id h (hW j hj)).1
      obtain ⟨w, i⟩ := hJ (idOf L j) hk
      have := sib_id_inj h (hW _ w) (hW j hj) i
      rw [hall _ hk] at this
      omega
    · rintro ⟨h1, h2⟩
      obtain ⟨w, -⟩ := hJ (j - J 0) (by omega)
      rwa [hall _ (by omega), show J 0 + (j - J 0) = j by omega] at w

theorem Fam.sib_iff {L : List (ℕ × Quad d)} (h : GSeq L) {m t : ℕ} {p : Quad d} (hv : Valid p) (hf : Fam L m t p) (j : ℕ) :
    Sib L t p j ↔ m ≤ j ∧ j < m + 2 ^ d := by
  constructor
  · intro hs
    obtain ⟨a1, a2, -⟩ := sib_id h hs
    have := h.inj a2 (hf _ a1)
    omega
  · rintro ⟨h1, h2⟩
    have := hf (j - m) (by omega)
    rw [show m + (j - m) = j by omega] at this
    refine ⟨_, this, isParent_iff.mpr ⟨by simp, ?_⟩⟩
    have hl : (child p (j - m)).level ≤ 29 := (h.valid _ (List.mem_of_getElem? this)).1
    rw [child_level] at hl
    exact (parent_child hv.aligned (by omega) _).symm

end P4est
