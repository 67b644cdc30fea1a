import Verif.Props.Relations
import Verif.Lemmas.Step

/-! # C09-C13, C43: positions along the space-filling curve -/

namespace P4est
open Spec

variable {d : ℕ}

/-! ## C09 -/

/-- C09 is false as stated (2D): `p4est_quadrant_is_next (q, r)` is true although `r` does not
begin where `q` ends.  Witness: `q` is child 0 of the root, `r` is child 3 of child 1. -/
theorem C09_is_next_accepts_gap : ∃ q r : Quad 2, Valid q ∧ Valid r ∧ isNext q r = true ∧
    stop q ≠ start r := by
  refine ⟨⟨![0, 0], 1⟩, ⟨![805306368, 268435456], 2⟩, ?_⟩
  rw [← isValid_iff, ← isValid_iff]; decide +kernel

/-- C09 is false as stated (3D). -/
theorem C09_is_next_accepts_gap_3d : ∃ q r : Quad 3, Valid q ∧ Valid r ∧ isNext q r = true ∧
    stop q ≠ start r := by
  refine ⟨⟨![0, 0, 0], 1⟩, ⟨![805306368, 268435456, 268435456], 2⟩, ?_⟩
  rw [← isValid_iff, ← isValid_iff]; decide +kernel

/-- What `p4est_quadrant_is_next` decides exactly: the quadrant containing `r` that is as large
as `q` (or `r` itself if it is larger) begins where `q` ends. -/
theorem C09_is_next_exact (hd : 0 < d) (hd3 : d ≤ 3) (q r : Quad d) (hq : Extended q)
    (hr : Extended r) :
    isNext q r = true ↔ ∃ a : Quad d, Extended a ∧ a.level = min q.level r.level ∧
      Cells r ⊆ Cells a ∧ start a = stop q := by
  rw [isNext_iff hd hd3 hq.aligned hr.aligned hq.int32 hr.int32 hq.1 hr.1]
  have h1 := hq.1
  have h2 := hr.1
  have hsub := cells_subset_ancestor hr.aligned (l := min q.level r.level) (by omega)
  have hal := ancestor_aligned r (l := min q.level r.level) (by omega)
  constructor
  · intro h
    exact ⟨ancestor r (min q.level r.level),
      extended_super hr hal (by rw [ancestor_level]; omega) (hsub (corner_mem r)), rfl, hsub, h.symm⟩
  · rintro ⟨a, ha, hl, hs, he⟩
    have := ancestor_unique hr.aligned ha.aligned (by omega) (hs (corner_mem r))
    rw [hl] at this
    rw [← this]; exact he.symm

/-- C09 partial.  Missing from the full statement is only the direction "is_next implies that `r`
begins where `q` ends" for an `r` that is smaller than `q`; there `C09_is_next_accepts_gap` shows
it to be false.  Proved: the equivalence for every `r` of the same or larger size, the other
direction for all sizes, and that is_next always implies that `r` comes after `q`, starting within
the next stretch of the curve of the length of `q`. -/
theorem C09_is_next_partial (hd : 0 < d) (hd3 : d ≤ 3) (q r : Quad d) (hq : Extended q)
    (hr : Extended r) :
    (r.level ≤ q.level → (isNext q r = true ↔ start r = stop q)) ∧
    (start r = stop q → isNext q r = true) ∧
    (isNext q r = true → stop q ≤ start r ∧
      (q.level ≤ r.level → stop r ≤ stop q + volume q)) := by
  have h1 := hq.1
  have h2 := hr.1
  rw [isNext_iff hd hd3 hq.aligned hr.aligned hq.int32 hr.int32 hq.1 hr.1]
  refine ⟨fun hl => ?_, fun h => ?_, fun h => ⟨?_, fun hl => ?_⟩⟩
  · rw [Nat.min_eq_right hl, ancestor_self hr.aligned]; exact eq_comm
  · rcases Nat.le_total q.level r.level with hl | hl
    · rw [Nat.min_eq_left hl, start_ancestor hr.aligned hr.int32 hl]
      have hv : volume (ancestor r q.level) = volume q := volume_congr rfl
      obtain ⟨t, ht⟩ := volume_dvd_stop hq.aligned
      unfold blockIndex
      change _ = _ * (start r / volume q)
      rw [hv, h, ht, Nat.mul_div_cancel_left _ (volume_pos q)]
    · rw [Nat.min_eq_right hl, ancestor_self hr.aligned, h]
  · rw [h]; exact (within_ancestor hd hr.aligned hr.int32 (by omega)).1
  · rw [h]
    rw [Nat.min_eq_left hl]
    have := (within_ancestor hd hr.aligned hr.int32 (l := q.level) (by omega)).2
    have hv : volume (ancestor r q.level) = volume q := volume_congr rfl
    rw [stop_eq (ancestor r q.level), hv] at this; exact this

example : Extended (⟨![0, 536870912], 1⟩ : Quad 2) ∧ Extended (⟨![536870912, 536870912], 3⟩ : Quad 2) ∧
    isNext (⟨![0, 536870912], 1⟩ : Quad 2) ⟨![536870912, 536870912], 3⟩ = true := by
  rw [← isExtended_iff, ← isExtended_iff]; decide +kernel

/-! ## C10 -/

/-- C10. The first and the last descendant of `q` of level `l` are quadrants of that level inside
`q`; a quadrant of level `l` is inside `q` iff it compares between them. -/
theorem C10_descendants_bound (hd : 0 < d) (q : Quad d) (hq : Extended q) (l : ℕ)
    (hl : q.level ≤ l) (hl29 : l ≤ 29) :
    (Extended (firstDesc q l) ∧ (firstDesc q l).level = l ∧ Cells (firstDesc q l) ⊆ Cells q) ∧
    (Extended (lastDesc q l) ∧ (lastDesc q l).level = l ∧ Cells (lastDesc q l) ⊆ Cells q) ∧
    (Valid q → Valid (firstDesc q l) ∧ Valid (lastDesc q l)) ∧
    ∀ r : Quad d, Extended r → r.level = l →
      (Cells r ⊆ Cells q ↔ compare (firstDesc q l) r ≤ 0 ∧ compare r (lastDesc q l) ≤ 0) := by
  have hfa := firstDesc_aligned hq.aligned hl (by omega)
  have hla := lastDesc_aligned hq.aligned hl (by omega)
  have hfm : (firstDesc q l).c ∈ Cells q := corner_mem q
  have hlm : (lastDesc q l).c ∈ Cells q := lastDesc_mem hl
  refine ⟨⟨extended_subset hq hfa hl29 hfm, rfl, cells_subset hq.aligned hfa hl hfm⟩,
    ⟨extended_subset hq hla hl29 hlm, rfl, cells_subset hq.aligned hla hl hlm⟩,
    fun hv => ⟨valid_subset hv hfa hl29 hfm, valid_subset hv hla hl29 hlm⟩, fun r hr hrl => ?_⟩
  have hfi : Int32 (firstDesc q l).c := hq.int32
  have hli := lastDesc_int32 hq.aligned hq.int32 hl
  rw [subset_iff_interval hd hq.aligned hr.aligned hq.int32 hr.int32,
    ← not_lt (a := (0:ℤ)), ← not_lt (a := (0:ℤ)),
    compare_pos_iff hd hfi hr.int32, compare_pos_iff hd hr.int32 hli]
  have hs := stop_lastDesc hq.aligned hq.int32 hl (by omega)
  have hv1 : volume (lastDesc q l) = volume r := volume_congr (by rw [hrl]; rfl)
  have hvp := volume_pos r
  have hf : (firstDesc q l).level = l := rfl
  have hl' : (lastDesc q l).level = l := rfl
  rw [stop_eq, hv1] at hs
  have e : stop r = start r + volume r := rfl
  unfold Before
  change _ ↔ ¬ (start r < start q ∨ start r = start q ∧ _) ∧
    ¬ (start (lastDesc q l) < start r ∨ start (lastDesc q l) = start r ∧ _)
  rw [hf, hl', hrl]
  omega

example : Extended (⟨![0, 536870912], 1⟩ : Quad 2) ∧
    lastDesc (⟨![0, 536870912], 1⟩ : Quad 2) 3 = ⟨![402653184, 939524096], 3⟩ := by
  rw [← isExtended_iff]; decide +kernel

/-- C10. Corner descendants: `p4est_quadrant_corner_descendant (q, c, l)` is the quadrant of
level `l` inside `q` that touches corner `c`: its region is the part of `q` within its own
side length of that corner, along every axis. -/
theorem C10_corner_descendant (q : Quad d) (hq : Extended q) (c l : ℕ) (hl : q.level ≤ l)
    (hl29 : l ≤ 29) :
    Extended (cornerDesc q c l) ∧ (cornerDesc q c l).level = l ∧
    (Valid q → Valid (cornerDesc q c l)) ∧
    ∀ p, p ∈ Cells (cornerDesc q c l) ↔ p ∈ Cells q ∧ ∀ i : Fin d,
      if c.testBit i then q.c i + side q - side (cornerDesc q c l) ≤ p i
      else p i < q.c i + side (cornerDesc q c l) := by
  have hs1 : side q = 2 ^ (30 - q.level) := rfl
  have hs2 : side (cornerDesc q c l) = 2 ^ (30 - l) := rfl
  have hle : (2:ℤ) ^ (30 - l) ≤ 2 ^ (30 - q.level) := pow_le_pow_right₀ (by norm_num) (by omega)
  have hpos : (0:ℤ) < 2 ^ (30 - l) := by positivity
  have hdv : (2:ℤ) ^ (30 - l) ∣ 2 ^ (30 - q.level) := pow_dvd_pow _ (by omega)
  have hc : ∀ i, (cornerDesc q c l).c i =
      q.c i + if c.testBit i then 2 ^ (30 - q.level) - 2 ^ (30 - l) else 0 := fun i => rfl
  have hmem : (cornerDesc q c l).c ∈ Cells q := by
    intro i
    rw [hc i, hs1]
    split <;> constructor <;> linarith
  have hal : Aligned (cornerDesc q c l) := by
    refine ⟨by change l ≤ 30; omega, fun i => ?_⟩
    rw [hs2, hc i]
    refine dvd_add (dvd_trans hdv (hq.aligned.2 i)) ?_
    split
    · exact dvd_sub hdv dvd_rfl
    · exact dvd_zero _
  refine ⟨extended_subset hq hal hl29 hmem, rfl, fun hv => valid_subset hv hal hl29 hmem, ?_⟩
  intro p
  unfold Cells
  simp only [Set.mem_ofPred_eq]
  rw [← forall_and]
  apply forall_congr'
  intro i
  rw [hs2, hc i, hs1]
  split <;> constructor <;> intro h <;> refine ⟨?_, ?_⟩ <;> first | (constructor <;> linarith [h.1, h.2]) | linarith [h.1, h.2, h.1.1, h.1.2] | linarith [h.1, h.2]

example : Extended (⟨![0, 536870912], 1⟩ : Quad 2) ∧
    cornerDesc (⟨![0, 536870912], 1⟩ : Quad 2) 1 3 = ⟨![402653184, 536870912], 3⟩ := by
  rw [← isExtended_iff]; decide +kernel

/-! ## C11 -/

theorem lidWidth_le (hd3 : d ≤ 3) {l : ℕ} (hl : l ≤ 30) : d * (l + 2) ≤ lidWidth d := by
  unfold lidWidth
  split
  · exact le_trans (Nat.mul_le_mul (by omega : d ≤ 2) (by omega : l + 2 ≤ 32)) (by norm_num)
  · exact le_trans (Nat.mul_le_mul hd3 (by omega : l + 2 ≤ 32)) (by norm_num)

/-- C11. Both linear id functions return the number of the block of the curve (in blocks of the
size of a level-`l` quadrant) that contains the quadrant's corner.  For a quadrant inside the
tree this number is below `2^(d*l)`.  The 64 bit version is exact up to the old maximum level
(30 in 2D, 19 in 3D), the version with the wide id type (64 bit in 2D, 128 bit in 3D) up to
level 30. -/
theorem C11_linear_id_is_block_number (hd : 0 < d) (hd3 : d ≤ 3) (q : Quad d) (hq : Extended q)
    (l : ℕ) (hl : l ≤ 30) :
    linearIdExt (lidWidth d) q l = blockIndex l q.c ∧
    ((d ≤ 2 ∨ l ≤ 19) → linearId q l = blockIndex l q.c) ∧
    (Valid q → blockIndex l q.c < 2 ^ (d * l)) := by
  have h3 := lidWidth_le hd3 hl
  have h2 : d ≤ 2 → d * (l + 2) ≤ 64 := fun h =>
    le_trans (Nat.mul_le_mul h (by omega : l + 2 ≤ 32)) (by norm_num)
  refine ⟨linearIdExt_blockIndex hd hl h3 q, fun h => ?_,
    fun hv => blockIndex_root hl hv.2.2⟩
  apply linearId_blockIndex hd hl
  rcases h with h | h
  · exact h2 h
  · exact le_trans (Nat.mul_le_mul hd3 (by omega : l + 2 ≤ 21)) (by norm_num)

/-- C11. `set_morton` inverts `linear_id`: a quadrant is recovered from its linear id at its own
level (or its ancestor of level `l` from the id at level `l`), and every id is returned by
`linear_id` of the quadrant made from it. -/
theorem C11_set_morton_inverse (hd : 0 < d) (hd3 : d ≤ 3) (l : ℕ) (hl : l ≤ 29) :
    (∀ q : Quad d, Extended q → q.level = l → setMortonExt l (linearIdExt (lidWidth d) q l) = q ∧
      ((d ≤ 2 ∨ l ≤ 18) → setMorton l (linearId q l) = q)) ∧
    (∀ id, id < 2 ^ (d * (l + 2)) → linearIdExt (lidWidth d) (setMortonExt l id : Quad d) l = id ∧
      ((d ≤ 2 ∨ l ≤ 18) → linearId (setMorton l id : Quad d) l = id)) ∧
    (∀ id, id < 2 ^ (d * l) → Valid (setMortonExt l id : Quad d) ∧
      (setMorton l id : Quad d) = setMortonExt l id) := by
  have h3 := lidWidth_le hd3 (by omega : l ≤ 30)
  have h2 : d ≤ 2 ∨ l ≤ 18 → d * (l + 2) ≤ 64 := by
    rintro (h | h)
    · exact le_trans (Nat.mul_le_mul h (by omega : l + 2 ≤ 31)) (by norm_num)
    · exact le_trans (Nat.mul_le_mul hd3 (by omega : l + 2 ≤ 20)) (by norm_num)
  have hsm : ∀ id, (setMorton l id : Quad d) = setMortonExt l id := fun id => by
    rw [setMorton_eq hd, setMortonExt_eq]
  have inv : ∀ q : Quad d, Extended q → q.level = l → setMortonExt l (blockIndex l q.c) = q := by
    intro q hq hql
    apply eq_of_blockIndex (setMortonExt_aligned (by omega)) hq.aligned (setMortonExt_int32 _ _)
      hq.int32 hql.symm
    exact blockIndex_setMortonExt hd (by change l ≤ 30; omega) (blockIndex_lt l (by omega) q.c)
  refine ⟨fun q hq hql => ⟨?_, fun h => ?_⟩, fun id hid => ⟨?_, fun h => ?_⟩, fun id hid => ⟨?_, hsm id⟩⟩
  · rw [linearIdExt_blockIndex hd (by omega) h3]; exact inv q hq hql
  · rw [linearId_blockIndex hd (by omega) (h2 h), hsm]; exact inv q hq hql
  · rw [linearIdExt_blockIndex hd (by omega) h3]; exact blockIndex_setMortonExt hd (by omega) hid
  · rw [linearId_blockIndex hd (by omega) (h2 h), hsm]; exact blockIndex_setMortonExt hd (by omega) hid
  · refine ⟨hl, setMortonExt_aligned (by omega), fun i => ?_⟩
    rw [setMortonExt_eq]
    have hdl : deinter d l id i < 2 ^ l := by
      apply Nat.lt_pow_two_of_testBit
      intro j hj
      rw [deinter_testBit]
      have : id.testBit (d * j + i) = false := by
        apply Nat.testBit_lt_two_pow
        refine lt_of_lt_of_le hid (Nat.pow_le_pow_right (by norm_num) ?_)
        have := Nat.mul_le_mul_left d hj
        omega
      simp [this]
    have hlt : deinter d l id i * 2 ^ (30 - l) < 2 ^ 30 := by
      calc deinter d l id i * 2 ^ (30 - l) < 2 ^ l * 2 ^ (30 - l) :=
            Nat.mul_lt_mul_of_pos_right hdl (by positivity)
        _ = 2 ^ 30 := by rw [← pow_add]; congr 1; omega
    simp only
    unfold i32
    rw [Nat.mod_eq_of_lt (by omega), if_pos (by omega)]
    constructor <;> omega

/-- C11. Linear ids order quadrants of one level as `p4est_quadrant_compare` does. -/
theorem C11_id_order_is_compare_order (hd : 0 < d) (hd3 : d ≤ 3) (q r : Quad d) (hq : Extended q)
    (hr : Extended r) (hl : q.level = r.level) :
    compare q r < 0 ↔ linearIdExt (lidWidth d) q q.level < linearIdExt (lidWidth d) r r.level := by
  have h1 := hq.1
  have h3 := lidWidth_le hd3 (by omega : q.level ≤ 30)
  rw [← hl, linearIdExt_blockIndex hd (by omega) h3, linearIdExt_blockIndex hd (by omega) h3,
    compare_neg_iff hd hq.int32 hr.int32]
  have e1 := start_eq_blockIndex hq.aligned
  have e2 := start_eq_blockIndex hr.aligned
  have hv : volume r = volume q := volume_congr hl.symm
  rw [hv, ← hl] at e2
  unfold Before
  change start q < start r ∨ _ ∧ _ ↔ _
  rw [e1, e2, hl]
  have := volume_pos q
  constructor
  · rintro (h | ⟨_, h⟩)
    · exact lt_of_mul_lt_mul_left h (Nat.zero_le _)
    · omega
  · intro h
    exact Or.inl (Nat.mul_lt_mul_of_pos_left h this)

example : Extended (⟨![-268435456, 805306368], 2⟩ : Quad 2) ∧
    linearIdExt (lidWidth 2) (⟨![-268435456, 805306368], 2⟩ : Quad 2) 2 = 95 ∧
    (setMortonExt 2 95 : Quad 2) = ⟨![-268435456, 805306368], 2⟩ := by
  rw [← isExtended_iff]; decide +kernel

/-! ## C12 -/

theorem root_cells_valid {q r : Quad d} (hq : Valid q) (hr : Aligned r) (hl : r.level ≤ 29)
    (h : r.c ∈ Cells (ancestor q 0)) : Valid r := by
  have hv : Valid (ancestor q 0) := by
    apply valid_super hq (ancestor_aligned q (by omega)) (by simp)
    exact cells_subset_ancestor hq.aligned (by omega) (corner_mem q)
  exact valid_subset hv hr hl h

theorem root_cells_extended {q r : Quad d} (hq : Extended q) (hr : Aligned r) (hl : r.level ≤ 29)
    (h : r.c ∈ Cells (ancestor q 0)) : Extended r := by
  have hv : Extended (ancestor q 0) := by
    apply extended_super hq (ancestor_aligned q (by omega)) (by simp)
    exact cells_subset_ancestor hq.aligned (by omega) (corner_mem q)
  exact extended_subset hv hr hl h

theorem valid_root {q : Quad d} (hq : Valid q) : ancestor q 0 = root d := by
  refine Quad.ext' (fun i => ?_) rfl
  rw [ancestor_c]
  have := hq.2.2 i
  change (2:ℤ) ^ (30 - 0) * (q.c i / 2 ^ (30 - 0)) = 0
  rw [Int.ediv_eq_zero_of_lt this.1 (by simpa using this.2), mul_zero]

theorem start_root : start (root d) = 0 := by
  unfold start curve root
  simp only [Int.zero_emod, Int.toNat_zero]
  have : ∀ n, interleave n (fun _ : Fin d => 0) = 0 := by
    intro n
    induction n with
    | zero => rfl
    | succ n ih => rw [interleave]; simp [ih, digit]
  exact this 32

theorem stop_root : stop (root d) = 2 ^ (d * 30) := by
  rw [stop_eq, start_root]; simp [volume, root]

/-- C12. The successor of a quadrant inside the tree is the quadrant of the same level, inside
the tree, that begins where it ends; its linear id is larger by one.  A successor exists unless
the quadrant reaches the end of the tree's curve. -/
theorem C12_successor (hd : 0 < d) (hd3 : d ≤ 3) (q : Quad d) (hq : Valid q) :
    (∀ r, successor q = some r → Valid r ∧ r.level = q.level ∧ start r = stop q ∧
      linearIdExt (lidWidth d) r r.level = linearIdExt (lidWidth d) q q.level + 1) ∧
    (successor q = none ↔ stop q = 2 ^ (d * 30)) := by
  obtain ⟨h1, h2⟩ := successor_spec hd hq.aligned hq.int32
  have h29 := hq.1
  have h3 := lidWidth_le hd3 (by omega : q.level ≤ 30)
  rw [valid_root hq, stop_root] at h2
  refine ⟨fun r hr => ?_, h2, fun h => ?_⟩
  · obtain ⟨k1, k2, k3, k4⟩ := h1 r hr
    refine ⟨root_cells_valid hq k2 (by omega) k3, k1, k4, ?_⟩
    rw [k1, linearIdExt_blockIndex hd (by omega) h3, linearIdExt_blockIndex hd (by omega) h3]
    have e1 := start_eq_blockIndex k2
    have e2 := start_eq_blockIndex hq.aligned
    rw [volume_congr k1, k1] at e1
    rw [k4, stop_eq, e2] at e1
    have := volume_pos q
    apply Nat.eq_of_mul_eq_mul_left this
    rw [← e1]; ring
  · cases hs : successor q with
    | none => rfl
    | some r =>
      obtain ⟨k1, k2, k3, k4⟩ := h1 r hs
      have hv := root_cells_valid hq k2 (by omega) k3
      have := (within_ancestor hd k2 hv.int32 (l := 0) (by omega)).2
      rw [valid_root hv, stop_root] at this
      have := start_lt_stop r
      omega

/-- C12. The predecessor, likewise. -/
theorem C12_predecessor (hd : 0 < d) (hd3 : d ≤ 3) (q : Quad d) (hq : Valid q) :
    (∀ r, predecessor q = some r → Valid r ∧ r.level = q.level ∧ stop r = start q ∧
      linearIdExt (lidWidth d) r r.level + 1 = linearIdExt (lidWidth d) q q.level) ∧
    (predecessor q = none ↔ start q = 0) := by
  obtain ⟨h1, h2⟩ := predecessor_spec hd hq.aligned hq.int32
  have h29 := hq.1
  have h3 := lidWidth_le hd3 (by omega : q.level ≤ 30)
  rw [valid_root hq, start_root] at h2
  refine ⟨fun r hr => ?_, h2, fun h => ?_⟩
  · obtain ⟨k1, k2, k3, k4⟩ := h1 r hr
    refine ⟨root_cells_valid hq k2 (by omega) k3, k1, k4, ?_⟩
    rw [k1, linearIdExt_blockIndex hd (by omega) h3, linearIdExt_blockIndex hd (by omega) h3]
    have e1 := start_eq_blockIndex k2
    have e2 := start_eq_blockIndex hq.aligned
    rw [volume_congr k1, k1] at e1
    rw [← k4, stop_eq, e1, volume_congr k1] at e2
    have := volume_pos q
    apply Nat.eq_of_mul_eq_mul_left this
    rw [← e2]; ring
  · cases hs : predecessor q with
    | none => rfl
    | some r =>
      obtain ⟨k1, k2, k3, k4⟩ := h1 r hs
      have := start_lt_stop r
      omega

/-- C12. Successor and predecessor are inverse to each other. -/
theorem C12_inverse (hd : 0 < d) (q r : Quad d) (hq : Valid q) (hr : Valid r) :
    successor q = some r ↔ predecessor r = some q := by
  obtain ⟨h1, h2⟩ := successor_spec hd hq.aligned hq.int32
  obtain ⟨g1, g2⟩ := predecessor_spec hd hr.aligned hr.int32
  constructor
  · intro h
    obtain ⟨k1, k2, k3, k4⟩ := h1 r h
    cases hs : predecessor r with
    | none =>
      have := g2 hs
      rw [valid_root hr, start_root] at this
      have := start_lt_stop q
      omega
    | some s =>
      obtain ⟨m1, m2, m3, m4⟩ := g1 s hs
      have hsv := root_cells_valid hr m2 (by have := hr.1; omega) m3
      congr 1
      apply eq_of_interval hd m2 hq.aligned hsv.int32 hq.int32
      · have a := stop_eq s; have b := stop_eq q
        rw [volume_congr (r := q) (by omega)] at a
        omega
      · omega
  · intro h
    obtain ⟨k1, k2, k3, k4⟩ := g1 q h
    cases hs : successor q with
    | none =>
      have := h2 hs
      rw [valid_root hq, stop_root] at this
      have h5 := (within_ancestor hd hr.aligned hr.int32 (l := 0) (by omega)).2
      rw [valid_root hr, stop_root] at h5
      have := start_lt_stop r
      omega
    | some s =>
      obtain ⟨m1, m2, m3, m4⟩ := h1 s hs
      have hsv := root_cells_valid hq m2 (by have := hq.1; omega) m3
      congr 1
      apply eq_of_interval hd m2 hr.aligned hsv.int32 hr.int32
      · omega
      · rw [stop_eq, stop_eq, volume_congr (q := s) (r := r) (by omega)]; omega

example : Valid (⟨![402653184, 939524096], 3⟩ : Quad 2) ∧
    successor (⟨![402653184, 939524096], 3⟩ : Quad 2) = some ⟨![536870912, 536870912], 3⟩ ∧
    predecessor (⟨![536870912, 536870912], 3⟩ : Quad 2) = some ⟨![402653184, 939524096], 3⟩ := by
  rw [← isValid_iff]; decide +kernel

/-! ## C13 -/

/-- C13. `p4est_quadrant_enlarge_first (a, q)` is the largest quadrant that contains `q`, lies in
`a` and begins where `q` begins. -/
theorem C13_enlarge_first_maximal (hd : 0 < d) (a q : Quad d) (ha : Extended a) (hq : Extended q)
    (h : Cells q ⊆ Cells a) :
    let e := enlargeFirst a q
    (Extended e ∧ Cells q ⊆ Cells e ∧ Cells e ⊆ Cells a ∧ start e = start q) ∧
    ∀ b : Quad d, Extended b → Cells q ⊆ Cells b → Cells b ⊆ Cells a → start b = start q →
      Cells b ⊆ Cells e := by
  intro e
  have hla := ((cells_subset_iff hd ha.aligned hq.aligned).mp h).1
  have h29 := hq.1
  obtain ⟨h1, h2, h3, h4⟩ := enlargeFirstLevel_spec hq.int32 a.level q.level hla (by omega)
  have he : e = ancestor q (enlargeFirstLevel (orCoords q.c) a.level q.level) :=
    enlargeFirst_eq hq.aligned hq.int32 hla
  set L := enlargeFirstLevel (orCoords q.c) a.level q.level with hL
  rw [ancestor_self hq.aligned] at h3 h4
  have hsub : Cells q ⊆ Cells e := by rw [he]; exact cells_subset_ancestor hq.aligned h2
  have hee : Extended e := by
    apply extended_super hq _ _ (hsub (corner_mem q))
    · rw [he]; exact ancestor_aligned q (by omega)
    · rw [he, ancestor_level]; omega
  have hea : ancestor e a.level = a := by
    rw [he, ancestor_ancestor h1]
    exact (ancestor_unique hq.aligned ha.aligned hla (h (corner_mem q))).symm
  refine ⟨⟨hee, hsub, ?_, by rw [he]; exact h3⟩, fun b hb hqb hba hbs => ?_⟩
  · rw [← hea]
    apply cells_subset_ancestor hee.aligned
    rw [he, ancestor_level]; exact h1
  · have hlb := ((cells_subset_iff hd hb.aligned hq.aligned).mp hqb).1
    have hab := ((cells_subset_iff hd ha.aligned hb.aligned).mp hba).1
    have hbe := ancestor_unique hq.aligned hb.aligned hlb (hqb (corner_mem q))
    rw [hbe, he]
    rcases Nat.lt_or_ge b.level L with hlt | hge
    · exfalso
      apply h4 (by omega)
      have m1 := ancestor_mono hd hq.int32 (l := b.level) (m := L - 1) (by omega) (by omega)
      have m2 := ancestor_mono hd hq.int32 (l := L - 1) (m := q.level) (by omega) (by omega)
      rw [ancestor_self hq.aligned] at m2
      rw [← hbe] at m1
      omega
    · rw [← ancestor_ancestor (q := q) hge]
      apply cells_subset_ancestor (ancestor_aligned q (by omega))
      rw [ancestor_level]; exact hge

/-- C13. `p4est_quadrant_enlarge_last (a, q)` is the largest quadrant that contains `q`, lies in
`a` and ends where `q` ends. -/
theorem C13_enlarge_last_maximal (hd : 0 < d) (a q : Quad d) (ha : Extended a) (hq : Extended q)
    (h : Cells q ⊆ Cells a) :
    let e := enlargeLast a q
    (Extended e ∧ Cells q ⊆ Cells e ∧ Cells e ⊆ Cells a ∧ stop e = stop q) ∧
    ∀ b : Quad d, Extended b → Cells q ⊆ Cells b → Cells b ⊆ Cells a → stop b = stop q →
      Cells b ⊆ Cells e := by
  intro e
  have hla := ((cells_subset_iff hd ha.aligned hq.aligned).mp h).1
  have h29 := hq.1
  obtain ⟨h1, h2, h3, h4⟩ := enlargeLastLevel_spec hq.int32 a.level q.level hla (by omega)
  have he : e = ancestor q (enlargeLastLevel (andCoords q.c) a.level q.level) :=
    enlargeLast_eq hq.aligned hq.int32 hla
  set L := enlargeLastLevel (andCoords q.c) a.level q.level with hL
  rw [ancestor_self hq.aligned] at h3 h4
  have hsub : Cells q ⊆ Cells e := by rw [he]; exact cells_subset_ancestor hq.aligned h2
  have hee : Extended e := by
    apply extended_super hq _ _ (hsub (corner_mem q))
    · rw [he]; exact ancestor_aligned q (by omega)
    · rw [he, ancestor_level]; omega
  have hea : ancestor e a.level = a := by
    rw [he, ancestor_ancestor h1]
    exact (ancestor_unique hq.aligned ha.aligned hla (h (corner_mem q))).symm
  refine ⟨⟨hee, hsub, ?_, by rw [he]; exact h3⟩, fun b hb hqb hba hbs => ?_⟩
  · rw [← hea]
    apply cells_subset_ancestor hee.aligned
    rw [he, ancestor_level]; exact h1
  · have hlb := ((cells_subset_iff hd hb.aligned hq.aligned).mp hqb).1
    have hab := ((cells_subset_iff hd ha.aligned hb.aligned).mp hba).1
    have hbe := ancestor_unique hq.aligned hb.aligned hlb (hqb (corner_mem q))
    rw [hbe, he]
    rcases Nat.lt_or_ge b.level L with hlt | hge
    · exfalso
      apply h4 (by omega)
      have m1 := ancestor_mono hd hq.int32 (l := b.level) (m := L - 1) (by omega) (by omega)
      have m2 := ancestor_mono hd hq.int32 (l := L - 1) (m := q.level) (by omega) (by omega)
      rw [ancestor_self hq.aligned] at m2
      rw [← hbe] at m1
      omega
    · rw [← ancestor_ancestor (q := q) hge]
      apply cells_subset_ancestor (ancestor_aligned q (by omega))
      rw [ancestor_level]; exact hge

/-- C13. `p4est_quadrant_is_first_last (f, l, a)`, for `f` and `l` inside `a`, tells whether `f`
begins where `a` begins and `l` ends where `a` ends. -/
theorem C13_is_first_last_iff (hd : 0 < d) (f l a : Quad d) (hf : Extended f) (hl : Extended l)
    (ha : Extended a) (hfa : Cells f ⊆ Cells a) (hla : Cells l ⊆ Cells a) :
    isFirstLast f l a = true ↔ start f = start a ∧ stop l = stop a := by
  have hlv := ((cells_subset_iff hd ha.aligned hl.aligned).mp hla).1
  rw [stop_eq_iff_lastDesc hd ha.aligned hl.aligned ha.int32 hl.int32 hlv]
  unfold isFirstLast
  have e1 : (∃ i, a.c i ≠ f.c i) ↔ ¬ start f = start a := by
    rw [← not_iff_not, not_not]
    push Not
    constructor
    · intro h; unfold start; congr 1; funext i; exact (h i).symm
    · intro h i; rw [curve_inj hf.int32 ha.int32 h]
  have e2 : (∃ i, a.c i + (qlen a.level - qlen l.level) ≠ l.c i) ↔ ¬ l = lastDesc a l.level := by
    rw [← not_iff_not, not_not]
    push Not
    constructor
    · intro h; exact Quad.ext' (fun i => (h i).symm) rfl
    · intro h i
      exact (congrFun (congrArg Quad.c h) i).symm
  by_cases h1 : ∃ i, a.c i ≠ f.c i
  · rw [if_pos h1]; simp [e1.mp h1]
  · rw [if_neg h1]
    have h1' : start f = start a := by rwa [e1, not_not] at h1
    simp only
    by_cases h2 : ∃ i, a.c i + (qlen a.level - qlen l.level) ≠ l.c i
    · rw [if_pos h2]; simp [e2.mp h2]
    · rw [if_neg h2]
      have h2' : l = lastDesc a l.level := by rwa [e2, not_not] at h2
      exact ⟨fun _ => ⟨h1', h2'⟩, fun _ => rfl⟩

example : Extended (⟨![0, 0], 1⟩ : Quad 2) ∧ Extended (⟨![0, 0], 4⟩ : Quad 2) ∧
    Extended (⟨![469762048, 469762048], 4⟩ : Quad 2) ∧
    isAncestor (⟨![0, 0], 1⟩ : Quad 2) ⟨![469762048, 469762048], 4⟩ = true ∧
    isFirstLast (⟨![0, 0], 4⟩ : Quad 2) ⟨![469762048, 469762048], 4⟩ ⟨![0, 0], 1⟩ = true ∧
    enlargeLast (⟨![0, 0], 1⟩ : Quad 2) ⟨![469762048, 469762048], 4⟩ = ⟨![0, 0], 1⟩ := by
  rw [← isExtended_iff, ← isExtended_iff, ← isExtended_iff]; decide +kernel

/-! ## C43 -/

/-- C43. A quadrant is reported to overlap a (local part of a) tree iff the tree has leaves and
the quadrant's stretch of the curve meets the stretch from the first to the last local position. -/
theorem C43_overlaps_tree_iff (hd : 0 < d) (n : ℕ) (fd ld q : Quad d) (hf : Valid fd) (hl : Valid ld)
    (hfl : fd.level = 29) (hll : ld.level = 29) (hq : Valid q) :
    overlapsTree n fd ld q = true ↔ 0 < n ∧ start fd < stop q ∧ start q < stop ld := by
  have h29 := hq.1
  unfold overlapsTree
  have hla := lastDesc_aligned hq.aligned (l := 29) (by omega) (by omega)
  have hli := lastDesc_int32 hq.aligned hq.int32 (l := 29) (by omega)
  have hs := stop_lastDesc hq.aligned hq.int32 (l := 29) (by omega) (by omega)
  have e1 : compare (lastDesc q QMAXLEVEL) fd < 0 ↔ stop q ≤ start fd := by
    change compare (lastDesc q 29) fd < 0 ↔ _
    rw [compare_neg_iff hd hli hf.int32]
    unfold Before
    change start (lastDesc q 29) < start fd ∨ _ ∧ 29 < fd.level ↔ _
    rw [hfl, ← hs]
    have hv : volume (lastDesc q 29) = volume fd := volume_congr (by rw [hfl]; rfl)
    obtain ⟨x, hx⟩ := volume_dvd_start hf.aligned
    obtain ⟨y, hy⟩ := volume_dvd_start hla
    have hp := volume_pos fd
    rw [stop_eq, hy, hx, hv]
    constructor
    · rintro (h | ⟨_, h⟩)
      · have := lt_of_mul_lt_mul_left h (Nat.zero_le _)
        calc volume fd * y + volume fd = volume fd * (y + 1) := by ring
          _ ≤ volume fd * x := Nat.mul_le_mul_left _ this
      · omega
    · intro h; left; omega
  have e2 : compare ld q < 0 ↔ stop ld ≤ start q := by
    rw [compare_neg_iff hd hl.int32 hq.int32]
    unfold Before
    change start ld < start q ∨ _ ∧ ld.level < q.level ↔ _
    rw [hll]
    obtain ⟨x, hx⟩ := volume_dvd_start hl.aligned
    obtain ⟨y, hy⟩ := dvd_trans (volume_dvd (q := q) (r := ld) (by omega)) (volume_dvd_start hq.aligned)
    have hp := volume_pos ld
    rw [stop_eq, hy, hx]
    constructor
    · rintro (h | ⟨_, h⟩)
      · have := lt_of_mul_lt_mul_left h (Nat.zero_le _)
        calc volume ld * x + volume ld = volume ld * (x + 1) := by ring
          _ ≤ volume ld * y := Nat.mul_le_mul_left _ this
      · omega
    · intro h; left; omega
  rcases Nat.eq_zero_or_pos n with rfl | hn
  · simp
  rw [if_neg (by omega)]
  by_cases c1 : compare (lastDesc q QMAXLEVEL) fd < 0
  · rw [if_pos c1]; rw [e1] at c1
    exact ⟨fun h => absurd h (by simp), fun h => by omega⟩
  · rw [if_neg c1]; rw [e1] at c1
    by_cases c2 : compare ld q < 0
    · rw [if_pos c2]; rw [e2] at c2
      exact ⟨fun h => absurd h (by simp), fun h => by omega⟩
    · rw [if_neg c2]; rw [e2] at c2
      exact ⟨fun h => by omega, fun h => rfl⟩

/-- C43 is false for `p4est_quadrant_is_inside_tree` ("completely contained" in the local part):
a quadrant that begins inside the local range and extends beyond its end is accepted.  Witness:
the local range is child 0 of the root and the quadrant is the root. -/
theorem C43_is_inside_tree_accepts_outside : ∃ fd ld q : Quad 2, Valid fd ∧ Valid ld ∧ Valid q ∧
    fd.level = 29 ∧ ld.level = 29 ∧ start fd ≤ start ld ∧ isInsideTree 1 fd ld q = true ∧
    ¬ stop q ≤ stop ld := by
  refine ⟨⟨![0, 0], 29⟩, ⟨![536870910, 536870910], 29⟩, ⟨![0, 0], 0⟩, ?_⟩
  rw [← isValid_iff, ← isValid_iff, ← isValid_iff]; decide +kernel

/-- C43 partial. What `p4est_quadrant_is_inside_tree` decides: the quadrant's first position is in
the local range.  Missing: that the quadrant also ends in it (false, see above).  It does follow
if the quadrant does not contain the last local position strictly inside, e.g. if it is a leaf of
the tree or smaller. -/
theorem C43_is_inside_tree_partial (hd : 0 < d) (n : ℕ) (fd ld q : Quad d) (hf : Valid fd)
    (hl : Valid ld) (hfl : fd.level = 29) (hll : ld.level = 29) (hq : Valid q) :
    isInsideTree n fd ld q = true ↔ 0 < n ∧ start fd ≤ start q ∧ start q < stop ld := by
  have h29 := hq.1
  have e1 : compare (firstDesc q QMAXLEVEL) fd < 0 ↔ start q < start fd := by
    change compare (firstDesc q 29) fd < 0 ↔ _
    rw [compare_neg_iff hd (q := firstDesc q 29) hq.int32 hf.int32]
    unfold Before
    change start q < start fd ∨ _ ∧ 29 < fd.level ↔ _
    omega
  have e2 : compare ld q < 0 ↔ stop ld ≤ start q := by
    rw [compare_neg_iff hd hl.int32 hq.int32]
    unfold Before
    change start ld < start q ∨ _ ∧ ld.level < q.level ↔ _
    rw [hll]
    obtain ⟨x, hx⟩ := volume_dvd_start hl.aligned
    obtain ⟨y, hy⟩ := dvd_trans (volume_dvd (q := q) (r := ld) (by omega)) (volume_dvd_start hq.aligned)
    have hp := volume_pos ld
    rw [stop_eq, hy, hx]
    constructor
    · rintro (h | ⟨_, h⟩)
      · have := lt_of_mul_lt_mul_left h (Nat.zero_le _)
        calc volume ld * x + volume ld = volume ld * (x + 1) := by ring
          _ ≤ volume ld * y := Nat.mul_le_mul_left _ this
      · omega
    · intro h; left; omega
  unfold isInsideTree
  rcases Nat.eq_zero_or_pos n with rfl | hn
  · simp
  rw [if_neg (by omega)]
  by_cases c1 : compare (firstDesc q QMAXLEVEL) fd < 0
  · rw [if_pos c1]; rw [e1] at c1
    exact ⟨fun h => absurd h (by simp), fun h => by omega⟩
  · rw [if_neg c1]; rw [e1] at c1
    by_cases c2 : compare ld q < 0
    · rw [if_pos c2]; rw [e2] at c2
      exact ⟨fun h => absurd h (by simp), fun h => by omega⟩
    · rw [if_neg c2]; rw [e2] at c2
      exact ⟨fun h => by omega, fun h => rfl⟩

/-- C43. `p4est_quadrant_in_range (fd, ld, q)` is true iff `q` is a legal quadrant of the tree
whose whole stretch of the curve is between the beginning of `fd` and the end of `ld`. -/
theorem C43_in_range_iff (hd : 0 < d) (fd ld q : Quad d) (hf : Valid fd) (hl : Valid ld)
    (hfl : fd.level = 29) (hll : ld.level = 29) :
    inRange fd ld q = true ↔ Valid q ∧ start fd ≤ start q ∧ stop q ≤ stop ld := by
  unfold inRange
  by_cases hv : isValid q = true
  swap
  · rw [if_pos hv, ← isValid_iff]; simp [hv]
  rw [if_neg (by simpa using hv)]
  have hq := isValid_iff.mp hv
  have h29 := hq.1
  have e1 : (compare fd q > 0 ∧ ∃ i, fd.c i ≠ q.c i) ↔ start q < start fd := by
    change (0 < compare fd q ∧ _) ↔ _
    rw [compare_pos_iff hd hf.int32 hq.int32]
    unfold Before
    change (start q < start fd ∨ start q = start fd ∧ _) ∧ _ ↔ _
    constructor
    · rintro ⟨h | ⟨h, _⟩, i, hi⟩
      · exact h
      · exact absurd (congrFun (curve_inj hq.int32 hf.int32 h) i).symm hi
    · intro h
      refine ⟨Or.inl h, ?_⟩
      by_contra hc
      push Not at hc
      have : start fd = start q := by unfold start; congr 1; exact funext hc
      omega
  have hla := lastDesc_aligned hq.aligned (l := 29) (by omega) (by omega)
  have hli := lastDesc_int32 hq.aligned hq.int32 (l := 29) (by omega)
  have hs := stop_lastDesc hq.aligned hq.int32 (l := 29) (by omega) (by omega)
  have e2 : compare (lastDesc q QMAXLEVEL) ld > 0 ↔ stop ld < stop q := by
    change 0 < compare (lastDesc q 29) ld ↔ _
    rw [compare_pos_iff hd hli hl.int32]
    unfold Before
    change start ld < start (lastDesc q 29) ∨ _ ∧ ld.level < 29 ↔ _
    rw [hll, ← hs, stop_eq, stop_eq, volume_congr (q := lastDesc q 29) (r := ld) (by rw [hll]; rfl)]
    omega
  by_cases c1 : compare fd q > 0 ∧ ∃ i, fd.c i ≠ q.c i
  · rw [if_pos c1]; rw [e1] at c1
    exact ⟨fun h => absurd h (by simp), fun h => by omega⟩
  · rw [if_neg c1]; rw [e1] at c1
    by_cases c2 : compare (lastDesc q QMAXLEVEL) ld > 0
    · rw [if_pos c2]; rw [e2] at c2
      exact ⟨fun h => absurd h (by simp), fun h => by omega⟩
    · rw [if_neg c2]; rw [e2] at c2
      exact ⟨fun h => ⟨hq, by omega, by omega⟩, fun h => rfl⟩

example : Valid (⟨![0, 0], 29⟩ : Quad 2) ∧ Valid (⟨![536870910, 536870910], 29⟩ : Quad 2) ∧
    inRange (⟨![0, 0], 29⟩ : Quad 2) ⟨![536870910, 536870910], 29⟩ ⟨![0, 268435456], 2⟩ = true ∧
    overlapsTree 3 (⟨![0, 0], 29⟩ : Quad 2) ⟨![536870910, 536870910], 29⟩ ⟨![0, 0], 0⟩ = true := by
  rw [← isValid_iff, ← isValid_iff]; decide +kernel

end P4est
