import Verif.Props.Partition

/-! # C48: a neighborhood reported as owned is owned -/

namespace P4est
open Spec

variable {d : ℕ}

theorem digit_mono {a b : Fin d → ℕ} (h : ∀ i, a i % 2 ≤ b i % 2) : digit a ≤ digit b :=
  Finset.sum_le_sum fun i _ => Nat.mul_le_mul_left _ (h i)

theorem interleave_mono (n : ℕ) {a b : Fin d → ℕ} (hb : ∀ i, b i < 2 ^ n) (h : ∀ i, a i ≤ b i) :
    interleave n a ≤ interleave n b := by
  induction n generalizing a b with
  | zero => exact le_rfl
  | succ n ih =>
    simp only [interleave]
    have hb' : ∀ i, b i / 2 < 2 ^ n := fun i => by
      have := hb i; rw [pow_succ] at this; omega
    have h1 := ih (a := fun i => a i / 2) (b := fun i => b i / 2) hb' fun i => by have := h i; omega
    have h2 := digit_lt a
    rcases Nat.lt_or_ge (interleave n fun i => a i / 2) (interleave n fun i => b i / 2) with hlt | hge
    · have : 2 ^ d * ((interleave n fun i => a i / 2) + 1) ≤ 2 ^ d * (interleave n fun i => b i / 2) :=
        Nat.mul_le_mul_left _ hlt
      rw [Nat.mul_add] at this
      omega
    · have he := Nat.le_antisymm h1 hge
      rw [he]
      have : digit a ≤ digit b := by
        apply digit_mono
        intro i
        have h3 := interleave_inj he i
        have h4 := hb' i
        have h5 := h i
        rw [Nat.mod_eq_of_lt h4, Nat.mod_eq_of_lt (by omega)] at h3
        omega
      omega

/-- Going up in all coordinates does not go back on the curve. -/
theorem curve_mono {a b : Fin d → ℤ} (ha : InTree a) (hb : InTree b) (h : ∀ i, a i ≤ b i) :
    curve a ≤ curve b := by
  rw [curve_eq, curve_eq]
  apply interleave_mono
  · intro i; exact u32_lt _
  · intro i
    have h1 := u32_cast (a i)
    have h2 := u32_cast (b i)
    have := ha i; have := hb i; have := h i
    omega

/-- The cells within one side length of a quadrant. -/
def Spec.Around (q : Quad d) : Set (Fin d → ℤ) :=
  {p | ∀ i, q.c i - side q ≤ p i ∧ p i < q.c i + 2 * side q}

/-- The whole tree belongs to a rank if both flags of `p4est_comm_tree_info` are set. -/
theorem full_owned (hd : 0 < d) {trees : List (List (Quad d))} {P : ℕ}
    {leaves : ℕ → List (ℕ × Quad d)} {s : ℕ → ℕ} (hs : Segments trees P leaves s) {t r : ℕ} (hr : r < P)
    {q : Quad d} (hq : (t, q) ∈ leaves r) {x0 xl : ℕ × Quad d} (h0 : (leaves r).head? = some x0)
    (hl : (leaves r).getLast? = some xl) {full : Bool × Bool}
    (hfull : fullTree (globalPartition leaves P trees.length) r x0.1 xl.1 t = some full) :
    (full.1 = true → s r ≤ t * 2 ^ (d * 30)) ∧ (full.2 = true → (t + 1) * 2 ^ (d * 30) ≤ s (r + 1)) := by
  obtain ⟨c, e1, a1⟩ := globalPartition_at hd hs r hr.le
  obtain ⟨c', e2, a2⟩ := globalPartition_at hd hs (r + 1) hr
  have hpath := hs.path r hr
  have hqv := (hs.leaf r hr _ hq).2
  have hqm := hpath.mem hq
  have hqs : stop q ≤ 2 ^ (d * 30) := valid_stop_le hd hqv
  unfold gstart gstop at hqm
  simp only at hqm
  unfold fullTree at hfull
  simp only [e1, e2, Option.bind_eq_bind, Option.bind_some, Option.some.injEq] at hfull
  subst hfull
  simp only [Bool.or_eq_true, decide_eq_true_eq]
  have hzero : ∀ {g : GPos d} {n : ℕ}, At g n → (∀ i, g.c i = 0) → ∃ u : ℕ, n = u * 2 ^ (d * 30) := by
    rintro g n ⟨u, k1, k2, k3⟩ hz
    have : g.c = fun _ => 0 := funext hz
    rw [this, curve_zero] at k3
    exact ⟨u, by omega⟩
  constructor
  · rintro (h | h)
    · have hx0 : x0 ∈ leaves r := List.mem_of_head? h0
      have hm := hpath.mem hx0
      have hv := valid_stop_le hd (hs.leaf r hr _ hx0).2
      have hss := start_lt_stop x0.2
      unfold gstart at hm
      have : (x0.1 + 1) * 2 ^ (d * 30) ≤ t * 2 ^ (d * 30) := Nat.mul_le_mul_right _ (by omega)
      rw [Nat.add_one_mul] at this
      omega
    · obtain ⟨u, hu⟩ := hzero a1 h
      rw [hu] at hqm ⊢
      have hss := start_lt_stop q
      have : u < t + 1 := by
        by_contra hc
        have : (t + 1) * 2 ^ (d * 30) ≤ u * 2 ^ (d * 30) := Nat.mul_le_mul_right _ (by omega)
        rw [Nat.add_one_mul] at this
        omega
      exact Nat.mul_le_mul_right _ (by omega)
  · rintro (h | h)
    · have hxl : xl ∈ leaves r := List.mem_of_getLast? hl
      have hm := hpath.mem hxl
      have hss := gstart_lt_gstop xl
      unfold gstart at hm hss
      have : (t + 1) * 2 ^ (d * 30) ≤ xl.1 * 2 ^ (d * 30) := Nat.mul_le_mul_right _ (by omega)
      omega
    · obtain ⟨u, hu⟩ := hzero a2 h
      rw [hu] at hqm ⊢
      have hss := start_lt_stop q
      have : t < u := by
        by_contra hc
        have : u * 2 ^ (d * 30) ≤ t * 2 ^ (d * 30) := Nat.mul_le_mul_right _ (by omega)
        omega
      exact Nat.mul_le_mul_right _ this

/-- C48 (partial). Let `p4est_comm_neighborhood_owned`, called for a leaf with the flags computed by
`p4est_comm_tree_info`, return true.  Then every cell of the tree within one side length of the leaf
belongs to a leaf of this rank, and either this neighborhood lies inside the tree, or the leaf does
not touch any face of the tree that is connected to another face.
Missing: neighborhoods across the edges and corners of the tree, see
`C48_corner_neighborhood_not_owned`. -/
theorem C48_neighborhood_owned_partial (hd : 0 < d) (trees : List (List (Quad d))) (P : ℕ)
    (leaves : ℕ → List (ℕ × Quad d)) (h : Distributed trees P leaves) (r : ℕ) (hr : r < P)
    (t : ℕ) (q : Quad d) (hq : (t, q) ∈ leaves r) (x0 xl : ℕ × Quad d)
    (h0 : (leaves r).head? = some x0) (hl : (leaves r).getLast? = some xl) (full : Bool × Bool)
    (hfull : fullTree (globalPartition leaves P trees.length) r x0.1 xl.1 t = some full)
    (treeToTree treeToFace : ℕ → ℕ → ℕ)
    (hown : neighborhoodOwned (globalPartition leaves P trees.length) P r t full
      (treeContact treeToTree treeToFace t) q = some true) :
    (∀ p ∈ Around q, InTree p → ∃ x ∈ leaves r, x.1 = t ∧ p ∈ Cells x.2) ∧
    ((∀ p ∈ Around q, InTree p) ∨
      ∀ i : Fin d, (q.c i = 0 → treeToTree t (2 * i) = t ∧ treeToFace t (2 * i) = 2 * i) ∧
        (q.c i + side q = 2 ^ 30 → treeToTree t (2 * i + 1) = t ∧ treeToFace t (2 * i + 1) = 2 * i + 1)) := by
  obtain ⟨s, hs⟩ := h.segments hd
  have hqv := (hs.leaf r hr _ hq).2
  have htl := (hs.leaf r hr _ hq).1
  unfold neighborhoodOwned at hown
  split at hown
  · rename_i hf
    rw [Bool.and_eq_true] at hf
    obtain ⟨k1, k2⟩ := full_owned hd hs hr hq h0 hl hfull
    refine ⟨fun p _ hp => (hs.mem_iff hd t r hr hp).mpr ?_, Or.inr ?_⟩
    · have h1 := k1 hf.1; have h2 := k2 hf.2; have h3 := curve_lt_of_inTree hp
      rw [Nat.add_one_mul] at h2
      omega
    · simp only [Option.some.injEq, Bool.not_eq_true', decide_eq_false_iff_not, not_exists, not_or,
        not_and] at hown
      intro i
      obtain ⟨a, b⟩ := hown i
      constructor
      · intro hz
        by_contra hc
        refine a ?_ hz
        unfold treeContact
        rw [Bool.or_eq_true]
        simp only [decide_eq_true_eq]
        tauto
      · intro hz
        by_contra hc
        refine b ?_ (by unfold rootLen qlen MAXLEVEL; unfold side at hz; omega)
        unfold treeContact
        rw [Bool.or_eq_true]
        simp only [decide_eq_true_eq]
        tauto
  · have hqa := hqv.aligned
    simp only at hown
    split at hown
    · rename_i hin
      obtain ⟨hin0, hin1⟩ := hin
      have hside : qlen q.level = side q := rfl
      rw [hside] at hin0 hin1 hown
      have hsp : 0 < side q := by unfold side; positivity
      have hv0 : Valid (⟨fun i => q.c i - side q, q.level⟩ : Quad d) := by
        refine ⟨hqv.1, ⟨hqa.1, fun i => Int.dvd_sub (hqa.2 i) (dvd_refl _)⟩, fun i => ?_⟩
        have := hin0 i; have := hqv.2.2 i
        change 0 ≤ q.c i - side q ∧ q.c i - side q < 2 ^ 30
        simp only at *
        omega
      have hv1 : Valid (⟨fun i => q.c i + side q, q.level⟩ : Quad d) := by
        refine ⟨hqv.1, ⟨hqa.1, fun i => Int.dvd_add (hqa.2 i) (dvd_refl _)⟩, fun i => ?_⟩
        have := hin1 i; have := hqv.2.2 i
        change 0 ≤ q.c i + side q ∧ q.c i + side q < 2 ^ 30
        unfold rootLen MAXLEVEL at *
        simp only at *
        omega
      set n0 : Quad d := ⟨fun i => q.c i - side q, q.level⟩ with hn0
      set n1 : Quad d := ⟨fun i => q.c i + side q, q.level⟩ with hn1
      have hs1 : side n1 = side q := rfl
      have hlv : Valid (lastDesc n1 29) :=
        ((C10_descendants_bound hd n1 hv1.extended 29 hv1.1 le_rfl).2.2.1 hv1).2
      have htree : ∀ p ∈ Around q, InTree p := by
        intro p hp i
        have h1 := hp i
        have h2 := hin0 i
        have h3 := (valid_cells_inTree hv1 (p := fun i => q.c i + side q + (side q - 1)) (fun j => by
          change q.c j + side q ≤ q.c j + side q + (side q - 1) ∧
            q.c j + side q + (side q - 1) < q.c j + side q + side q
          omega)) i
        simp only [hn0] at h2 h3
        omega
      refine ⟨fun p hp _ => ?_, Or.inl htree⟩
      have hpt := htree p hp
      obtain ⟨r0, -, ⟨x, hx, hxt, hxm⟩, -, ho0, -⟩ := C27_find_owner hd trees P leaves h t htl n0
        (valid_inTree hv0) r hr
      obtain ⟨r1, -, ⟨y, hy, hyt, hym⟩, -, ho1, -⟩ := C27_find_owner hd trees P leaves h t htl (lastDesc n1 29)
        (valid_inTree hlv) r hr
      rw [ho0] at hown
      simp only [Option.bind_eq_bind, Option.bind_some] at hown
      split at hown
      · rename_i hr0
        rw [show lastDesc n1 QMAXLEVEL = lastDesc n1 29 from rfl, ho1] at hown
        simp only [Option.bind_some, Option.some.injEq, decide_eq_true_eq] at hown
        have e0 : r0 = r := by exact_mod_cast hr0
        have e1 : r1 = r := by exact_mod_cast hown
        rw [e0] at hx
        rw [e1] at hy
        have b0 := (hs.mem_iff hd t r hr (valid_inTree hv0)).mp ⟨x, hx, hxt, hxm⟩
        have b1 := (hs.mem_iff hd t r hr (valid_inTree hlv)).mp ⟨y, hy, hyt, hym⟩
        apply (hs.mem_iff hd t r hr hpt).mpr
        have m0 : curve n0.c ≤ curve p := curve_mono (valid_inTree hv0) hpt fun i => (hp i).1
        -- the last cell of the upper neighbor
        have hlast : (fun i => q.c i + side q + (side q - 1)) ∈ Cells n1 := fun j => by
          change q.c j + side q ≤ q.c j + side q + (side q - 1) ∧
            q.c j + side q + (side q - 1) < q.c j + side q + side q
          omega
        have m1 : curve p ≤ curve (fun i => q.c i + side q + (side q - 1)) :=
          curve_mono hpt (valid_cells_inTree hv1 hlast) fun i => by have := (hp i).2; omega
        have m2 := (mem_iff_pos hv1.aligned hv1.int32 (valid_cells_inTree hv1 hlast).int32).mp hlast
        have hstopl : stop (lastDesc n1 29) = stop n1 :=
          stop_lastDesc hv1.aligned hv1.int32 hv1.1 (by norm_num)
        have hvol : stop (lastDesc n1 29) = curve (lastDesc n1 29).c + 2 ^ d := by
          rw [stop_eq]; unfold start volume; simp
        have hdv := hs.dvd hd (r + 1) hr
        have hdl : 2 ^ d ∣ curve (lastDesc n1 29).c := by
          have := volume_dvd_start hlv.aligned
          simpa [volume, start] using this
        have hV : 2 ^ d ∣ 2 ^ (d * 30) := Nat.pow_dvd_pow 2 (by omega)
        have hgap : t * 2 ^ (d * 30) + curve (lastDesc n1 29).c + 2 ^ d ≤ s (r + 1) := by
          obtain ⟨m, hm⟩ := hdv
          obtain ⟨k, hk⟩ := Nat.dvd_add (Dvd.dvd.mul_left hV t) hdl
          have h2 := b1.2
          rw [hk, hm] at h2 ⊢
          have := Nat.lt_of_mul_lt_mul_left h2
          calc 2 ^ d * k + 2 ^ d = 2 ^ d * (k + 1) := by ring
            _ ≤ _ := Nat.mul_le_mul_left _ this
        have := b0.1
        omega
      · simp at hown
    · simp at hown

/-- The hypotheses hold for the second tree of `twoTrees`, which belongs to rank 2. -/
example : (1, root 2) ∈ twoTreesLeaves 2 ∧
    (twoTreesLeaves 2).head? = some (0, child (root 2) 3) ∧
    (twoTreesLeaves 2).getLast? = some (1, root 2) ∧
    fullTree (globalPartition twoTreesLeaves 4 2) 2 0 1 1 = some (true, true) ∧
    neighborhoodOwned (globalPartition twoTreesLeaves 4 2) 4 2 1 (true, true)
      (treeContact (fun t _ => t) (fun _ f => f) 1) (root 2) = some true := by
  refine ⟨by decide +kernel, by decide +kernel, by decide +kernel, by decide +kernel, ?_⟩
  simp [neighborhoodOwned, treeContact]

/-! ### Corner connections -/

/-- Two trees of one leaf each, one per rank. -/
def bowtieTrees : List (List (Quad 2)) := [[root 2], [root 2]]
def bowtieLeaves : ℕ → List (ℕ × Quad 2)
  | 0 => [(0, root 2)]
  | 1 => [(1, root 2)]
  | _ => []

/-- `tree_to_corner` of `p4est_connectivity_new_bowtie`, src/p4est_connectivity.c:2397-2448; no face
is connected to another one (`tree_to_tree[t][f] = t`, `tree_to_face[t][f] = f`). -/
def bowtieCorner (tree corner : ℕ) : ℤ :=
  if (tree = 0 ∧ corner = 3) ∨ (tree = 1 ∧ corner = 2) then 0 else -1

/-- The unit cell of the tree at one of its corners. -/
def Spec.cornerCell (corner : ℕ) : Fin d → ℤ := fun i => if corner.testBit i then 2 ^ 30 - 1 else 0

theorem bowtie_distributed : Distributed bowtieTrees 2 bowtieLeaves where
  complete := by
    have h2 : Path 0 [root 2] (2 ^ (2 * 30)) := ⟨start_root.symm, stop_root⟩
    simp only [bowtieTrees, List.mem_cons, List.not_mem_nil, or_false, forall_eq_or_imp, forall_eq]
    have : TreeComplete [root 2] := treeComplete_of_path (by
      simp only [List.mem_singleton, forall_eq]; exact root_valid) h2
    exact ⟨this, this⟩
  someTree := by simp [bowtieTrees]
  split := by decide +kernel

/-- C48 fails for trees that are only connected at a corner, as in the bowtie connectivity of the
library: the function reports that rank 0 owns the neighborhood of the leaf in tree 0, although its
corner 3 is identified with corner 2 of tree 1 and the cell there belongs to rank 1. -/
theorem C48_corner_neighborhood_not_owned :
    Distributed bowtieTrees 2 bowtieLeaves ∧ (0, root 2) ∈ bowtieLeaves 0 ∧
    fullTree (globalPartition bowtieLeaves 2 2) 0 0 0 0 = some (true, true) ∧
    neighborhoodOwned (globalPartition bowtieLeaves 2 2) 2 0 0 (true, true)
      (treeContact (fun t _ => t) (fun _ f => f) 0) (root 2) = some true ∧
    bowtieCorner 0 3 = bowtieCorner 1 2 ∧ 0 ≤ bowtieCorner 0 3 ∧ cornerCell 3 ∈ Cells (root 2) ∧
    (∃ x ∈ bowtieLeaves 1, x.1 = 1 ∧ cornerCell 2 ∈ Cells x.2) ∧
    ¬ ∃ x ∈ bowtieLeaves 0, x.1 = 1 ∧ cornerCell 2 ∈ Cells x.2 := by
  refine ⟨bowtie_distributed, by simp [bowtieLeaves], by decide +kernel, ?_, by decide, by decide, ?_, ?_, ?_⟩
  · simp [neighborhoodOwned, treeContact]
  · intro i; fin_cases i <;> decide +kernel
  · exact ⟨(1, root 2), by simp [bowtieLeaves], rfl, by intro i; fin_cases i <;> decide +kernel⟩
  · rintro ⟨x, hx, h1, -⟩
    simp only [bowtieLeaves, List.mem_singleton] at hx
    subst hx
    simp at h1

end P4est
