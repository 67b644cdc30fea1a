import Verif.Lemmas.ExchangeMerge

/-! # C96: balance of a tree that is shared by several processes -/

namespace P4est
open Spec

variable {d : ℕ} {α σ : Type} {k : ℕ}

theorem path_flatMap {L : ℕ → List (Quad d)} {a : ℕ} : ∀ {n b : ℕ}, Path a ((List.range n).flatMap L) b ↔
    ∃ m : ℕ → ℕ, m 0 = a ∧ m n = b ∧ ∀ j < n, Path (m j) (L j) (m (j + 1)) := by
  intro n
  induction n with
  | zero =>
    intro b
    constructor
    · intro h
      exact ⟨fun _ => a, rfl, h, by simp⟩
    · rintro ⟨m, h1, h2, -⟩
      show a = b
      omega
  | succ n ih =>
    intro b
    rw [List.range_succ, List.flatMap_append, path_append]
    constructor
    · rintro ⟨c, h1, h2⟩
      obtain ⟨m, m1, m2, m3⟩ := ih.mp h1
      refine ⟨fun j => if j ≤ n then m j else b, by simpa using m1, by simp, fun j hj => ?_⟩
      rcases Nat.lt_or_ge j n with h | h
      · simp only [if_pos h.le, if_pos (show j + 1 ≤ n from h)]
        exact m3 j h
      · have : j = n := by omega
        subst this
        simp only [le_refl, if_pos, if_neg (show ¬ j + 1 ≤ j by omega), m2]
        simpa using h2
    · rintro ⟨m, m1, m2, m3⟩
      refine ⟨m n, ih.mpr ⟨m, m1, rfl, fun j hj => m3 j (by omega)⟩, ?_⟩
      rw [← m2]
      simpa using m3 n (by omega)

theorem complete_path (hd : 0 < d) {ls : List (Quad d)} (h : TreeComplete ls) : Path 0 ls (2 ^ (d * 30)) := by
  have hv := firstDesc_valid (root_valid (d := d))
  have hl := lastDesc_valid' (root_valid (d := d))
  have e0 : start (root d) = 0 := curve_zero
  have e1 : stop (root d) = 2 ^ (d * 30) := by rw [stop_eq, e0, Nat.zero_add]; rfl
  have h0 : start (firstDesc (root d) QMAXLEVEL) = 0 := by rw [start_firstDesc, e0]
  have h1 : stop (lastDesc (root d) QMAXLEVEL) = 2 ^ (d * 30) := by
    rw [stop_lastDesc root_valid.aligned root_valid.int32 (l := QMAXLEVEL) (Nat.zero_le _) (by decide), e1]
  have := (tiles_iff hd hv hl (by rw [h0]; exact Nat.zero_le _) h.valid).mp ((root_ends hd h0 h1).mpr h)
  rwa [h0, h1] at this

theorem inTree_treeBox {p : Fin d → ℤ} : InTree p ↔ p ∈ TreeBox d := Iff.rfl

theorem complete_paves {U : List (Quad d)} (h : TreeComplete U) : Paves (TreeBox d) {u | u ∈ U} where
  legal u hu := ⟨(h.valid u hu).aligned, (h.valid u hu).1⟩
  disjoint u hu v hv hm := linear_eq_of_meet h.linear hu hv hm
  cover x := ⟨fun hx => h.cover x (inTree_treeBox.mpr hx), fun ⟨u, hu, hx⟩ => valid_treeBox (h.valid u hu) hx⟩

/-- A tree in which exactly the quadrants are within leaves that need not be divided. -/
theorem exact_balanced (hd : 0 < d) {old new : List (Quad d)} (hold : ∀ s ∈ old, Valid s) (hnew : TreeComplete new)
    (key : ∀ r, Valid r → ((∃ u ∈ new, Cells r ⊆ Cells u) ↔ ¬ Divides (TreeBox d) k {y | y ∈ old} r)) :
    Balanced k new ∧ AsFineAs new old ∧
      ∀ U, TreeComplete U → Balanced k U → AsFineAs U old → AsFineAs U new := by
  have hsrc : ∀ s ∈ {y | y ∈ old}, SplitSource 0 (fun _ => 0) (fun _ => 2 ^ 30) s := fun s hs =>
    ⟨(hold s hs).aligned, (hold s hs).1, fun h => Nat.pos_of_ne_zero h, valid_treeBox (hold s hs)⟩
  have hD := dom_trees (wholeTrees_root (d := d))
  refine ⟨?_, ?_, ?_⟩
  · have hco : ∀ u ∈ new, u ∈ coarsest 0 (fun _ => 0) (fun _ => 2 ^ 30) k {y | y ∈ old} := by
      intro u hu
      have huv := hnew.valid u hu
      refine ⟨huv.aligned, huv.1, Nat.zero_le _, valid_treeBox huv, ?_, fun l _ hl => ?_⟩
      · rw [← divides_iff hd hD hsrc huv.aligned huv.1 (valid_treeBox huv)]
        exact (key u huv).mp ⟨u, hu, subset_rfl⟩
      · have hl30 : l ≤ 30 := by have := huv.1; omega
        have haa := ancestor_aligned u hl30
        have hm : u.c ∈ Cells (ancestor u l) := (mem_ancestor u hl30 u.c).mpr fun i => rfl
        have hsub : Cells u ⊆ Cells (ancestor u l) :=
          (cells_subset_iff hd haa huv.aligned).mpr ⟨by rw [ancestor_level]; omega, hm⟩
        have hav : Valid (ancestor u l) := valid_of_point haa (by rw [ancestor_level]; have := huv.1; omega) hm
          (valid_treeBox huv (corner_mem u))
        have hdv : Divides (TreeBox d) k {y | y ∈ old} (ancestor u l) := by
          by_contra hc
          obtain ⟨v, hv, hav'⟩ := (key _ hav).mpr hc
          have : u = v := linear_eq_of_meet hnew.linear hu hv ⟨u.c, corner_mem u, hav' hm⟩
          subst this
          have := ((cells_subset_iff hd huv.aligned haa).mp hav').1
          rw [ancestor_level] at this
          omega
        have := (divides_iff hd hD hsrc haa hav.1 (valid_treeBox hav)).mp hdv
        have e : numAt (ancestor u l) (ancestor u l).level = numAt u l := by
          rw [ancestor_level, num_of_mem haa hm (by rw [ancestor_level])]
          rfl
        rwa [e, ancestor_level] at this
    intro a ha b hb hab
    exact coarsest_graded hd hD hsrc a (hco a ha) b (hco b hb) hab
  · intro u hu s hs hss
    exact (key u (hnew.valid u hu)).mp ⟨u, hu, subset_rfl⟩ (divides_around (S := {y | y ∈ old}) hs hss)
  · intro U hU hbal hfine u hu v hv hvu
    have hnd : ¬ Divides (TreeBox d) k {y | y ∈ old} u := fun h =>
      h {u | u ∈ U} (complete_paves hU) (fun a ha b hb => hbal a ha b hb) (fun s hs w hw => hfine w hw s hs) u hu subset_rfl
    obtain ⟨w, hw, huw⟩ := (key u (hU.valid u hu)).mpr hnd
    have : v = w := linear_eq_of_meet hnew.linear hv hw ⟨v.c, corner_mem v, huw (hvu.1 (corner_mem v))⟩
    rw [this] at hvu
    exact hvu.2 huw

/-- After the first pass a part requires what it required before. -/
theorem closed_same (hd : 0 < d) {f l : Quad d} {old L : List (Quad d)} (hO : Tiles f l old) (hL : Tiles f l L)
    (hc : ∀ r, Valid r → Cells r ⊆ Section f l → ((∃ u ∈ L, Cells r ⊆ Cells u) ↔ ¬ Divides (TreeBox d) k {y | y ∈ old} r))
    (r : Quad d) : Divides (TreeBox d) k {y | y ∈ L} r ↔ Divides (TreeBox d) k {y | y ∈ old} r := by
  have hoi : ∀ x ∈ old, Cells x ⊆ Section f l := fun x hx => by
    rw [← hO.cover]
    exact fun p hp => ⟨x, hx, hp⟩
  have hli : ∀ x ∈ L, Cells x ⊆ Section f l := fun x hx => by
    rw [← hL.cover]
    exact fun p hp => ⟨x, hx, hp⟩
  unfold Divides
  refine forall_congr' fun U => forall_congr' fun hU => forall_congr' fun hG => imp_congr_left ⟨?_, ?_⟩
  · intro h y hy u hu hyu
    have hym := hoi y hy (corner_mem y)
    rw [← hL.cover] at hym
    obtain ⟨z, hz, hyz⟩ := hym
    refine h z hz u hu (lt_of_le_of_lt (b := Cells y) ?_ hyu)
    rcases laminar (hL.valid z hz).aligned (hO.valid y hy).aligned ⟨y.c, hyz, corner_mem y⟩ with h1 | h1
    · by_contra hn
      exact (hc z (hL.valid z hz) (hli z hz)).mp ⟨z, hz, subset_rfl⟩ (divides_around (S := {y | y ∈ old}) hy ⟨h1, hn⟩)
    · exact h1
  · intro h z hz u hu hzu
    have hzv := hL.valid z hz
    have hlev : u.level < z.level := by
      by_contra hn
      have h1 := ((cells_subset_iff hd (hU.legal u hu).1 hzv.aligned).mp hzu.1).1
      have h2 : u.level = z.level := by omega
      have h3 : side u = side z := by unfold side; rw [h2]
      have h4 := cells_ext hzu.1
      have : u = z := Quad.ext' (fun i => by have := h4 i; omega) h2
      rw [this] at hzu
      exact lt_irrefl _ hzu
    have hz0 : 0 < z.level := by omega
    have hpv := parent_valid hzv hz0
    have hpu := (inside_iff_parent hd hzv.aligned hz0 (hU.legal u hu).1).mp hzu
    have hzp := (isAncestor_iff hd hpv.aligned hzv.aligned).mp (isAncestor_parent hd hzv hz0)
    have hdv : Divides (TreeBox d) k {y | y ∈ old} (parent z) := by
      by_cases hs : Cells (parent z) ⊆ Section f l
      · by_contra hn
        obtain ⟨v, hv, hpvv⟩ := (hc _ hpv hs).mpr hn
        have : z = v := linear_eq_of_meet hL.linear hz hv ⟨z.c, corner_mem z, hpvv (hzp.1 (corner_mem z))⟩
        subst this
        exact hzp.2 hpvv
      · have hzm := hli z hz (corner_mem z)
        rw [← hO.cover] at hzm
        obtain ⟨y, hy, hzy⟩ := hzm
        have hnot : ¬ Cells (parent z) ⊆ Cells y := fun h => hs (h.trans (hoi y hy))
        exact divides_around (S := {y | y ∈ old}) hy
          ⟨(laminar hpv.aligned (hO.valid y hy).aligned ⟨z.c, hzp.1 (corner_mem z), hzy⟩).resolve_right hnot, hnot⟩
    exact hdv U hU hG h u hu hpu

theorem carried_keeps (init : Quad d → σ → α × σ) {old : List (Leaf d α)} (hn : (old.map Leaf.q).Nodup) {x : Leaf d α} (hx : x ∈ old) :
    ∀ (ps : List (Quad d)) (s : σ), x.q ∈ ps → x ∈ (carried init old ps s).1 := by
  have hf : old.find? (fun y => y.q = x.q) = some x := by
    cases hc : old.find? (fun y => y.q = x.q) with
    | none =>
      have := List.find?_eq_none.mp hc x hx
      simp at this
    | some y =>
      have h1 := List.find?_some hc
      have h2 := List.mem_of_find?_eq_some hc
      rw [List.inj_on_of_nodup_map hn h2 hx (by simpa using h1)]
  intro ps
  induction ps with
  | nil => intro s h; simp at h
  | cons p ps ih =>
    intro s h
    rw [carried_cons]
    rcases List.mem_cons.mp h with h | h
    · subst h
      rw [hf]
      simp
    · cases hc : old.find? (fun y => y.q = p) with
      | none => exact List.mem_cons_of_mem _ (ih _ h)
      | some y => exact List.mem_cons_of_mem _ (ih _ h)

/-- **C96.** A tree without neighbors is shared by `n` processes, each with a part of its leaves.  After
`p4est_balance` each process has leaves of the same part of the tree; all leaves together are a complete, balanced tree
that is as fine as the one before, and no coarser one exists: every balanced tree as fine as the one before is as fine
as the result.  The result is hence the same for all ways to share the tree.  A leaf that is still there has its data,
and the counters are right.  Partial: in 3D not for `P4EST_CONNECT_EDGE` (C91), and without neighboring trees. -/
theorem C96_balance_shared_partial (hdim : d = 2 ∨ d = 3) {bs : (Quad d → ℤ) → List (Quad d) → Option ℕ} (hbs : Searches bs)
    (init : Quad d → σ → α × σ) (k : ℕ) (hk : 1 ≤ k) (hkd : k ≤ d) (hedge : ¬ (d = 3 ∧ k = 2)) (n : ℕ)
    (ends : ℕ → Quad d × Quad d) (ts : ℕ → Tree d α) (ss : ℕ → σ)
    (hends : ∀ j < n, Valid (ends j).1 ∧ (ends j).1.level = 29 ∧ Valid (ends j).2 ∧ (ends j).2.level = 29)
    (hne : ∀ j < n, quadsOf (ts j) ≠ []) (htiles : ∀ j < n, Tiles (ends j).1 (ends j).2 (quadsOf (ts j)))
    (hall : TreeComplete ((List.range n).flatMap fun j => quadsOf (ts j))) :
    ∃ (ts' : ℕ → Tree d α) (ss' : ℕ → σ),
      (∀ i < n, balanceShared bs init k n ends ts ss i = some (ts' i, ss' i) ∧
        Tiles (ends i).1 (ends i).2 (quadsOf (ts' i)) ∧ (CountersOk (ts i) → CountersOk (ts' i)) ∧
        ∀ x ∈ (ts i).quads.toList, x.q ∈ quadsOf (ts' i) → x ∈ (ts' i).quads.toList) ∧
      TreeComplete ((List.range n).flatMap fun j => quadsOf (ts' j)) ∧
      Balanced k ((List.range n).flatMap fun j => quadsOf (ts' j)) ∧
      AsFineAs ((List.range n).flatMap fun j => quadsOf (ts' j)) ((List.range n).flatMap fun j => quadsOf (ts j)) ∧
      ∀ U, TreeComplete U → Balanced k U → AsFineAs U ((List.range n).flatMap fun j => quadsOf (ts j)) →
        AsFineAs U ((List.range n).flatMap fun j => quadsOf (ts' j)) := by
  have hd : 0 < d := by omega
  -- the first pass
  have hfirst : ∀ j < n, ∃ y : Tree d α × σ × List (Leaf d α), balanceSubtree bs init k (ends j).1 (ends j).2 (ts j) (ss j) = some y ∧
      PartOk k ⟨(ends j).1, (ends j).2, quadsOf y.1⟩ ∧ (CountersOk (ts j) → CountersOk y.1) ∧
      AsFineAs (quadsOf y.1) (quadsOf (ts j)) ∧
      (∀ x ∈ (ts j).quads.toList, x.q ∈ quadsOf y.1 → x ∈ y.1.quads.toList) ∧
      ∀ r, Valid r → Cells r ⊆ Section (ends j).1 (ends j).2 →
        ((∃ u ∈ quadsOf y.1, Cells r ⊆ Cells u) ↔ ¬ Divides (TreeBox d) k {y | y ∈ quadsOf (ts j)} r) := by
    intro j hj
    obtain ⟨f1, f2, l1, l2⟩ := hends j hj
    obtain ⟨t', s', fr, c1, c2, c3⟩ := C95_first_pass hdim hbs.1 init k hk hkd _ _ f1 f2 l1 l2 (ts j) (ss j) (hne j hj) (htiles j hj)
    obtain ⟨t'', s'', b1, b2, b3, b4, -, b6, -, b8⟩ := C54_balance_subtree hdim hbs.1 init k hk hkd _ _ f1 f2 l1 l2 (ts j) (ss j)
      (hne j hj) (htiles j hj)
    rw [c1, Option.some.injEq, Prod.mk.injEq] at b1
    obtain ⟨rfl, -⟩ := b1
    have hnd : ((ts j).quads.toList.map Leaf.q).Nodup := by
      have : Path _ (quadsOf (ts j)) _ := (tiles_iff hd f1 l1 ?_ (htiles j hj).valid).mp (htiles j hj)
      · exact path_nodup this
      · obtain ⟨q, hq⟩ := List.exists_mem_of_ne_nil _ (hne j hj)
        have := (section_iff hd ((htiles j hj).valid q hq)).mp (by
          rw [← (htiles j hj).cover]; exact fun p hp => ⟨q, hq, hp⟩)
        have := start_lt_stop q
        omega
    refine ⟨(t', s', fr), c1, ⟨⟨f1, f2, l1, l2⟩, c2, ?_, b4⟩, b8, b3, ?_, c3⟩
    · obtain ⟨q, hq⟩ := List.exists_mem_of_ne_nil _ (hne j hj)
      have hm : q.c ∈ Cover (quadsOf (ts j)) := ⟨q, hq, corner_mem q⟩
      rw [(htiles j hj).cover, ← c2.cover] at hm
      obtain ⟨u, hu, -⟩ := hm
      exact List.ne_nil_of_mem hu
    · intro x hx hxq
      have h1 := congrArg Prod.fst b6
      rw [show t'.quads.toList = (carried init (ts j).quads.toList (quadsOf t') (ss j)).1 from h1]
      exact carried_keeps init hnd hx _ _ hxq
  have : Inhabited (Tree d α × σ × List (Leaf d α)) := ⟨(ts 0, ss 0, [])⟩
  have : Inhabited (Tree d α × σ) := ⟨(ts 0, ss 0)⟩
  choose! y y1 y2 y3 y4 y5 y6 using hfirst
  let Ps : ℕ → Part d := fun j => ⟨(ends j).1, (ends j).2, (((List.range n).map y)[j]?).elim []
    fun x : Tree d α × σ × List (Leaf d α) => x.1.quads.toList.map Leaf.q⟩
  have hPs : ∀ j < n, Ps j = ⟨(ends j).1, (ends j).2, quadsOf (y j).1⟩ := by
    intro j hj
    show (⟨_, _, _⟩ : Part d) = _
    rw [List.getElem?_map, List.getElem?_range hj]
    rfl
  -- where the parts begin
  have hpath : ∀ j < n, Path (start (ends j).1) (quadsOf (ts j)) (stop (ends j).2) := by
    intro j hj
    obtain ⟨f1, f2, l1, l2⟩ := hends j hj
    exact (tiles_iff hd f1 l1 ((y2 j hj).ne hd).le (htiles j hj).valid).mp (htiles j hj)
  obtain ⟨m, m1, m2, m3⟩ := path_flatMap.mp (complete_path hd hall)
  have hm : ∀ j < n, m j = start (ends j).1 ∧ m (j + 1) = stop (ends j).2 := by
    intro j hj
    have h1 := m3 j hj
    have h2 := hpath j hj
    have h3 : m j = start (ends j).1 := by
      cases hc : quadsOf (ts j) with
      | nil => exact absurd hc (hne j hj)
      | cons q ls =>
        rw [hc] at h1 h2
        exact h1.1.trans h2.1.symm
    exact ⟨h3, Path.inj h1 (h3 ▸ h2)⟩
  have hmono : ∀ i j, i ≤ j → j ≤ n → m i ≤ m j := by
    intro i j hij hjn
    induction j, hij using Nat.le_induction with
    | base => exact le_rfl
    | succ j hij ih => exact (ih (by omega)).trans (m3 j (by omega)).le
  have hap' : ∀ i < n, ∀ j < n, i < j → Section (ends i).1 (ends i).2 ∩ Section (ends j).1 (ends j).2 = ∅ := by
    intro i hi j hj hij
    rw [Set.eq_empty_iff_forall_notMem]
    rintro p ⟨⟨-, -, h1⟩, -, h2, -⟩
    have := (hm i hi).2
    have := (hm j hj).1
    have := hmono (i + 1) j hij hj.le
    omega
  have hap : ∀ i < n, ∀ j < n, i ≠ j → Section (Ps i).f (Ps i).l ∩ Section (Ps j).f (Ps j).l = ∅ := by
    intro i hi j hj hij
    rcases Nat.lt_or_gt_of_ne hij with h | h
    · exact hap' i hi j hj h
    · rw [Set.inter_comm]
      exact hap' j hj i hi h
  have hPok : ∀ j < n, PartOk k (Ps j) := fun j hj => by rw [hPs j hj]; exact y2 j hj
  -- the second pass
  have hsecond : ∀ i < n, ∃ z : Tree d α × σ, balanceShared bs init k n ends ts ss i = some z ∧
      Tiles (ends i).1 (ends i).2 (quadsOf z.1) ∧ (CountersOk (ts i) → CountersOk z.1) ∧
      (∀ x ∈ (ts i).quads.toList, x.q ∈ quadsOf z.1 → x ∈ z.1.quads.toList) ∧
      AsFineAs (quadsOf z.1) (quadsOf (y i).1) ∧
      ∀ q ∈ quadsOf (y i).1, ∀ r, Valid r → Cells r ⊆ Cells q →
        ((∃ u ∈ quadsOf z.1, Cells r ⊆ Cells u) ↔ ¬ ∃ j < n, j ≠ i ∧ ∃ y' ∈ quadsOf (y j).1, Forces k y' r) := by
    intro i hi
    obtain ⟨f1, f2, l1, l2⟩ := hends i hi
    obtain ⟨B, b1, b2, b3⟩ := merged_spec hdim hk hkd hedge hPok hap hi
    have hT := (y2 i hi).tiles
    have hPi := hPs i hi
    rw [hPi] at b2
    obtain ⟨t', s', c1, c2, c3, -, -, c6, c7, -, c9⟩ := C92_balance_border hdim hbs init k hk hkd _ _ f1 f2 l1 l2 (y i).1 (y i).2.1
      (y2 i hi).some_ hT B b2
    have hnd : ((y i).1.quads.toList.map Leaf.q).Nodup :=
      path_nodup ((tiles_iff hd f1 l1 ((y2 i hi).ne hd).le hT.valid).mp hT)
    refine ⟨(t', s'), ?_, c2, fun h => c9 (y3 i hi h), ?_, c3, ?_⟩
    · unfold balanceShared
      rw [range_mapM_some (g := y) _ fun j hj => y1 j (List.mem_range.mp hj)]
      have e : ((List.range n).map y)[i]? = some (y i) := by rw [List.getElem?_map, List.getElem?_range hi]; rfl
      show ((List.range n).map y)[i]?.bind _ = _
      rw [e]
      show (mergedBorder k n Ps i).bind _ = _
      rw [b1]
      show (balanceBorder bs init k (ends i).1 (ends i).2 B (y i).1 (y i).2.1).bind _ = _
      rw [c1]
      rfl
    · intro x hx hxq
      have hxq1 : x.q ∈ quadsOf (y i).1 := by
        have hxl : x.q ∈ quadsOf (ts i) := List.mem_map_of_mem hx
        have hxm : x.q.c ∈ Cover (quadsOf (ts i)) := ⟨x.q, hxl, corner_mem _⟩
        rw [(htiles i hi).cover, ← hT.cover] at hxm
        obtain ⟨u, hu, hxu⟩ := hxm
        have h1 : Cells u ⊆ Cells x.q := by
          rcases laminar (hT.valid u hu).aligned ((htiles i hi).valid _ hxl).aligned ⟨_, hxu, corner_mem x.q⟩ with h | h
          · by_contra hn
            exact y4 i hi u hu x.q hxl ⟨h, hn⟩
          · exact h
        have h2 : Cells x.q ⊆ Cells u := by
          by_contra hn
          exact c3 x.q hxq u hu ⟨h1, hn⟩
        have : u = x.q := cells_inj hd (hT.valid u hu).aligned ((htiles i hi).valid _ hxl).aligned (h1.antisymm h2)
        rwa [← this]
      have h1 := congrArg Prod.fst c7
      rw [show t'.quads.toList = (carried init (y i).1.quads.toList (quadsOf t') (y i).2.1).1 from h1]
      exact carried_keeps init hnd (y5 i hi x hx hxq1) _ _ hxq
    · intro q hq r hr hrq
      rw [c6 q hq r hr.aligned hr.1 hrq, b3 q (by rw [hPi]; exact hq) r hr hrq, not_iff_not]
      constructor
      · rintro ⟨j, hj, hji, y', hy', hf⟩
        rw [hPs j hj] at hy'
        exact ⟨j, hj, hji, y', hy', hf⟩
      · rintro ⟨j, hj, hji, y', hy', hf⟩
        exact ⟨j, hj, hji, y', by rw [hPs j hj]; exact hy', hf⟩
  choose! z z1 z2 z3 z4 z5 z6 using hsecond
  have hmem : ∀ (L : ℕ → List (Quad d)) (u : Quad d), u ∈ (List.range n).flatMap L ↔ ∃ i < n, u ∈ L i := by
    intro L u
    simp [List.mem_flatMap]
  have hnv : ∀ u ∈ (List.range n).flatMap fun j => quadsOf (z j).1, Valid u := by
    intro u hu
    obtain ⟨i, hi, h⟩ := (hmem (fun j => quadsOf (z j).1) u).mp hu
    exact (z2 i hi).valid u h
  have hnew : TreeComplete ((List.range n).flatMap fun j => quadsOf (z j).1) := by
    refine treeComplete_of_path hnv (path_flatMap.mpr ⟨m, m1, m2, fun j hj => ?_⟩)
    obtain ⟨f1, f2, l1, l2⟩ := hends j hj
    rw [(hm j hj).1, (hm j hj).2]
    exact (tiles_iff hd f1 l1 ((y2 j hj).ne hd).le (z2 j hj).valid).mp (z2 j hj)
  have hone : ∀ j < n, ∀ r, Valid r → ((∃ y' ∈ quadsOf (y j).1, Forces k y' r) ↔ Divides (TreeBox d) k {x | x ∈ quadsOf (ts j)} r) := by
    intro j hj r hr
    rw [← closed_same hd (htiles j hj) (y2 j hj).tiles (y6 j hj) r,
      divides_treeBox hd (S := {x | x ∈ quadsOf (y j).1}) (y2 j hj).tiles.valid hr]
    rfl
  have hanyold : ∀ r, Valid r → (Divides (TreeBox d) k {x | x ∈ (List.range n).flatMap fun j => quadsOf (ts j)} r ↔
      ∃ j < n, Divides (TreeBox d) k {x | x ∈ quadsOf (ts j)} r) := by
    intro r hr
    rw [divides_treeBox hd (S := {x | x ∈ (List.range n).flatMap fun j => quadsOf (ts j)}) hall.valid hr]
    constructor
    · rintro ⟨s, hs, hf⟩
      obtain ⟨j, hj, h⟩ := (hmem (fun j => quadsOf (ts j)) s).mp hs
      exact ⟨j, hj, (divides_treeBox hd (S := {x | x ∈ quadsOf (ts j)}) (htiles j hj).valid hr).mpr ⟨s, h, hf⟩⟩
    · rintro ⟨j, hj, h⟩
      obtain ⟨s, hs, hf⟩ := (divides_treeBox hd (S := {x | x ∈ quadsOf (ts j)}) (htiles j hj).valid hr).mp h
      exact ⟨s, (hmem (fun j => quadsOf (ts j)) s).mpr ⟨j, hj, hs⟩, hf⟩
  have hin : ∀ i < n, ∀ u ∈ quadsOf (z i).1, Cells u ⊆ Section (ends i).1 (ends i).2 := fun i hi u hu => by
    rw [← (z2 i hi).cover]
    exact fun p hp => ⟨u, hu, hp⟩
  obtain ⟨g1, g2, g3⟩ := exact_balanced (k := k) hd hall.valid hnew (by
    intro r hr
    rw [hanyold r hr]
    constructor
    · rintro ⟨u, hu, hru⟩ ⟨j, hj, hdv⟩
      obtain ⟨i, hi, hui⟩ := (hmem (fun j => quadsOf (z j).1) u).mp hu
      have hum := hin i hi u hui (corner_mem u)
      have hT := (y2 i hi).tiles
      rw [← show Cover (quadsOf (y i).1) = Section (ends i).1 (ends i).2 from hT.cover] at hum
      obtain ⟨q, hq, huq⟩ := hum
      have hsub : Cells u ⊆ Cells q := by
        rcases laminar (hnv u hu).aligned (hT.valid q hq).aligned ⟨_, corner_mem u, huq⟩ with h | h
        · by_contra hn
          exact z5 i hi u hui q hq ⟨h, hn⟩
        · exact h
      have hno := (z6 i hi q hq r hr (hru.trans hsub)).mp ⟨u, hui, hru⟩
      by_cases hji : j = i
      · subst hji
        exact (y6 j hj r hr (hru.trans (hin j hj u hui))).mp ⟨q, hq, hru.trans hsub⟩ hdv
      · exact hno ⟨j, hj, hji, (hone j hj r hr).mpr hdv⟩
    · intro hno
      obtain ⟨u, hu, hru⟩ := hnew.cover r.c (inTree_treeBox.mpr (valid_treeBox hr (corner_mem r)))
      obtain ⟨i, hi, hui⟩ := (hmem (fun j => quadsOf (z j).1) u).mp hu
      have hrs : Cells r ⊆ Section (ends i).1 (ends i).2 := by
        by_contra hn
        have hrm := hin i hi u hui hru
        rw [← (htiles i hi).cover] at hrm
        obtain ⟨x, hx, hrx⟩ := hrm
        have hnot : ¬ Cells r ⊆ Cells x := fun h => hn (h.trans (by
          rw [← (htiles i hi).cover]
          exact fun p hp => ⟨x, hx, hp⟩))
        exact hno ⟨i, hi, divides_around (S := {x | x ∈ quadsOf (ts i)}) hx
          ⟨(laminar hr.aligned ((htiles i hi).valid x hx).aligned ⟨r.c, corner_mem r, hrx⟩).resolve_right hnot, hnot⟩⟩
      obtain ⟨q, hq, hrq⟩ := (y6 i hi r hr hrs).mpr fun h => hno ⟨i, hi, h⟩
      obtain ⟨v, hv, hrv⟩ := (z6 i hi q hq r hr hrq).mpr fun ⟨j, hj, _, h⟩ => hno ⟨j, hj, (hone j hj r hr).mp h⟩
      exact ⟨v, (hmem (fun j => quadsOf (z j).1) v).mpr ⟨i, hi, hv⟩, hrv⟩)
  exact ⟨fun i => (z i).1, fun i => (z i).2, fun i hi => ⟨z1 i hi, z2 i hi, z3 i hi, z4 i hi⟩, hnew, g1, g2, g3⟩

theorem eq_of_paths {A B : List (Quad d)} {a c : ℕ} (hA : Path a A c) (hB : Path a B c) (vA : ∀ x ∈ A, Valid x)
    (vB : ∀ x ∈ B, Valid x) (h : ∀ x ∈ A, ∀ y ∈ B, (Cells x ∩ Cells y).Nonempty → x = y) : A = B := by
  induction A generalizing B a with
  | nil =>
    cases B with
    | nil => rfl
    | cons y B =>
      have h1 : a = c := hA
      have := start_lt_stop y
      have := hB.1
      have := hB.2.le
      omega
  | cons x A ih =>
    cases B with
    | nil =>
      have h1 : a = c := hB
      have := start_lt_stop x
      have := hA.1
      have := hA.2.le
      omega
    | cons y B =>
      have hy := vB y (by simp)
      have hx := vA x (by simp)
      have hxy : x = y := h x (by simp) y (by simp) ⟨x.c, corner_mem x, (mem_iff_pos hy.aligned hy.int32 hx.int32).mpr (by
        have h1 : curve x.c = start x := rfl
        have := hA.1
        have := hB.1
        have := start_lt_stop y
        omega)⟩
      subst hxy
      rw [ih hA.2 hB.2 (fun z hz => vA z (by simp [hz])) (fun z hz => vB z (by simp [hz]))
        fun z hz w hw => h z (by simp [hz]) w (by simp [hw])]

/-- Complete trees that are as fine as each other are equal. -/
theorem complete_eq (hd : 0 < d) {A B : List (Quad d)} (hA : TreeComplete A) (hB : TreeComplete B) (h1 : AsFineAs A B)
    (h2 : AsFineAs B A) : A = B := by
  refine eq_of_paths (complete_path hd hA) (complete_path hd hB) hA.valid hB.valid fun x hx y hy hm => ?_
  rcases laminar (hA.valid x hx).aligned (hB.valid y hy).aligned hm with h | h
  · exact cells_inj hd (hA.valid x hx).aligned (hB.valid y hy).aligned (by
      by_contra hn
      exact h1 x hx y hy (lt_of_le_of_ne h (Ne.symm hn)))
  · exact cells_inj hd (hA.valid x hx).aligned (hB.valid y hy).aligned (by
      by_contra hn
      exact h2 y hy x hx (lt_of_le_of_ne h hn))

/-- **C96, independence of the partition.** The same tree is shared in two ways, by `n` and by `n'` processes.
After `p4est_balance` the leaves of all processes together are the same. -/
theorem C96_same_partial (hdim : d = 2 ∨ d = 3) {bs bs' : (Quad d → ℤ) → List (Quad d) → Option ℕ} (hbs : Searches bs)
    (hbs' : Searches bs') (init init' : Quad d → σ → α × σ) (k : ℕ) (hk : 1 ≤ k) (hkd : k ≤ d) (hedge : ¬ (d = 3 ∧ k = 2))
    (n n' : ℕ) (ends ends' : ℕ → Quad d × Quad d) (ts ts' : ℕ → Tree d α) (ss ss' : ℕ → σ)
    (hends : ∀ j < n, Valid (ends j).1 ∧ (ends j).1.level = 29 ∧ Valid (ends j).2 ∧ (ends j).2.level = 29)
    (hends' : ∀ j < n', Valid (ends' j).1 ∧ (ends' j).1.level = 29 ∧ Valid (ends' j).2 ∧ (ends' j).2.level = 29)
    (hne : ∀ j < n, quadsOf (ts j) ≠ []) (htiles : ∀ j < n, Tiles (ends j).1 (ends j).2 (quadsOf (ts j)))
    (hne' : ∀ j < n', quadsOf (ts' j) ≠ []) (htiles' : ∀ j < n', Tiles (ends' j).1 (ends' j).2 (quadsOf (ts' j)))
    (hall : TreeComplete ((List.range n).flatMap fun j => quadsOf (ts j)))
    (hsame : ((List.range n').flatMap fun j => quadsOf (ts' j)) = (List.range n).flatMap fun j => quadsOf (ts j))
    (us us' : ℕ → Tree d α × σ) (hus : ∀ i < n, balanceShared bs init k n ends ts ss i = some (us i))
    (hus' : ∀ i < n', balanceShared bs' init' k n' ends' ts' ss' i = some (us' i)) :
    ((List.range n').flatMap fun j => quadsOf (us' j).1) = (List.range n).flatMap fun j => quadsOf (us j).1 := by
  have hd : 0 < d := by omega
  obtain ⟨vs, s1, a1, a2, a3, a4, a5⟩ := C96_balance_shared_partial hdim hbs init k hk hkd hedge n ends ts ss hends hne htiles hall
  obtain ⟨vs', s2, b1, b2, b3, b4, b5⟩ := C96_balance_shared_partial hdim hbs' init' k hk hkd hedge n' ends' ts' ss' hends' hne'
    htiles' (by rw [hsame]; exact hall)
  have e1 : ((List.range n).flatMap fun j => quadsOf (us j).1) = (List.range n).flatMap fun j => quadsOf (vs j) := by
    refine List.flatMap_congr fun i hi => ?_
    have := hus i (List.mem_range.mp hi)
    rw [(a1 i (List.mem_range.mp hi)).1, Option.some.injEq] at this
    rw [← this]
  have e2 : ((List.range n').flatMap fun j => quadsOf (us' j).1) = (List.range n').flatMap fun j => quadsOf (vs' j) := by
    refine List.flatMap_congr fun i hi => ?_
    have := hus' i (List.mem_range.mp hi)
    rw [(b1 i (List.mem_range.mp hi)).1, Option.some.injEq] at this
    rw [← this]
  rw [e1, e2]
  rw [hsame] at b4 b5
  exact complete_eq hd b2 a2 (a5 _ b2 b3 b4) (b5 _ a2 a3 a4)

/-- Beside C96: the other process has the other children of the root. -/
def threeTree : Tree 2 Unit :=
  ⟨⟨fun i => ⟨child (root 2) (i + 1), ()⟩, 3⟩, fun l => if l = 1 then 3 else 0, 1, 0⟩

def steepParts : ℕ → Tree 2 Unit := fun j => if j = 0 then sevenTree else threeTree

def steepEnds : ℕ → Quad 2 × Quad 2 := fun j =>
  if j = 0 then (firstDesc (root 2) 29, lastDesc (child (root 2) 0) 29) else (firstDesc (child (root 2) 1) 29, lastDesc (root 2) 29)

theorem threeTree_quads : quadsOf threeTree = [child (root 2) 1, child (root 2) 2, child (root 2) 3] := rfl

theorem steepParts_all : ((List.range 2).flatMap fun j => quadsOf (steepParts j)) = quadsOf steepTree := rfl

/-- The hypotheses of C96 hold of the example: two processes share a tree that is not balanced. -/
theorem steepParts_case : (∀ j < 2, Valid (steepEnds j).1 ∧ (steepEnds j).1.level = 29 ∧ Valid (steepEnds j).2 ∧ (steepEnds j).2.level = 29) ∧
    (∀ j < 2, quadsOf (steepParts j) ≠ []) ∧
    (∀ j < 2, Tiles (steepEnds j).1 (steepEnds j).2 (quadsOf (steepParts j))) ∧
    TreeComplete ((List.range 2).flatMap fun j => quadsOf (steepParts j)) ∧
    (∀ j < 2, Balanced 1 (quadsOf (steepParts j))) ∧
    ¬ Balanced 1 ((List.range 2).flatMap fun j => quadsOf (steepParts j)) ∧
    Searches (d := 2) fun f l => binSearch f l l.length 0 l.length := by
  have hends : ∀ j < 2, Valid (steepEnds j).1 ∧ (steepEnds j).1.level = 29 ∧ Valid (steepEnds j).2 ∧ (steepEnds j).2.level = 29 := by
    simp only [← isValid_iff]
    decide +kernel
  refine ⟨hends, ?_, ?_, ?_, ?_, ?_, binSearch_searches⟩
  · intro j hj h
    have : (quadsOf (steepParts j)).length = 0 := by rw [h]; rfl
    interval_cases j
    · revert this; decide +kernel
    · revert this; decide +kernel
  · intro j hj
    interval_cases j
    · exact sevenTree_tiles
    · have hv : ∀ q ∈ quadsOf threeTree, Valid q := by
        intro q hq
        rw [← isValid_iff]
        revert q
        rw [threeTree_quads]
        decide +kernel
      refine (tiles_iff (by decide) (hends 1 (by omega)).1 (hends 1 (by omega)).2.2.1 (by decide +kernel) hv).mpr ?_
      show Path _ (quadsOf threeTree) _
      rw [threeTree_quads]
      simp only [Path]
      decide +kernel
  · rw [steepParts_all]
    exact steepTree_complete
  · intro j hj q hq r hr _
    interval_cases j
    · have hlev : ∀ q ∈ quadsOf sevenTree, 2 ≤ q.level ∧ q.level ≤ 3 := by rw [sevenTree_quads]; decide +kernel
      have := hlev q hq
      have := hlev r hr
      omega
    · have hlev : ∀ q ∈ quadsOf threeTree, q.level = 1 := by rw [threeTree_quads]; decide +kernel
      have := hlev q hq
      have := hlev r hr
      omega
  · rw [steepParts_all]
    intro hbal
    have := hbal (child (child (child (root 2) 0) 3) 3) (by rw [steepTree_quads]; decide +kernel) (child (root 2) 1)
      (by rw [steepTree_quads]; decide +kernel)
      ⟨{0}, by simp, by simp, by unfold MeetOn; decide +kernel, by unfold OverlapOn; decide +kernel⟩
    revert this
    decide

end P4est
