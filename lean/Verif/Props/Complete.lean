import Verif.Lemmas.Complete

/-! # C22, C23: completing a region and linearizing a tree -/

namespace P4est
open Spec

variable {d : ℕ} {α σ : Type}

/-! ## C22 -/

theorem initAll_append (init : Quad d → σ → α × σ) (l1 l2 : List (Quad d)) (s : σ) :
    initAll init (l1 ++ l2) s =
      ((initAll init l1 s).1 ++ (initAll init l2 (initAll init l1 s).2).1,
        (initAll init l2 (initAll init l1 s).2).2) := by
  induction l1 generalizing s with
  | nil => rfl
  | cons q l1 ih => simp [initAll, ih]

theorem initAll_runAll (init : Quad d → σ → α × σ) (l : List (Quad d)) (s : σ) :
    initAll init l s = runAll (fun q s => ([⟨q, (init q s).1⟩], (init q s).2)) l s := by
  induction l generalizing s with
  | nil => rfl
  | cons q l ih => simp [initAll, runAll, ih]

theorem completeRegion_run (hd : 0 < d) (init : Quad d → σ → α × σ) (a b : Quad d) (inclA inclB : Bool)
    (t : Tree d α) (s : σ) (ha : Valid a) (hb : Valid b) (hab : stop a ≤ start b)
    (hempty : t.quads.count = 0) :
    ∃ ms : List (Quad d), (∀ m ∈ ms, Hit a b m) ∧ Path (stop a) ms (start b) ∧
      completeRegion init a inclA b inclB t s = some
        (((if inclA then [a] else []) ++ ms ++ (if inclB then [b] else [])).foldl (addQuad init)
          ⟨{ t with maxlevel := 0 }, s⟩) := by
  obtain ⟨hn, hna, hnb, -, -⟩ := C07_nca_valid hd a b ha hb
  have sa := start_lt_stop a
  have sb := start_lt_stop b
  have ia := (subset_iff_interval hd hn.aligned ha.aligned hn.int32 ha.int32).mp hna
  have ib := (subset_iff_interval hd hn.aligned hb.aligned hn.int32 hb.int32).mp hnb
  have hanc : isAncestor (nca a b) a = true := by
    rw [anc_interval hd hn ha]
    rcases valid_cases hd hn ha with g | g | g | g | g
    · omega
    · omega
    · rw [← g] at sa hab; omega
    · exact ⟨g.1, g.2.1, g.2.2.1⟩
    · omega
  have hnl : (nca a b).level < 29 := by
    have := ((anc_interval hd hn ha).mp hanc).2.2
    have := ha.1
    omega
  obtain ⟨ms, h1, h2, h3⟩ := completeLoop_all hd init ha hb hab (childrenv (nca a b)) _ _
    (fun v hv => ⟨nca a b, hn, hv, Or.inl hanc⟩)
    (children_path hn.aligned hn.int32 (by omega))
  have hclamp : clamp a b (start (nca a b)) = stop a ∧ clamp a b (stop (nca a b)) = start b := by
    unfold clamp; omega
  rw [hclamp.1, hclamp.2] at h2
  refine ⟨ms, h1, h2, ?_⟩
  have hcmp : compare a b < 0 := by
    rw [compare_neg_iff hd ha.int32 hb.int32, before_interval]; omega
  unfold completeRegion
  simp only [if_pos hcmp, h3, Option.bind_eq_bind, Option.bind_some, List.foldl_append]
  cases inclA <;> cases inclB <;> rfl

/-- C22. `p4est_complete_region` between two disjoint quadrants terminates.  The new leaves are, in
order, `a` (if requested), the filled-in quadrants, `b` (if requested), with data from the init
callback called once per leaf in this order.  The filled-in quadrants are legal; together with `a`
and `b` they form a sequence in which each quadrant begins where the previous one ends; they cover
exactly the cells after `a` and before `b` on the curve; none can be replaced by a coarser
quadrant, because every legal quadrant that properly contains it meets `a` or `b`. -/
theorem C22_complete_region (hd : 0 < d) (init : Quad d → σ → α × σ) (a b : Quad d)
    (inclA inclB : Bool) (t : Tree d α) (s : σ) (ha : Valid a) (hb : Valid b)
    (hab : Before a b ∧ Cells a ∩ Cells b = ∅) (hempty : quadsOf t = []) :
    ∃ (mid : List (Quad d)) (st : RegionSt d α σ),
      completeRegion init a inclA b inclB t s = some st ∧
      quadsOf st.tree = (if inclA then [a] else []) ++ mid ++ (if inclB then [b] else []) ∧
      (st.tree.quads.toList, st.s) =
        runAll (fun q s => ([⟨q, (init q s).1⟩], (init q s).2)) (quadsOf st.tree) s ∧
      (∀ q ∈ mid, Valid q) ∧ Linear ([a] ++ mid ++ [b]) ∧ Gapless ([a] ++ mid ++ [b]) ∧
      (∀ p, Int32 p → (p ∈ Cover mid ↔ stop a ≤ curve p ∧ curve p < start b)) ∧
      (∀ q ∈ mid, ∀ r, Valid r → Cells q ⊂ Cells r →
        (Cells r ∩ Cells a).Nonempty ∨ (Cells r ∩ Cells b).Nonempty) := by
  have hlt := (before_disjoint_iff ha.aligned hb.aligned ha.int32 hb.int32).mp hab
  have hcount : t.quads.count = 0 := by
    have := congrArg List.length hempty
    simpa [quadsOf, LArr.toList] using this
  obtain ⟨ms, h1, h2, h3⟩ := completeRegion_run hd init a b inclA inclB t s ha hb hlt hcount
  have hl0 : (⟨{ t with maxlevel := 0 }, s⟩ : RegionSt d α σ).tree.quads.toList = [] := by
    simp [LArr.toList, hcount]
  obtain ⟨h4, h5, -⟩ := addQuad_foldl init
    ((if inclA then [a] else []) ++ ms ++ (if inclB then [b] else [])) _ _ hl0
  have hq : ∀ (l : List (Quad d)) (s : σ), (initAll init l s).1.map Leaf.q = l :=
    fun l s => initAll_length init l s
  have hqs : quadsOf (((if inclA then [a] else []) ++ ms ++ (if inclB then [b] else [])).foldl
      (addQuad init) ⟨{ t with maxlevel := 0 }, s⟩).tree =
      (if inclA then [a] else []) ++ ms ++ (if inclB then [b] else []) := by
    unfold quadsOf; rw [h4, List.nil_append, hq]
  have hv : ∀ q ∈ ms, Valid q := fun q hq => (h1 q hq).valid hd ha hb
  have hpath : Path (start a) ([a] ++ ms ++ [b]) (stop b) := by
    rw [path_append, ]
    refine ⟨start b, ?_, rfl, rfl⟩
    rw [path_append]
    exact ⟨stop a, ⟨rfl, rfl⟩, h2⟩
  have hve : ∀ q ∈ [a] ++ ms ++ [b], Extended q := by
    intro q hq
    simp only [List.mem_append, List.mem_singleton] at hq
    rcases hq with (rfl | hq) | rfl
    · exact ha.extended
    · exact (hv q hq).extended
    · exact hb.extended
  refine ⟨ms, _, h3, hqs, ?_, hv, hpath.gapless.linear hve, hpath.gapless, ?_, ?_⟩
  · rw [hqs, h4, h5, List.nil_append, ← initAll_runAll]
  · intro p hp
    exact h2.cover (fun q hq => ⟨(hv q hq).aligned, (hv q hq).int32⟩) hp
  · intro q hqm r hr hsub
    obtain ⟨p, hp, hqp, hanc⟩ := h1 q hqm
    have hpl : p.level < 29 := by
      have := ha.1
      have := hb.1
      rcases hanc with h | h
      · have := ((anc_interval hd hp ha).mp h).2.2; omega
      · have := ((anc_interval hd hp hb).mp h).2.2; omega
    obtain ⟨hqv, e1, e2, e3⟩ := valid_child hd hp hpl hqp
    -- the parent lies in `r`
    have hpr : Cells p ⊆ Cells r := by
      have hrq := (isAncestor_iff_div.mp ((isAncestor_iff hd hr.aligned hqv.aligned).mpr hsub)).1
      have i1 := (subset_iff_interval hd hr.aligned hqv.aligned hr.int32 hqv.int32).mp hsub.1
      have s1 := start_lt_stop q
      have s2 := start_lt_stop p
      rcases valid_cases hd hp hr with g | g | g | g | g
      · omega
      · omega
      · rw [g]
      · omega
      · exact g.2.2.2.1
    rcases hanc with h | h
    · left
      have := ((isAncestor_iff hd hp.aligned ha.aligned).mp h).1
      exact ⟨a.c, hpr (this (corner_mem a)), corner_mem a⟩
    · right
      have := ((isAncestor_iff hd hp.aligned hb.aligned).mp h).1
      exact ⟨b.c, hpr (this (corner_mem b)), corner_mem b⟩

/-- C22. The filled-in quadrants are the fewest and largest possible: every legal quadrant that
lies between `a` and `b` on the curve is contained in one of them. -/
theorem C22_complete_region_largest (hd : 0 < d) (init : Quad d → σ → α × σ) (a b : Quad d)
    (t : Tree d α) (s : σ) (ha : Valid a) (hb : Valid b)
    (hab : Before a b ∧ Cells a ∩ Cells b = ∅) (hempty : quadsOf t = []) :
    ∃ st, completeRegion init a false b false t s = some st ∧
      ∀ r, Valid r → stop a ≤ start r → stop r ≤ start b →
        ∃ q ∈ quadsOf st.tree, Cells r ⊆ Cells q := by
  obtain ⟨mid, st, h1, h2, -, h4, -, -, h7, h8⟩ :=
    C22_complete_region hd init a b false false t s ha hb hab hempty
  refine ⟨st, h1, fun r hr hra hrb => ?_⟩
  have hs := start_lt_stop r
  obtain ⟨q, hq, hm⟩ := (h7 r.c hr.int32).mpr ⟨hra, by change start r < _; omega⟩
  refine ⟨q, by rw [h2]; simpa using hq, ?_⟩
  have hqv := h4 q hq
  rcases laminar hqv.aligned hr.aligned ⟨r.c, hm, corner_mem r⟩ with h | h
  · exact h
  · by_cases he : Cells q = Cells r
    · exact he.ge
    · exfalso
      rcases h8 q hq r hr (Set.ssubset_iff_subset_ne.mpr ⟨h, he⟩) with h | h
      · exact (disjoint_iff_interval hr.aligned ha.aligned hr.int32 ha.int32).mpr (by omega) h
      · exact (disjoint_iff_interval hr.aligned hb.aligned hr.int32 hb.int32).mpr (by omega) h

/-- C21. `p4est_complete_region` on an empty tree with cleared counters sets the level counters and
the maximum level to those of the new leaves. -/
theorem C21_complete_region_counters (hd : 0 < d) (init : Quad d → σ → α × σ) (a b : Quad d)
    (inclA inclB : Bool) (t : Tree d α) (s : σ) (ha : Valid a) (hb : Valid b)
    (hab : Before a b ∧ Cells a ∩ Cells b = ∅) (hempty : quadsOf t = []) (hzero : ∀ l, t.perLevel l = 0) :
    ∃ st, completeRegion init a inclA b inclB t s = some st ∧ CountersOk st.tree ∧
      st.tree.offset = t.offset := by
  have hlt := (before_disjoint_iff ha.aligned hb.aligned ha.int32 hb.int32).mp hab
  have hcount : t.quads.count = 0 := by
    have := congrArg List.length hempty
    simpa [quadsOf, LArr.toList] using this
  obtain ⟨ms, h1, h2, h3⟩ := completeRegion_run hd init a b inclA inclB t s ha hb hlt hcount
  have hl0 : (⟨{ t with maxlevel := 0 }, s⟩ : RegionSt d α σ).tree.quads.toList = [] := by
    simp [LArr.toList, hcount]
  obtain ⟨h4, h5⟩ := addQuad_counters init
    ((if inclA then [a] else []) ++ ms ++ (if inclB then [b] else [])) _
    (by rw [hl0]; funext l; simp [levelCount, hzero]) (by rw [hl0]; rfl)
  exact ⟨_, h3, countersOk_of h4 h5, (addQuad_foldl init _ _ _ hl0).2.2⟩

/-- The hypotheses are met, and between these two quadrants there is something to fill in. -/
example : ∃ a b : Quad 2, Valid a ∧ Valid b ∧ (Before a b ∧ Cells a ∩ Cells b = ∅) ∧
    stop a < start b ∧ quadsOf (⟨⟨fun _ => ⟨root 2, ()⟩, 0⟩, fun _ => 0, 0, 0⟩ : Tree 2 Unit) = [] := by
  have ha : Valid (⟨![0, 0], 2⟩ : Quad 2) := by rw [← isValid_iff]; decide +kernel
  have hb : Valid (⟨![536870912, 536870912], 2⟩ : Quad 2) := by rw [← isValid_iff]; decide +kernel
  refine ⟨_, _, ha, hb, ?_, by decide +kernel, rfl⟩
  exact (before_disjoint_iff ha.aligned hb.aligned ha.int32 hb.int32).mpr (by decide +kernel)

/-! ## C23 -/

/-- The entries of a list that are neither equal to nor ancestors of a later entry. -/
noncomputable def Spec.finest : List (Leaf d α) → List (Leaf d α)
  | [] => []
  | x :: xs =>
    open Classical in
    if ∃ y ∈ xs, Cells y.q ⊆ Cells x.q then Spec.finest xs else x :: Spec.finest xs

/-- Sorted in curve order, repetitions allowed (`sc_array_is_sorted`). -/
def Spec.SortedWeak (ls : List (Quad d)) : Prop := ls.Pairwise (fun q r => ¬ Before r q)

theorem finest_skip {x y : Leaf d α} {ys : List (Leaf d α)} (h : Cells y.q ⊆ Cells x.q) :
    finest (x :: y :: ys) = finest (y :: ys) := by
  rw [finest, if_pos ⟨y, by simp, h⟩]

theorem finest_keep (hd : 0 < d) {x y : Leaf d α} {ys : List (Leaf d α)}
    (he : ∀ z ∈ x :: y :: ys, Extended z.q)
    (hs : SortedWeak ((x :: y :: ys).map Leaf.q)) (h : ¬ Cells y.q ⊆ Cells x.q) :
    finest (x :: y :: ys) = x :: finest (y :: ys) := by
  rw [finest, if_neg]
  rintro ⟨z, hz, hsub⟩
  have hx := he x (by simp)
  have hy := he y (by simp)
  have hzv := he z (List.mem_cons_of_mem _ hz)
  have i1 := (subset_iff_interval hd hx.aligned hzv.aligned hx.int32 hzv.int32).mp hsub
  simp only [SortedWeak, List.map_cons, List.pairwise_cons, List.mem_cons, List.mem_map] at hs
  have h1 := hs.1 y.q (Or.inl rfl)
  have h2 : z = y ∨ ¬ Before z.q y.q := by
    rcases List.mem_cons.mp hz with rfl | hz
    · exact Or.inl rfl
    · exact Or.inr (hs.2.1 z.q ⟨z, hz, rfl⟩)
  rcases h2 with rfl | h2
  · exact h hsub
  rw [before_interval] at h1 h2
  have s1 := start_lt_stop x.q
  have s2 := start_lt_stop y.q
  have s3 := start_lt_stop z.q
  have hov : (Cells x.q ∩ Cells y.q).Nonempty := by
    by_contra hc
    have := (disjoint_iff_interval hx.aligned hy.aligned hx.int32 hy.int32).mp hc
    omega
  rcases laminar hx.aligned hy.aligned hov with g | g
  · exact h g
  · have i2 := (subset_iff_interval hd hy.aligned hx.aligned hy.int32 hx.int32).mp g
    have i3 := (cells_subset_iff hd hy.aligned hx.aligned).mp g
    have : ¬ y.q.level < x.q.level := by intro hl; apply h1; right; omega
    have hlev : y.q.level = x.q.level := by omega
    apply h
    rw [cells_subset_iff hd hx.aligned hy.aligned]
    refine ⟨by omega, ?_⟩
    rw [mem_iff_pos hx.aligned hx.int32 hy.int32]
    change start x.q ≤ start y.q ∧ start y.q < stop x.q
    omega

/-- Removed by linearize. -/
noncomputable def removedBy : List (Leaf d α) → List (Leaf d α)
  | [] => []
  | x :: xs =>
    open Classical in
    if ∃ y ∈ xs, Cells y.q ⊆ Cells x.q then x :: removedBy xs else removedBy xs

theorem finest_perm (l : List (Leaf d α)) : (finest l ++ removedBy l).Perm l := by
  induction l with
  | nil => exact List.Perm.nil
  | cons x xs ih =>
    unfold finest removedBy
    split
    · exact List.perm_middle.trans (ih.cons x)
    · exact ih.cons x

theorem same_or_anc (hd : 0 < d) {x y : Quad d} (hx : Extended x) (hy : Extended y) :
    (isEqual x y = true ∨ isAncestor x y = true) ↔ Cells y ⊆ Cells x := by
  rw [isAncestor_iff hd hx.aligned hy.aligned]
  have he : isEqual x y = true ↔ x = y := by
    unfold isEqual
    simp only [Bool.and_eq_true, decide_eq_true_eq]
    constructor
    · rintro ⟨h1, h2⟩; exact Quad.ext' h2 h1
    · rintro rfl; exact ⟨rfl, fun _ => rfl⟩
  rw [he]
  constructor
  · rintro (rfl | h)
    · exact subset_rfl
    · exact h.1
  · intro h
    by_cases hc : Cells y = Cells x
    · exact Or.inl (cells_inj hd hx.aligned hy.aligned hc.symm)
    · exact Or.inr (Set.ssubset_iff_subset_ne.mpr ⟨h, hc⟩)

theorem snoc_get {g : ℕ → Leaf d α} {K : List (Leaf d α)} {x : Leaf d α}
    (hK : ∀ i (h : i < K.length), g i = K[i]) (hx : g K.length = x) :
    ∀ i (h : i < (K ++ [x]).length), g i = (K ++ [x])[i] := by
  intro i hi
  simp only [List.length_append, List.length_cons, List.length_nil] at hi
  by_cases hik : i < K.length
  · rw [hK i hik, List.getElem_append_left hik]
  · have : i = K.length := by omega
    subst this
    rw [hx]; simp

/-- Loop invariant: the entries below `current` are final, `current` is `x`, the entries from `rest`
on are the unread ones. -/
theorem linearizeLoop_run (hd : 0 < d) (incount : ℕ) : ∀ (ys K : List (Leaf d α)) (x : Leaf d α)
    (st : LinState d α), (∀ z ∈ x :: ys, Extended z.q) → SortedWeak ((x :: ys).map Leaf.q) →
    st.arr.count = incount → st.current = K.length → st.rest + ys.length = incount →
    st.current < st.rest →
    (∀ i (h : i < K.length), st.arr.get i = K[i]) → st.arr.get st.current = x →
    (∀ i (h : i < ys.length), st.arr.get (st.rest + i) = ys[i]) →
    ∃ st', linearizeLoop incount st = some st' ∧
      (st'.arr.resize (st'.current + 1)).toList = K ++ finest (x :: ys) ∧
      st'.freed = st.freed ++ removedBy (x :: ys) ∧
      (∀ l, st'.perLevel l = st.perLevel l - levelCount (removedBy (x :: ys)) l) := by
  intro ys
  induction ys with
  | nil =>
    intro K x st he hs hc hcur hrest hlt hK hx hy
    simp only [List.length_nil, Nat.add_zero] at hrest
    have h1 : finest [x] = [x] := by simp [finest]
    have h2 : removedBy [x] = [] := by simp [removedBy]
    rw [linearizeLoop, if_neg (by omega)]
    refine ⟨st, rfl, ?_, by rw [h2]; simp, fun l => by rw [h2]; simp [levelCount]⟩
    rw [h1]
    apply toList_eq_of
    · simp [LArr.resize, hcur]
    · intro i hi
      rw [List.getElem?_eq_getElem hi]
      exact (snoc_get hK (by rw [← hcur]; exact hx) i hi).symm ▸ rfl
  | cons y ys ih =>
    intro K x st he hs hc hcur hrest hlt hK hx hy
    simp only [List.length_cons] at hrest hy
    have hxe := he x (by simp)
    have hye := he y (by simp)
    have hy0 : st.arr.get st.rest = y := by have := hy 0 (by omega); simpa using this
    have hi1 : st.arr.index st.current = some x := by
      unfold LArr.index; rw [if_pos (by omega), hx]
    have hi2 : st.arr.index st.rest = some y := by
      unfold LArr.index; rw [if_pos (by omega), hy0]
    have hs' : SortedWeak ((y :: ys).map Leaf.q) := by
      unfold SortedWeak at hs ⊢
      rw [List.map_cons, List.pairwise_cons] at hs
      exact hs.2
    have he' : ∀ z ∈ y :: ys, Extended z.q := fun z hz => he z (List.mem_cons_of_mem _ hz)
    have hw : ∀ i, i < incount → st.arr.write i y = some ⟨Function.update st.arr.get i y, incount⟩ := by
      intro i hi; unfold LArr.write; rw [if_pos (by omega), hc]
    rw [linearizeLoop, if_pos (by omega), hi1, hi2]
    simp only [Option.bind_eq_bind, Option.bind_some]
    by_cases hcase : isEqual x.q y.q = true ∨ isAncestor x.q y.q = true
    · have hsub := (same_or_anc hd hxe hye).mp hcase
      rw [if_pos hcase, hw _ (by omega)]
      simp only [Option.bind_some]
      obtain ⟨st', g1, g2, g3, g4⟩ := ih K y ⟨⟨Function.update st.arr.get st.current y, incount⟩,
        bump st.perLevel x.q.level (-1), st.current, st.rest + 1, st.freed ++ [x]⟩ he' hs' rfl hcur
        (by simp only; omega) (by simp only; omega) (by
          intro i hi
          simp only
          rw [Function.update_of_ne (by omega)]; exact hK i hi) (by simp) (by
          intro i hi
          simp only
          rw [Function.update_of_ne (by omega)]
          have := hy (i + 1) (by omega)
          rw [show st.rest + 1 + i = st.rest + (i + 1) by omega, this, List.getElem_cons_succ])
      have hr : removedBy (x :: y :: ys) = x :: removedBy (y :: ys) := by
        rw [removedBy, if_pos ⟨y, by simp, hsub⟩]
      refine ⟨st', g1, ?_, ?_, ?_⟩
      · rw [g2, finest_skip hsub]
      · rw [g3, hr]; simp
      · intro l
        rw [g4, hr]
        have : levelCount (x :: removedBy (y :: ys)) l =
            levelCount [x] l + levelCount (removedBy (y :: ys)) l := by
          rw [← levelCount_append]; rfl
        rw [this]
        by_cases hl : l = x.q.level
        · subst hl; simp [bump, levelCount]; ring
        · simp [bump, levelCount, Function.update_of_ne hl, Ne.symm hl]
    · have hsub : ¬ Cells y.q ⊆ Cells x.q := fun h => hcase ((same_or_anc hd hxe hye).mpr h)
      have hr : removedBy (x :: y :: ys) = removedBy (y :: ys) := by
        have h1 := finest_keep hd he hs hsub
        by_cases hex : ∃ z ∈ y :: ys, Cells z.q ⊆ Cells x.q
        · rw [finest, if_pos hex] at h1
          exact absurd (congrArg List.length h1) (by simp)
        · rw [removedBy, if_neg hex]
      rw [if_neg hcase]
      by_cases hgap : st.current + 1 < st.rest
      · rw [if_pos hgap, hw _ (by omega)]
        simp only [Option.bind_some]
        obtain ⟨st', g1, g2, g3, g4⟩ := ih (K ++ [x])
          y ⟨⟨Function.update st.arr.get (st.current + 1) y, incount⟩,
          st.perLevel, st.current + 1, st.rest + 1, st.freed⟩ he' hs' rfl (by simp [hcur])
          (by simp only; omega) (by simp only; omega) (by
            intro i hi
            simp only [List.length_append, List.length_cons, List.length_nil] at hi
            simp only
            rw [Function.update_of_ne (by omega)]
            exact snoc_get hK (by rw [← hcur]; exact hx) i _) (by simp) (by
            intro i hi
            simp only
            rw [Function.update_of_ne (by omega)]
            have := hy (i + 1) (by omega)
            rw [show st.rest + 1 + i = st.rest + (i + 1) by omega, this, List.getElem_cons_succ])
        refine ⟨st', g1, ?_, ?_, ?_⟩
        · rw [g2, finest_keep hd he hs hsub]; simp
        · rw [g3, hr]
        · intro l; rw [g4, hr]
      · rw [if_neg hgap]
        obtain ⟨st', g1, g2, g3, g4⟩ := ih (K ++ [x])
          y ⟨st.arr, st.perLevel, st.current + 1, st.rest + 1, st.freed⟩ he' hs' hc (by simp [hcur])
          (by simp only; omega) (by simp only; omega) (by
            intro i hi
            simp only [List.length_append, List.length_cons, List.length_nil] at hi
            simp only
            exact snoc_get hK (by rw [← hcur]; exact hx) i _) (by
            simp only
            rw [show st.current + 1 = st.rest by omega, hy0]) (by
            intro i hi
            simp only
            have := hy (i + 1) (by omega)
            rw [show st.rest + 1 + i = st.rest + (i + 1) by omega, this, List.getElem_cons_succ])
        refine ⟨st', g1, ?_, ?_, ?_⟩
        · rw [g2, finest_keep hd he hs hsub]; simp
        · rw [g3, hr]
        · intro l; rw [g4, hr]

theorem finest_sublist (l : List (Leaf d α)) : (finest l).Sublist l := by
  induction l with
  | nil => exact List.Sublist.refl _
  | cons x xs ih =>
    unfold finest
    split
    · exact ih.cons x
    · exact ih.cons₂ x

theorem finest_linear (hd : 0 < d) (l : List (Leaf d α)) (he : ∀ z ∈ l, Extended z.q)
    (hs : SortedWeak (l.map Leaf.q)) : Linear ((finest l).map Leaf.q) := by
  induction l with
  | nil => simp [finest, Linear]
  | cons x xs ih =>
    have he' : ∀ z ∈ xs, Extended z.q := fun z hz => he z (List.mem_cons_of_mem _ hz)
    have hs1 := hs
    unfold SortedWeak at hs1
    rw [List.map_cons, List.pairwise_cons] at hs1
    unfold finest
    split
    · exact ih he' hs1.2
    · rename_i hno
      have ih' := ih he' hs1.2
      unfold Linear at ih' ⊢
      rw [List.map_cons, List.pairwise_cons]
      refine ⟨?_, ih'⟩
      intro r hr
      obtain ⟨z, hz, rfl⟩ := List.mem_map.mp hr
      have hzx := (finest_sublist xs).subset hz
      have hxe := he x (by simp)
      have hze := he' z hzx
      rw [before_disjoint_iff hxe.aligned hze.aligned hxe.int32 hze.int32]
      have hnb := hs1.1 z.q (List.mem_map_of_mem hzx)
      have hsub : ¬ Cells z.q ⊆ Cells x.q := fun h => hno ⟨z, hzx, h⟩
      rw [before_interval] at hnb
      have s1 := start_lt_stop x.q
      have s2 := start_lt_stop z.q
      by_contra hc
      have hov : (Cells x.q ∩ Cells z.q).Nonempty := by
        by_contra hcc
        have := (disjoint_iff_interval hxe.aligned hze.aligned hxe.int32 hze.int32).mp hcc
        omega
      rcases laminar hxe.aligned hze.aligned hov with g | g
      · exact hsub g
      · have i2 := (subset_iff_interval hd hze.aligned hxe.aligned hze.int32 hxe.int32).mp g
        have i3 := (cells_subset_iff hd hze.aligned hxe.aligned).mp g
        have : ¬ z.q.level < x.q.level := by intro hl; apply hnb; right; omega
        apply hsub
        rw [cells_subset_iff hd hxe.aligned hze.aligned]
        refine ⟨by omega, ?_⟩
        rw [mem_iff_pos hxe.aligned hxe.int32 hze.int32]
        change start x.q ≤ start z.q ∧ start z.q < stop x.q
        omega

theorem linearizeTree_eq (hd : 0 < d) (t : Tree d α) (he : ∀ q ∈ quadsOf t, Extended q)
    (hs : SortedWeak (quadsOf t)) :
    ∃ t', linearizeTree t = some (t', (removedBy t.quads.toList).length, removedBy t.quads.toList) ∧
      t'.quads.toList = finest t.quads.toList ∧ t'.offset = t.offset ∧
      (CountersOk t → CountersOk t') := by
  have he' : ∀ z ∈ t.quads.toList, Extended z.q := fun z hz => he _ (List.mem_map_of_mem hz)
  have hlen : t.quads.toList.length = t.quads.count := by simp [LArr.toList]
  unfold linearizeTree
  by_cases h1 : t.quads.count ≤ 1
  · rw [if_pos h1]
    have hnil : finest t.quads.toList = t.quads.toList ∧ removedBy t.quads.toList = [] := by
      rcases hl : t.quads.toList with _ | ⟨x, _ | ⟨y, ys⟩⟩
      · exact ⟨rfl, rfl⟩
      · simp [finest, removedBy]
      · rw [hl] at hlen; simp at hlen; omega
    rw [hnil.2]
    exact ⟨t, rfl, hnil.1.symm, rfl, id⟩
  · rw [if_neg h1]
    rcases hl : t.quads.toList with _ | ⟨x, ys⟩
    · rw [hl] at hlen; simp at hlen; omega
    · have hget : ∀ i (h : i < (x :: ys).length), t.quads.get i = (x :: ys)[i] := by
        intro i h
        have h2 : i < t.quads.toList.length := by rw [hl]; exact h
        have : t.quads.toList[i] = t.quads.get i := by simp [LArr.toList]
        rw [← this]; simp [hl]
      rw [hl] at hlen
      simp only [List.length_cons] at hlen
      obtain ⟨st', g1, g2, g3, g4⟩ := linearizeLoop_run hd t.quads.count ys [] x
        ⟨t.quads, t.perLevel, 0, 1, []⟩ (by rw [← hl]; exact he')
        (by rw [← hl]; exact hs) rfl rfl (by simp only; omega) (by simp) (by simp) (by
          have := hget 0 (by simp)
          simpa using this) (by
          intro i hi
          have := hget (i + 1) (by simp; omega)
          rw [List.getElem_cons_succ] at this
          rw [← this]; simp only; congr 1; omega)
      rw [g1]
      simp only [Option.bind_eq_bind, Option.bind_some]
      rw [g3, List.nil_append]
      refine ⟨_, rfl, by rw [g2]; rfl, rfl, fun hok => ?_⟩
      have hper : st'.perLevel = levelCount (st'.arr.resize (st'.current + 1)).toList := by
        funext l
        rw [g4, g2, List.nil_append]
        have hp := finest_perm (x :: ys)
        have h2 : levelCount (finest (x :: ys) ++ removedBy (x :: ys)) l = levelCount (x :: ys) l := by
          rw [levelCount_eq, levelCount_eq]
          congr 1
          exact (hp.map Leaf.q).countP_eq _
        rw [levelCount_append] at h2
        have h3 := hok.1 l
        unfold quadsOf at h3
        rw [hl, ← levelCount_eq] at h3
        simp only
        rw [h3]; omega
      have hmem : ∀ z ∈ (st'.arr.resize (st'.current + 1)).toList, z.q.level ≤ 29 := by
        intro z hz
        rw [g2, List.nil_append] at hz
        have := (finest_sublist _).subset hz
        rw [← hl] at this
        exact (he' z this).1
      rw [hper]
      exact countersOk_coarsen _ hmem

/-- C23. `p4est_linearize_tree` on a sorted array terminates without leaving the array.  It keeps
exactly the entries that are neither equal to nor ancestors of a later entry, with their data and in
order; the data of all other entries, and only of those, is freed, once each; the returned number
is the number of removed entries; the result is linear. -/
theorem C23_linearize (hd : 0 < d) (t : Tree d α) (he : ∀ q ∈ quadsOf t, Extended q)
    (hs : SortedWeak (quadsOf t)) :
    ∃ t' n freed, linearizeTree t = some (t', n, freed) ∧
      t'.quads.toList = finest t.quads.toList ∧
      (t'.quads.toList ++ freed).Perm t.quads.toList ∧
      n = freed.length ∧ n + t'.quads.toList.length = t.quads.toList.length ∧
      Linear (quadsOf t') ∧ t'.offset = t.offset := by
  obtain ⟨t', h1, h2, h3, -⟩ := linearizeTree_eq hd t he hs
  have hp := finest_perm t.quads.toList
  refine ⟨t', _, _, h1, h2, by rw [h2]; exact hp, rfl, ?_, ?_, h3⟩
  · have := hp.length_eq
    rw [List.length_append] at this
    rw [h2]; omega
  · unfold quadsOf
    rw [h2]
    exact finest_linear hd _ (fun z hz => he _ (List.mem_map_of_mem hz)) hs

/-- C23. The finest leaves survive: for every old entry one of the remaining entries lies in it, and
every remaining entry is an old one. -/
theorem C23_linearize_members (hd : 0 < d) (t : Tree d α) (he : ∀ q ∈ quadsOf t, Extended q)
    (hs : SortedWeak (quadsOf t)) :
    ∃ t' n freed, linearizeTree t = some (t', n, freed) ∧
      (∀ q ∈ quadsOf t', q ∈ quadsOf t) ∧
      (∀ q ∈ quadsOf t, ∃ r ∈ quadsOf t', Cells r ⊆ Cells q) ∧
      (∀ q ∈ quadsOf t, (∀ r ∈ quadsOf t, ¬ Cells r ⊂ Cells q) → q ∈ quadsOf t') := by
  obtain ⟨t', h1, h2, h3, -⟩ := linearizeTree_eq hd t he hs
  have key : ∀ l : List (Leaf d α), ∀ x ∈ l, ∃ y ∈ finest l, Cells y.q ⊆ Cells x.q := by
    intro l
    induction l with
    | nil => simp
    | cons x xs ih =>
      have hxs : ∀ z ∈ xs, ∃ y ∈ finest (x :: xs), Cells y.q ⊆ Cells z.q := by
        intro z hz
        obtain ⟨y, hy, hyz⟩ := ih z hz
        refine ⟨y, ?_, hyz⟩
        unfold finest
        split
        · exact hy
        · exact List.mem_cons_of_mem _ hy
      intro z hz
      rcases List.mem_cons.mp hz with rfl | hz
      · by_cases hex : ∃ y ∈ xs, Cells y.q ⊆ Cells z.q
        · obtain ⟨y, hy, hyz⟩ := hex
          obtain ⟨u, hu, huy⟩ := hxs y hy
          exact ⟨u, hu, huy.trans hyz⟩
        · refine ⟨z, ?_, subset_rfl⟩
          rw [finest, if_neg hex]; simp
      · exact hxs z hz
  have hcov : ∀ q ∈ quadsOf t, ∃ r ∈ quadsOf t', Cells r ⊆ Cells q := by
    intro q hq
    obtain ⟨x, hx, rfl⟩ := List.mem_map.mp hq
    obtain ⟨y, hy, hyx⟩ := key _ x hx
    exact ⟨y.q, by unfold quadsOf; rw [h2]; exact List.mem_map_of_mem hy, hyx⟩
  have hsub : ∀ q ∈ quadsOf t', q ∈ quadsOf t := by
    intro q hq
    unfold quadsOf at hq
    rw [h2] at hq
    obtain ⟨x, hx, rfl⟩ := List.mem_map.mp hq
    exact List.mem_map_of_mem ((finest_sublist _).subset hx)
  refine ⟨t', _, _, h1, hsub, hcov, ?_⟩
  intro q hq hmin
  obtain ⟨r, hr, hrq⟩ := hcov q hq
  by_cases hc : Cells r = Cells q
  · rw [← cells_inj hd (he r (hsub r hr)).aligned (he q hq).aligned hc]; exact hr
  · exact absurd (Set.ssubset_iff_subset_ne.mpr ⟨hrq, hc⟩) (hmin r (hsub r hr))

/-- C21. Linearizing keeps the level counters and the maximum level consistent. -/
theorem C21_linearize_counters (hd : 0 < d) (t : Tree d α) (he : ∀ q ∈ quadsOf t, Extended q)
    (hs : SortedWeak (quadsOf t)) (hok : CountersOk t) :
    ∃ t' n freed, linearizeTree t = some (t', n, freed) ∧ CountersOk t' := by
  obtain ⟨t', h1, -, -, h4⟩ := linearizeTree_eq hd t he hs
  exact ⟨t', _, _, h1, h4 hok⟩

/-- A sorted array with an ancestor, a repetition and an unrelated leaf. -/
def overlapTree : Tree 2 ℕ :=
  ⟨⟨fun i => ⟨(if i = 0 then ⟨![0, 0], 1⟩ else if i = 1 then ⟨![0, 0], 2⟩ else if i = 2 then
      ⟨![0, 0], 2⟩ else ⟨![536870912, 0], 1⟩), i⟩, 4⟩,
    fun l => if l = 1 then 2 else if l = 2 then 2 else 0, 2, 0⟩

theorem overlapTree_quads : quadsOf overlapTree =
    [⟨![0, 0], 1⟩, ⟨![0, 0], 2⟩, ⟨![0, 0], 2⟩, ⟨![536870912, 0], 1⟩] := rfl

theorem overlapTree_ok : (∀ q ∈ quadsOf overlapTree, Extended q) ∧ SortedWeak (quadsOf overlapTree) := by
  constructor
  · rw [overlapTree_quads]
    simp only [List.mem_cons, List.not_mem_nil, or_false, forall_eq_or_imp, forall_eq,
      ← isExtended_iff]
    decide +kernel
  · rw [overlapTree_quads]
    unfold SortedWeak Before
    simp only [List.pairwise_cons, List.mem_cons, List.not_mem_nil, or_false, forall_eq_or_imp,
      forall_eq, IsEmpty.forall_iff, implies_true, List.Pairwise.nil, and_true]
    decide +kernel

/-- The hypotheses of the linearize theorems are met by an array with entries to remove. -/
example : (∀ q ∈ quadsOf overlapTree, Extended q) ∧ SortedWeak (quadsOf overlapTree) ∧
    CountersOk overlapTree := by
  refine ⟨overlapTree_ok.1, overlapTree_ok.2, ?_⟩
  unfold CountersOk
  rw [overlapTree_quads]
  refine ⟨fun l => ?_, ?_, ?_⟩
  · by_cases h1 : l = 1
    · subst h1; rfl
    · by_cases h2 : l = 2
      · subst h2; rfl
      · simp [overlapTree, List.countP_cons, h1, h2, Ne.symm h1, Ne.symm h2]
  · simp [overlapTree]
  · left; exact ⟨⟨![0, 0], 2⟩, by simp, rfl⟩

/-- C23. Linearizing can lose area: the ancestor is removed although its descendants in the array
do not cover it. -/
theorem C23_linearize_may_uncover : ∃ (t : Tree 2 ℕ) (t' : Tree 2 ℕ) (n : ℕ) (freed : List (Leaf 2 ℕ)),
    (∀ q ∈ quadsOf t, Extended q) ∧ SortedWeak (quadsOf t) ∧
    linearizeTree t = some (t', n, freed) ∧ Cover (quadsOf t') ≠ Cover (quadsOf t) := by
  obtain ⟨t', n, freed, h1, h2, h3, -⟩ := C23_linearize_members (by norm_num) overlapTree
    overlapTree_ok.1 overlapTree_ok.2
  obtain ⟨t2, n2, freed2, g1, -, -, -, -, g2, -⟩ := C23_linearize (by norm_num) overlapTree
    overlapTree_ok.1 overlapTree_ok.2
  obtain ⟨rfl, rfl, rfl⟩ : t2 = t' ∧ n2 = n ∧ freed2 = freed := by
    rw [h1] at g1
    simpa [eq_comm] using g1
  refine ⟨overlapTree, t2, n2, freed2, overlapTree_ok.1, overlapTree_ok.2, h1, fun hc => ?_⟩
  -- the point (2^29 - 1, 2^29 - 1) is covered by the level 1 ancestor only
  have hin : (![536870911, 536870911] : Fin 2 → ℤ) ∈ Cover (quadsOf overlapTree) := by
    refine ⟨⟨![0, 0], 1⟩, by simp [overlapTree_quads], fun i => ?_⟩
    fin_cases i <;> decide
  rw [← hc] at hin
  obtain ⟨q, hq, hm⟩ := hin
  have hq' := h2 q hq
  rw [overlapTree_quads] at hq'
  have hlin : ∀ r ∈ quadsOf t2, r = q ∨ Cells q ∩ Cells r = ∅ ∨ Cells r ∩ Cells q = ∅ := by
    intro r hr
    obtain ⟨i, hi, rfl⟩ := List.getElem_of_mem hr
    obtain ⟨j, hj, rfl⟩ := List.getElem_of_mem hq
    have hpw := List.pairwise_iff_getElem.mp g2
    rcases Nat.lt_trichotomy i j with h | h | h
    · exact Or.inr (Or.inr (hpw i j hi hj h).2)
    · subst h; exact Or.inl rfl
    · exact Or.inr (Or.inl (hpw j i hj hi h).2)
  simp only [List.mem_cons, List.not_mem_nil, or_false] at hq'
  have hmiss : ∀ q : Quad 2, q = ⟨![0, 0], 2⟩ ∨ q = ⟨![536870912, 0], 1⟩ →
      (![536870911, 536870911] : Fin 2 → ℤ) ∉ Cells q := by
    rintro q (rfl | rfl) hm
    · exact absurd (hm 0) (by decide)
    · exact absurd (hm 0) (by decide)
  rcases hq' with rfl | h | h | h
  · obtain ⟨r, hr, hrs⟩ := h3 ⟨![0, 0], 2⟩ (by simp [overlapTree_quads])
    have hsub : Cells r ⊆ Cells (⟨![0, 0], 1⟩ : Quad 2) := by
      refine hrs.trans ?_
      rw [cells_subset_iff (by norm_num) (overlapTree_ok.1 _ (by simp [overlapTree_quads])).aligned
        (overlapTree_ok.1 _ (by simp [overlapTree_quads])).aligned]
      exact ⟨by decide, fun i => by fin_cases i <;> decide⟩
    rcases hlin r hr with rfl | h | h
    · exact absurd (hrs hm) (hmiss _ (Or.inl rfl))
    · have : r.c ∈ (∅ : Set (Fin 2 → ℤ)) := h ▸ ⟨hsub (corner_mem r), corner_mem r⟩
      exact this
    · have : r.c ∈ (∅ : Set (Fin 2 → ℤ)) := h ▸ ⟨corner_mem r, hsub (corner_mem r)⟩
      exact this
  · exact hmiss q (Or.inl h) hm
  · exact hmiss q (Or.inl h) hm
  · exact hmiss q (Or.inr h) hm

end P4est
