import Verif.Lemmas.ReplaceTwice
import Verif.Props.BalanceBorder
import Verif.Props.BalanceClosed

/-! # Property C97: the replace callback in balance -/

namespace P4est
open Spec

variable {d : ℕ} {α σ : Type}

theorem balanceSubtreeExt_single {bs : (Quad d → ℤ) → List (Quad d) → Option ℕ} {init : Quad d → σ → α × σ}
    {replace : List (Leaf d α) → List (Leaf d α) → σ → (ℕ → α) × σ}
    {btype bound : ℕ} (hb : balanceBound d btype = some bound) {fdesc ldesc : Quad d} {t : Tree d α} {s : σ}
    (h : quadsOf t = [nca fdesc ldesc]) : balanceSubtreeExt bs init replace btype fdesc ldesc t s = some (t, s, []) := by
  unfold balanceSubtreeExt
  rw [obind hb]
  unfold quadsOf at h
  cases hL : t.quads.toList with
  | nil => rfl
  | cons p ps =>
    rw [hL] at h
    simp only [List.map_cons, List.cons.injEq, List.map_eq_nil_iff] at h
    obtain ⟨h1, rfl⟩ := h
    dsimp only
    rw [if_pos ⟨rfl, by rw [h1, isEqual_iff]⟩]

theorem balanceSubtreeExt_run {τ : Type} (init0 : Quad d → τ → α × τ) (hd : 0 < d) {bs : (Quad d → ℤ) → List (Quad d) → Option ℕ} {init : Quad d → σ → α × σ}
    {replace : List (Leaf d α) → List (Leaf d α) → σ → (ℕ → α) × σ}
    {btype bound : ℕ} (hb : balanceBound d btype = some bound) {fdesc ldesc : Quad d} {t : Tree d α} {s : σ}
    (h : SubRegion fdesc ldesc (nca fdesc ldesc) (quadsOf t)) :
    ∃ R, Reduced (nca fdesc ldesc) (quadsOf t) R ∧
      (∀ out st, balanceKernel bs (nca fdesc ldesc) bound (some fdesc) (some ldesc) R = some out →
        mergeReplace init replace t.quads.toList out ⟨[], t.perLevel, t.maxlevel, s, []⟩ = some st →
        balanceSubtreeExt bs init replace btype fdesc ldesc t s = some
          (⟨t.quads.ofList st.leaves, st.perLevel, st.maxlevel, t.offset⟩, st.s, st.freed)) ∧
      ∀ out st s0, balanceKernel bs (nca fdesc ldesc) bound (some fdesc) (some ldesc) R = some out →
        mergeLoop init0 t.quads.toList out ⟨[], t.perLevel, t.maxlevel, s0, []⟩ = some st →
        balanceSubtree bs init0 btype fdesc ldesc t s0 = some
          (⟨t.quads.ofList st.leaves, st.perLevel, st.maxlevel, t.offset⟩, st.s, st.freed) := by
  cases hL : t.quads.toList with
  | nil => exact absurd (by unfold quadsOf; rw [hL]; rfl) h.ne
  | cons p ps =>
    have hq : quadsOf t = p.q :: ps.map Leaf.q := by unfold quadsOf; rw [hL]; rfl
    rw [hq] at h ⊢
    have hno : ¬ (ps.isEmpty = true ∧ isEqual p.q (nca fdesc ldesc) = true) := by
      rintro ⟨h1, h2⟩
      rw [isEqual_iff] at h2
      have h3 : ps = [] := by simpa using h1
      exact h.not_dom (by rw [h2, h3]; rfl)
    refine ⟨_, reduce_spec hd h, fun out st hk hm => ?_, fun out st s0 hk hm => ?_⟩
    · unfold balanceSubtreeExt
      rw [obind hb, hL]
      dsimp only
      rw [if_neg hno, obind hk, obind hm]
    · unfold balanceSubtree completeOrBalance
      rw [obind hb, hL]
      dsimp only
      rw [if_neg hno, obind hk, obind hm]

/-- C97, for `p4est_balance_subtree_ext` with a replace callback.  The leaves are the same as without the callback:
they cover the same part of the tree, are not coarser than before, balanced and the coarsest possible.  The freed leaves
are those that are gone, and the counters stay right.  Every leaf `x` becomes the leaves `O x.q` in its place.  If it is
still a leaf then it keeps its data.  Otherwise the callback is called as if the leaf were refined step by step: each
call replaces one quadrant by all of its children, exactly for the quadrants that are divided, once for each.  The
outgoing quadrant is the old leaf with its data or a quadrant that came in with an earlier call, with the data written
there.  Each new leaf has the data that was written when it came in.  A quantity that the callback conserves in each
call is conserved.  Here `T` records the calls. -/
theorem C97_replace_subtree (hdim : d = 2 ∨ d = 3) {bs : (Quad d → ℤ) → List (Quad d) → Option ℕ} (hbs : Finds bs)
    (init : Quad d → σ → α × σ) (replace : List (Leaf d α) → List (Leaf d α) → σ → (ℕ → α) × σ)
    (k : ℕ) (hk : 1 ≤ k) (hkd : k ≤ d) (fdesc ldesc : Quad d)
    (hf : Valid fdesc) (hf9 : fdesc.level = 29) (hl : Valid ldesc) (hl9 : ldesc.level = 29)
    (t : Tree d α) (s : σ) (hne : quadsOf t ≠ []) (hT : Tiles fdesc ldesc (quadsOf t)) :
    ∃ t' s' T, balanceSubtreeExt bs (watchInit init) (watchReplace replace) k fdesc ldesc t (s, []) =
        some (t', (s', T), dropped t.quads.toList (quadsOf t')) ∧
      Tiles fdesc ldesc (quadsOf t') ∧ AsFineAs (quadsOf t') (quadsOf t) ∧ Balanced k (quadsOf t') ∧
      (∀ U, TreeComplete U → Balanced k U → AsFineAs U (quadsOf t) → AsFineAs U (quadsOf t')) ∧
      t'.offset = t.offset ∧ (CountersOk t → CountersOk t') ∧
      (∃ t0 s0 fr, balanceSubtree bs init k fdesc ldesc t s = some (t0, s0, fr) ∧ quadsOf t0 = quadsOf t') ∧
      ∃ (O : Quad d → List (Leaf d α)) (S : Quad d → List (ReplaceCall d α)),
        t'.quads.toList = t.quads.toList.flatMap (fun x => O x.q) ∧ T = t.quads.toList.flatMap (fun x => S x.q) ∧
        ∀ x ∈ t.quads.toList, Becomes init replace (quadsOf t') x (O x.q) (S x.q) := by
  have hd : 0 < d := by omega
  have hv := hT.valid
  have hin : ∀ q ∈ quadsOf t, Cells q ⊆ Section fdesc ldesc := fun q hq => by
    rw [← hT.cover]
    exact fun p hp => ⟨q, hq, hp⟩
  have hw : ∀ q ∈ quadsOf t, start fdesc ≤ start q ∧ stop q ≤ stop ldesc := fun q hq =>
    (section_iff hd (hv q hq)).mp (hin q hq)
  obtain ⟨q0, hq0⟩ := List.exists_mem_of_ne_nil _ hne
  have hlt : start fdesc ≤ stop ldesc := by
    have := hw q0 hq0
    have := start_lt_stop q0
    omega
  obtain ⟨bound, hb⟩ : ∃ bound, balanceBound d k = some bound := by
    unfold balanceBound
    split_ifs <;> first | exact ⟨_, rfl⟩ | omega
  rcases subtree_cases hd hf hf9 hl hl9 hne hv hT.linear hin with ⟨h1, h2⟩ | h
  · refine ⟨t, s, [], ?_, hT, ?_, ?_, fun U _ _ h => h, rfl, id,
      ⟨t, s, [], completeOrBalance_single hb h1, rfl⟩, fun q => t.quads.toList.filter (fun x => x.q = q),
      fun _ => [], ?_, by simp, ?_⟩
    · have : dropped t.quads.toList (quadsOf t) = [] := by
        unfold dropped
        rw [List.filter_eq_nil_iff]
        intro x hx
        have : x.q ∈ quadsOf t := List.mem_map_of_mem hx
        simpa using this
      rw [this]
      exact balanceSubtreeExt_single hb h1
    · intro q hq r hr hss
      rw [h1, List.mem_singleton] at hq hr
      rw [hq, hr] at hss
      exact lt_irrefl _ hss
    · intro q hq r hr _
      rw [h1, List.mem_singleton] at hq hr
      rw [hq, hr]
      omega
    all_goals
      unfold quadsOf at h1
      obtain ⟨y, hy⟩ := List.length_eq_one_iff.mp (by rw [← List.length_map (f := Leaf.q), h1]; rfl : t.quads.toList.length = 1)
      rw [hy]
    · simp
    · intro x hx
      rw [List.mem_singleton.mp hx]
      have e : [y].filter (fun x => decide (x.q = y.q)) = [y] := by simp
      dsimp only
      rw [e]
      exact ⟨fun _ => ⟨rfl, rfl⟩, fun h => absurd (by unfold quadsOf; rw [hy]; simp) h,
        fun u hu => by rw [List.mem_singleton.mp hu], fun M _ w _ => by simp⟩
  · obtain ⟨R, hR, hrun, hrun0⟩ := balanceSubtreeExt_run init (bs := bs) (init := watchInit init) (replace := watchReplace replace)
      (s := (s, [])) hd hb h
    have hVp := (tiles_iff hd hf hl hlt hv).mp hT
    obtain ⟨out, k1, k2, k3, k4, k5, k6, -⟩ := kernel_balance hdim hbs hk hb h hR hVp
    obtain ⟨st, m1, m2, m3, m4, m5⟩ := merge_tree hd init (s := s) hne k2 k3 hv hw (linear_stops hv hT.linear) k4
    obtain ⟨st', m, s', O, S, i1, i2, i3, i4, i5, i6, i7⟩ := mergeReplace_spec hd init replace t.quads.toList out _ _ hVp k2
      (fun x hx => hv x.q (List.mem_map_of_mem hx)) k3
      (by
        intro p hp x hx
        have hxq : x.q ∈ quadsOf t := List.mem_map_of_mem hx
        rw [← Bool.not_eq_true, isAncestor_iff hd (k3 p hp).aligned (hv _ hxq).aligned]
        exact k4 p hp x.q hxq)
      ⟨[], t.perLevel, t.maxlevel, (s, []), []⟩ ⟨[], t.perLevel, t.maxlevel, s, []⟩ ⟨rfl, rfl, rfl⟩
    rw [m1] at i2
    obtain rfl := Option.some.inj i2
    have hlv : st'.leaves = t.quads.toList.flatMap fun x => O x.q := by rw [i4]; simp
    have hq : quadsOf (⟨t.quads.ofList st'.leaves, st'.perLevel, st'.maxlevel, t.offset⟩ : Tree d α) = out := by
      unfold quadsOf
      rw [ofList_toList, hlv, i6]
    refine ⟨⟨t.quads.ofList st'.leaves, st'.perLevel, st'.maxlevel, t.offset⟩, s', t.quads.toList.flatMap fun x => S x.q,
      ?_, ?_, ?_, ?_, ?_, rfl, ?_, ⟨_, _, _, hrun0 out st s k1 m1, ?_⟩, O, S, by rw [ofList_toList, hlv], rfl, ?_⟩
    · rw [hrun out st' k1 i1, hq, i3.2.2, m3, i5]
      simp
    · rw [hq]
      exact (tiles_iff hd hf hl hlt k3).mpr k2
    · rw [hq]; exact k4
    · rw [hq]; exact k5
    · rw [hq]; exact k6
    · intro hc
      have h5 := m5 hc t.offset
      unfold CountersOk at h5 ⊢
      have hq0 : quadsOf (⟨t.quads.ofList st.leaves, st.perLevel, st.maxlevel, t.offset⟩ : Tree d α) = out := by
        unfold quadsOf
        rw [ofList_toList, m4]
      rw [hq]
      rw [hq0] at h5
      dsimp only at h5 ⊢
      rw [i3.1, i3.2.1]
      exact h5
    · rw [hq]
      unfold quadsOf
      rw [ofList_toList, m4]
    · rw [hq]; exact i7

theorem becomes_sum {init : Quad d → σ → α × σ} {replace : List (Leaf d α) → List (Leaf d α) → σ → (ℕ → α) × σ}
    {ps : List (Quad d)} {O : Quad d → List (Leaf d α)} {S : Quad d → List (ReplaceCall d α)}
    {M : Type} [AddCommMonoid M] {w : Leaf d α → M} (hw : Conserves replace w) : ∀ (L : List (Leaf d α)),
    (∀ x ∈ L, Becomes init replace ps x (O x.q) (S x.q)) → ((L.flatMap fun x => O x.q).map w).sum = (L.map w).sum := by
  intro L h3
  induction L with
  | nil => rfl
  | cons x L ih =>
    rw [List.flatMap_cons, List.map_append, List.sum_append, ih fun y hy => h3 y (by simp [hy]), List.map_cons, List.sum_cons,
      (h3 x (by simp)).conserve M w hw]

/-- C97: a quantity that the callback conserves whenever it replaces a leaf by its children, for example the mass that
belongs to the leaves, is the same for all leaves together before and after. -/
theorem C97_conserve_subtree (hdim : d = 2 ∨ d = 3) {bs : (Quad d → ℤ) → List (Quad d) → Option ℕ} (hbs : Finds bs)
    (init : Quad d → σ → α × σ) (replace : List (Leaf d α) → List (Leaf d α) → σ → (ℕ → α) × σ)
    (k : ℕ) (hk : 1 ≤ k) (hkd : k ≤ d) (fdesc ldesc : Quad d)
    (hf : Valid fdesc) (hf9 : fdesc.level = 29) (hl : Valid ldesc) (hl9 : ldesc.level = 29)
    (t : Tree d α) (s : σ) (hne : quadsOf t ≠ []) (hT : Tiles fdesc ldesc (quadsOf t))
    {M : Type} [AddCommMonoid M] (w : Leaf d α → M) (hw : Conserves replace w) :
    ∃ t' s' fr, balanceSubtreeExt bs (watchInit init) (watchReplace replace) k fdesc ldesc t (s, []) = some (t', s', fr) ∧
      (t'.quads.toList.map w).sum = (t.quads.toList.map w).sum := by
  obtain ⟨t', s', T, h1, -, -, -, -, -, -, -, O, S, h2, -, h3⟩ := C97_replace_subtree hdim hbs init replace k hk hkd fdesc ldesc
    hf hf9 hl hl9 t s hne hT
  refine ⟨t', _, _, h1, ?_⟩
  rw [h2]
  exact becomes_sum hw _ h3

/-- Non-vacuity: the tree of `C95_first_pass` is such a tree.  A callback that gives each child a fourth of the mass, in
units of the smallest quadrants, conserves the mass. -/
example : quadsOf sevenTree ≠ [] ∧ Tiles (firstDesc (root 2) 29) (lastDesc (child (root 2) 0) 29) (quadsOf sevenTree) ∧
    Conserves (d := 2) (α := ℚ) (σ := Unit) (fun out _ _ => (fun _ => ((out.head?).elim 0 Leaf.data) / 4, ())) Leaf.data := by
  refine ⟨by rw [sevenTree_quads]; simp, sevenTree_tiles, ?_⟩
  intro x inc s h
  have hlen : inc.length = 4 := by
    have := congrArg List.length h
    simpa [kids] using this
  match inc, hlen with
  | [a, b, c, e], _ =>
    simp [List.mapIdx_cons]
    ring

/-- C97, for `p4est_balance_border` with a replace callback.  The leaves are those of C92, the freed leaves are those that
are gone, and the counters stay right.  What becomes of each leaf and which calls are made is as in
`C97_replace_subtree`; `T0` are earlier calls. -/
theorem C97_replace_border (hdim : d = 2 ∨ d = 3) {bs : (Quad d → ℤ) → List (Quad d) → Option ℕ} (hbs : Searches bs)
    (init : Quad d → σ → α × σ) (replace : List (Leaf d α) → List (Leaf d α) → σ → (ℕ → α) × σ)
    (k : ℕ) (hk : 1 ≤ k) (hkd : k ≤ d) (fdesc ldesc : Quad d)
    (hf : Valid fdesc) (hf9 : fdesc.level = 29) (hl : Valid ldesc) (hl9 : ldesc.level = 29)
    (t : Tree d α) (s : σ) (T0 : List (ReplaceCall d α)) (hne : quadsOf t ≠ []) (hT : Tiles fdesc ldesc (quadsOf t))
    (B : List (Quad d)) (hB : BorderOf fdesc ldesc (quadsOf t) B) :
    ∃ t' s' T, balanceBorderExt bs (watchInit init) (watchReplace replace) k fdesc ldesc B t (s, T0) =
        some (t', (s', T0 ++ T), dropped t.quads.toList (quadsOf t')) ∧
      Tiles fdesc ldesc (quadsOf t') ∧ AsFineAs (quadsOf t') (quadsOf t) ∧ AsFineAs (quadsOf t') B ∧
      (∀ q ∈ quadsOf t, GradedBy k {u | u ∈ quadsOf t' ∧ Cells u ⊆ Cells q}) ∧
      (∀ q ∈ quadsOf t, ∀ r, Aligned r → r.level ≤ 29 → Cells r ⊆ Cells q →
        ((∃ u ∈ quadsOf t', Cells r ⊆ Cells u) ↔ ¬ Divides (Cells q) k (SeedsIn B q) r)) ∧
      t'.offset = t.offset ∧ (CountersOk t → CountersOk t') ∧
      (∃ t0 s0 fr, balanceBorder bs init k fdesc ldesc B t s = some (t0, s0, fr) ∧ quadsOf t0 = quadsOf t') ∧
      ∃ (O : Quad d → List (Leaf d α)) (S : Quad d → List (ReplaceCall d α)),
        t'.quads.toList = t.quads.toList.flatMap (fun x => O x.q) ∧ T = t.quads.toList.flatMap (fun x => S x.q) ∧
        ∀ x ∈ t.quads.toList, Becomes init replace (quadsOf t') x (O x.q) (S x.q) := by
  have hd : 0 < d := by omega
  obtain ⟨tp, sp, g1, g2, g3, g4, g5, g6, g7, g8, g9⟩ := C92_balance_border hdim hbs init k hk hkd fdesc ldesc hf hf9 hl hl9
    t s hne hT B hB
  have hin : ∀ q ∈ quadsOf t, start fdesc ≤ start q ∧ stop q ≤ stop ldesc := fun q hq =>
    (section_iff hd (hT.valid q hq)).mp (by rw [← hT.cover]; exact fun p hp => ⟨q, hq, hp⟩)
  have hlt : start fdesc < stop ldesc := by
    obtain ⟨q, hq⟩ := List.exists_mem_of_ne_nil _ hne
    have := hin q hq
    have := start_lt_stop q
    omega
  have hVp := (tiles_iff hd hf hl hlt.le hT.valid).mp hT
  have hVv : ∀ v ∈ t.quads.toList, Valid v.q := fun v hv => hT.valid v.q (List.mem_map_of_mem hv)
  -- from the fates of the leaves to functions
  have conv : ∀ Z : List (Fate d α), Z.map Prod.fst = t.quads.toList → (∀ z ∈ Z, FateOk init replace z) →
      ∀ ps, (Z.flatMap fun z => z.2.1).map Leaf.q = ps →
      ∃ (O : Quad d → List (Leaf d α)) (S : Quad d → List (ReplaceCall d α)),
        (Z.flatMap fun z => z.2.1) = t.quads.toList.flatMap (fun x => O x.q) ∧
        (Z.flatMap fun z => z.2.2) = t.quads.toList.flatMap (fun x => S x.q) ∧
        ∀ x ∈ t.quads.toList, Becomes init replace ps x (O x.q) (S x.q) := by
    intro Z z1 z2 ps z3
    have hZp : Path (start fdesc) (Z.map fun z => z.1.q) (stop ldesc) := by
      have : (Z.map fun z => z.1.q) = quadsOf t := by unfold quadsOf; rw [← z1, List.map_map]; rfl
      rw [this]; exact hVp
    have hZv : ∀ z ∈ Z, Valid z.1.q := fun z hz => hVv z.1 (by rw [← z1]; exact List.mem_map_of_mem hz)
    obtain ⟨O, S, hOS⟩ := fate_functions Z (path_nodup hZp)
    have hb := fate_becomes hd hZp hZv z2
    rw [z3] at hb
    refine ⟨O, S, ?_, ?_, ?_⟩
    · rw [← z1, List.flatMap_map]
      exact List.flatMap_congr fun z hz => (hOS z hz).1.symm
    · rw [← z1, List.flatMap_map]
      exact List.flatMap_congr fun z hz => (hOS z hz).2.symm
    · intro x hx
      rw [← z1] at hx
      obtain ⟨z, hz, rfl⟩ := List.mem_map.mp hx
      rw [(hOS z hz).1, (hOS z hz).2]
      exact hb z hz
  cases hS : sortQuads B with
  | nil =>
    have he : balanceBorder bs init k fdesc ldesc B t s = some (t, s, []) := by
      unfold balanceBorder
      rw [hS]
    have g0 := g1
    rw [he] at g1
    simp only [Option.some.injEq, Prod.mk.injEq] at g1
    obtain ⟨rfl, -, e3⟩ := g1
    obtain ⟨Z, z1, z2, z3, z4⟩ := fate_keep init replace t.quads.toList
    obtain ⟨O, S, c1, c2, c3⟩ := conv Z z1 z4 (quadsOf t) (by rw [z2]; rfl)
    refine ⟨t, s, [], ?_, g2, g3, g4, g5, g6, g8, g9, ⟨_, _, _, g0, rfl⟩, O, S, by rw [← c1, z2], by rw [← c2, z3], c3⟩
    unfold balanceBorderExt
    rw [hS, ← e3, List.append_nil]
  | cons p ps =>
    have hext : ∀ x ∈ p :: ps, Extended x := fun x hx => hB.extended x (mem_sortQuads.mp (by rw [hS]; exact hx))
    have hsort : SortedWeak (p :: ps) := by
      rw [← hS]
      exact sortQuads_sorted hd fun x hx => (hB.extended x hx).int32
    obtain ⟨w1, w2⟩ := dropRepeats_spec hd (fun x hx => (hext x hx).int32) hsort
    obtain ⟨W, hW⟩ : ∃ W, dropRepeats p ps = W := ⟨_, rfl⟩
    rw [hW] at w1 w2
    have hWB : ∀ x, x ∈ W ↔ x ∈ B := fun x => by rw [w2, ← hS, mem_sortQuads]
    have hinv : BorderInv fdesc ldesc (start fdesc) W t.quads.toList := by
      refine ⟨hVp, le_rfl, hVv, w1,
        fun w hw => ⟨(hB.extended w ((hWB w).mp hw)).2.1, (hB.extended w ((hWB w).mp hw)).int32⟩, ?_⟩
      intro w hw
      have hwB := (hWB w).mp hw
      have hwe := hB.extended w hwB
      rcases hB.cases w hwB with c | c | ⟨c1, v, c2, c3, c4⟩
      · exact Or.inl (border_off hlt hf hwe c)
      · exact Or.inr (Or.inl c)
      · exact Or.inr (Or.inr ⟨valid_subset (hT.valid v c2) hwe.2.1 (by have := hwe.1; omega) (c4.1 (corner_mem w)),
          c1, v, c2, (hWB v).mpr c3, c4⟩)
    obtain ⟨-, V', -, -, -, -, N, r4⟩ := borderLoop_spec hdim hbs init hk (borderBound_eq hdim hk hkd) hf hf9 hl hl9
      W.length W ⟨[], t.perLevel, t.maxlevel, s, []⟩ t.quads.toList (start fdesc) le_rfl hinv
    obtain ⟨st', m, s', Z, i1, i2, i3, i4, i5, i6, i7, i8⟩ := borderRun_replace hd init replace r4
      ⟨[], t.perLevel, t.maxlevel, (s, T0), []⟩ ⟨[], t.perLevel, t.maxlevel, s, []⟩ ⟨rfl, rfl, rfl⟩ rfl
    have he : balanceBorder bs init k fdesc ldesc B t s =
        some (⟨t.quads.ofList (m.leaves ++ V'), m.perLevel, m.maxlevel, t.offset⟩, m.s, m.freed) := by
      unfold balanceBorder
      rw [hS]
      dsimp only
      rw [hW, obind i2]
    have g0 := g1
    rw [he] at g1
    simp only [Option.some.injEq, Prod.mk.injEq] at g1
    obtain ⟨e1, -, e3⟩ := g1
    have hqm : quadsOf tp = (m.leaves ++ V').map Leaf.q := by
      rw [← e1]
      unfold quadsOf
      rw [ofList_toList]
    have hq : quadsOf (⟨t.quads.ofList (st'.leaves ++ V'), st'.perLevel, st'.maxlevel, t.offset⟩ : Tree d α) = quadsOf tp := by
      rw [hqm]
      unfold quadsOf
      rw [ofList_toList, List.map_append, List.map_append, i4]
    have hlv : st'.leaves ++ V' = Z.flatMap fun z => z.2.1 := by rw [i6]; rfl
    obtain ⟨O, S, c1, c2, c3⟩ := conv Z i5 i8 (quadsOf tp) (by rw [← hlv, ← hq]; unfold quadsOf; rw [ofList_toList])
    refine ⟨⟨t.quads.ofList (st'.leaves ++ V'), st'.perLevel, st'.maxlevel, t.offset⟩, s', Z.flatMap fun z => z.2.2,
      ?_, ?_, ?_, ?_, ?_, ?_, rfl, ?_, ⟨_, _, _, g0, hq.symm⟩, O, S, ?_, c2, ?_⟩
    · rw [hq, ← e3, ← i3.2.2]
      unfold balanceBorderExt
      rw [hS]
      dsimp only
      rw [hW, obind i1]
      dsimp only
      rw [i7]
    · rw [hq]; exact g2
    · rw [hq]; exact g3
    · rw [hq]; exact g4
    · rw [hq]; exact g5
    · rw [hq]; exact g6
    · intro hc
      have h9 := g9 hc
      unfold CountersOk at h9 ⊢
      rw [hq]
      have h1 : tp.perLevel = m.perLevel := by rw [← e1]
      have h2 : tp.maxlevel = m.maxlevel := by rw [← e1]
      rw [h1, h2] at h9
      dsimp only
      rw [i3.1, i3.2.1]
      exact h9
    · rw [ofList_toList, hlv, c1]
    · rw [hq]; exact c3

/-- C97, for `p4est_balance_border`: a quantity that the callback conserves whenever it replaces a leaf by its children
is the same for all leaves together before and after. -/
theorem C97_conserve_border (hdim : d = 2 ∨ d = 3) {bs : (Quad d → ℤ) → List (Quad d) → Option ℕ} (hbs : Searches bs)
    (init : Quad d → σ → α × σ) (replace : List (Leaf d α) → List (Leaf d α) → σ → (ℕ → α) × σ)
    (k : ℕ) (hk : 1 ≤ k) (hkd : k ≤ d) (fdesc ldesc : Quad d)
    (hf : Valid fdesc) (hf9 : fdesc.level = 29) (hl : Valid ldesc) (hl9 : ldesc.level = 29)
    (t : Tree d α) (s : σ) (hne : quadsOf t ≠ []) (hT : Tiles fdesc ldesc (quadsOf t))
    (B : List (Quad d)) (hB : BorderOf fdesc ldesc (quadsOf t) B)
    {M : Type} [AddCommMonoid M] (w : Leaf d α → M) (hw : Conserves replace w) :
    ∃ t' s' fr, balanceBorderExt bs (watchInit init) (watchReplace replace) k fdesc ldesc B t (s, []) = some (t', s', fr) ∧
      (t'.quads.toList.map w).sum = (t.quads.toList.map w).sum := by
  obtain ⟨t', s', T, h1, -, -, -, -, -, -, -, -, O, S, h2, -, h3⟩ := C97_replace_border hdim hbs init replace k hk hkd fdesc
    ldesc hf hf9 hl hl9 t s [] hne hT B hB
  refine ⟨t', _, _, h1, ?_⟩
  rw [h2]
  exact becomes_sum hw _ h3

/-- C97, for both passes of `p4est_balance_ext` over a tree: `p4est_balance_subtree_ext`, and then `p4est_balance_border`
with any border `B` that fits to the leaves then.  Together the calls of both passes tell how each leaf `x` becomes the
leaves `O x.q`: the quadrants that the second pass divides are those that came in with a call of the first pass, with the
data written then.  A quantity that the callback conserves in each call is the same for all leaves before and after. -/
theorem C97_replace (hdim : d = 2 ∨ d = 3) {bs : (Quad d → ℤ) → List (Quad d) → Option ℕ} (hbs : Searches bs)
    (init : Quad d → σ → α × σ) (replace : List (Leaf d α) → List (Leaf d α) → σ → (ℕ → α) × σ)
    (k : ℕ) (hk : 1 ≤ k) (hkd : k ≤ d) (fdesc ldesc : Quad d)
    (hf : Valid fdesc) (hf9 : fdesc.level = 29) (hl : Valid ldesc) (hl9 : ldesc.level = 29)
    (t : Tree d α) (s : σ) (hne : quadsOf t ≠ []) (hT : Tiles fdesc ldesc (quadsOf t)) :
    ∃ t1 s1 T1, balanceSubtreeExt bs (watchInit init) (watchReplace replace) k fdesc ldesc t (s, []) =
        some (t1, (s1, T1), dropped t.quads.toList (quadsOf t1)) ∧ Tiles fdesc ldesc (quadsOf t1) ∧ Balanced k (quadsOf t1) ∧
      (∃ t0 s0 fr, balanceSubtree bs init k fdesc ldesc t s = some (t0, s0, fr) ∧ quadsOf t0 = quadsOf t1) ∧
      ∀ B, BorderOf fdesc ldesc (quadsOf t1) B →
        ∃ t2 s2 T2, balanceBorderExt bs (watchInit init) (watchReplace replace) k fdesc ldesc B t1 (s1, T1) =
            some (t2, (s2, T1 ++ T2), dropped t1.quads.toList (quadsOf t2)) ∧
          Tiles fdesc ldesc (quadsOf t2) ∧ AsFineAs (quadsOf t2) (quadsOf t1) ∧ AsFineAs (quadsOf t2) B ∧
          (∀ q ∈ quadsOf t1, ∀ r, Aligned r → r.level ≤ 29 → Cells r ⊆ Cells q →
            ((∃ u ∈ quadsOf t2, Cells r ⊆ Cells u) ↔ ¬ Divides (Cells q) k (SeedsIn B q) r)) ∧
          (CountersOk t → CountersOk t2) ∧
          (∃ (O : Quad d → List (Leaf d α)) (S1 S2 : Quad d → List (ReplaceCall d α)),
            t2.quads.toList = t.quads.toList.flatMap (fun x => O x.q) ∧
            T1 = t.quads.toList.flatMap (fun x => S1 x.q) ∧ T2 = t.quads.toList.flatMap (fun x => S2 x.q) ∧
            ∀ x ∈ t.quads.toList, Becomes init replace (quadsOf t2) x (O x.q) (S1 x.q ++ S2 x.q)) ∧
          ∀ (M : Type) [AddCommMonoid M] (w : Leaf d α → M), Conserves replace w →
            (t2.quads.toList.map w).sum = (t.quads.toList.map w).sum := by
  have hd : 0 < d := by omega
  obtain ⟨t1, s1, T1, a1, a2, a3, a4, -, -, a5, a9, O1, S1, a6, a7, a8⟩ := C97_replace_subtree hdim hbs.1 init replace k hk hkd fdesc
    ldesc hf hf9 hl hl9 t s hne hT
  have hin : ∀ q ∈ quadsOf t, start fdesc ≤ start q ∧ stop q ≤ stop ldesc := fun q hq =>
    (section_iff hd (hT.valid q hq)).mp (by rw [← hT.cover]; exact fun p hp => ⟨q, hq, hp⟩)
  have hlt : start fdesc < stop ldesc := by
    obtain ⟨q, hq⟩ := List.exists_mem_of_ne_nil _ hne
    have := hin q hq
    have := start_lt_stop q
    omega
  have hVp := (tiles_iff hd hf hl hlt.le hT.valid).mp hT
  have hne1 : quadsOf t1 ≠ [] := path_ne_nil ((tiles_iff hd hf hl hlt.le a2.valid).mp a2) hlt
  refine ⟨t1, s1, T1, a1, a2, a4, a9, ?_⟩
  intro B hB
  obtain ⟨t2, s2, T2, b1, b2, b3, b4, -, b9, -, b5, -, O2, S2, b6, b7, b8⟩ := C97_replace_border hdim hbs init replace k hk hkd
    fdesc ldesc hf hf9 hl hl9 t1 s1 T1 hne1 a2 B hB
  have e1 : (t.quads.toList.flatMap fun x => O1 x.q).map Leaf.q = quadsOf t1 := by rw [← a6]; rfl
  have e2 : ((t.quads.toList.flatMap fun x => O1 x.q).flatMap fun u => O2 u.q).map Leaf.q = quadsOf t2 := by
    rw [← a6, ← b6]; rfl
  have hb := becomes_trans hd e1 e2 hf hl hne1 a2 b2 hVp (fun x hx => hT.valid _ (List.mem_map_of_mem hx)) a8
    (by rw [← a6]; exact b8)
  have hO : t2.quads.toList = t.quads.toList.flatMap fun x => (O1 x.q).flatMap fun u => O2 u.q := by
    rw [b6, a6, List.flatMap_assoc]
  refine ⟨t2, s2, T2, b1, b2, b3, b4, b9, fun h => b5 (a5 h), ⟨fun q => (O1 q).flatMap fun u => O2 u.q, S1,
    fun q => (O1 q).flatMap fun u => S2 u.q, hO, a7, by rw [b7, a6, List.flatMap_assoc], hb⟩, ?_⟩
  intro M _ w hw
  rw [hO]
  exact becomes_sum (O := fun q => (O1 q).flatMap fun u => O2 u.q)
    (S := fun q => S1 q ++ (O1 q).flatMap fun u => S2 u.q) hw _ hb

/-- Non-vacuity: the tree and the border of C92 meet the hypotheses, and there are leaves that are divided. -/
example : quadsOf quarterTree ≠ [] ∧ Tiles (firstDesc (root 2) 29) (lastDesc (root 2) 29) (quadsOf quarterTree) ∧
    BorderOf (firstDesc (root 2) 29) (lastDesc (root 2) 29) (quadsOf quarterTree) quarterBorder ∧
    Searches (d := 2) (fun f l => binSearch f l l.length 0 l.length) ∧
    Balanced 1 (quadsOf quarterTree) ∧
    ∃ b ∈ quarterBorder, isAncestor (child (root 2) 1) b = true :=
  ⟨fun h => absurd (congrArg List.length h) (by decide +kernel), quarterTree_tiles, quarterBorder_of, binSearch_searches,
    fun q hq r hr _ => by
      have h : ∀ q ∈ quadsOf quarterTree, q.level = 1 := by decide +kernel
      have := h q hq
      have := h r hr
      omega, by decide +kernel⟩

end P4est
