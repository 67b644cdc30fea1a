import Verif.Lemmas.BalanceMerge
import Verif.Props.SearchLocal

/-! # Properties C53 (completion of a subtree) and C54 (balance of a subtree) -/

namespace P4est
open Spec

variable {d : ℕ} {α σ : Type}

theorem section_iff (hd : 0 < d) {f l q : Quad d} (hq : Valid q) :
    Cells q ⊆ Section f l ↔ start f ≤ start q ∧ stop q ≤ stop l := by
  have hlt := start_lt_stop q
  have hle := valid_stop_le hd hq
  constructor
  · intro h
    obtain ⟨p, hp, he⟩ := curve_surj (d := d) (n := stop q - 1) (by omega)
    have h1 := h (corner_mem q)
    have h2 := h ((mem_iff_pos hq.aligned hq.int32 hp.int32).mpr ⟨by
      rw [he]; omega, by rw [he]; omega⟩)
    have h3 : start f ≤ start q := h1.2.1
    have h4 := h2.2.2
    rw [he] at h4
    omega
  · intro h p hp
    have hi := aligned_int32_cells hq.aligned hq.int32 hp
    have h1 := (mem_iff_pos hq.aligned hq.int32 hi).mp hp
    exact ⟨hi, by omega, by omega⟩

theorem tiles_iff (hd : 0 < d) {f l : Quad d} (hf : Valid f) (hl : Valid l) (h0 : start f ≤ stop l)
    {ls : List (Quad d)} (hv : ∀ q ∈ ls, Valid q) : Tiles f l ls ↔ Path (start f) ls (stop l) := by
  have he : ∀ q ∈ ls, Aligned q ∧ Int32 q.c := fun q hq => ⟨(hv q hq).aligned, (hv q hq).int32⟩
  constructor
  · intro h
    apply path_of_cover h0 (linear_stops hv h.linear)
    · intro q hq
      apply (section_iff hd (hv q hq)).mp
      rw [← h.cover]
      exact fun p hp => ⟨q, hq, hp⟩
    · intro n h1 h2
      have := valid_stop_le hd hl
      obtain ⟨p, hp, rfl⟩ := curve_surj (d := d) (n := n) (by omega)
      have h3 : p ∈ Cover ls := by rw [h.cover]; exact ⟨hp.int32, h1, h2⟩
      obtain ⟨q, hq, hm⟩ := h3
      exact ⟨q, hq, (mem_iff_pos (hv q hq).aligned (hv q hq).int32 hp.int32).mp hm⟩
  · intro h
    refine ⟨hv, h.gapless.linear fun q hq => (hv q hq).extended, ?_⟩
    ext p
    constructor
    · intro hp
      obtain ⟨q, hq, hm⟩ := hp
      have hi := aligned_int32_cells (hv q hq).aligned (hv q hq).int32 hm
      exact ⟨hi, (h.cover he hi).mp ⟨q, hq, hm⟩⟩
    · rintro ⟨hi, h1⟩
      exact (h.cover he hi).mpr h1

/-- The search over a list from the front is a legal `sc_array_bsearch`. -/
theorem findIdx_finds : Finds (d := d) fun f l => l.findIdx? fun q => f q = 0 := by
  intro f l i h
  rw [List.findIdx?_eq_some_iff_getElem] at h
  obtain ⟨h1, h2, -⟩ := h
  exact ⟨h1, by simpa using h2⟩

/-- The cases that are common to both functions. -/
theorem subtree_cases (hd : 0 < d) {fdesc ldesc : Quad d} (hf : Valid fdesc) (hf9 : fdesc.level = 29)
    (hl : Valid ldesc) (hl9 : ldesc.level = 29) {ls : List (Quad d)} (hne : ls ≠ [])
    (hv : ∀ q ∈ ls, Valid q) (hlin : Linear ls) (hin : ∀ q ∈ ls, Cells q ⊆ Section fdesc ldesc) :
    (ls = [nca fdesc ldesc] ∧ Path (start fdesc) ls (stop ldesc)) ∨
      SubRegion fdesc ldesc (nca fdesc ldesc) ls := by
  have hw : ∀ q ∈ ls, start fdesc ≤ start q ∧ stop q ≤ stop ldesc := fun q hq =>
    (section_iff hd (hv q hq)).mp (hin q hq)
  by_cases h : ls = [nca fdesc ldesc]
  · left
    refine ⟨h, ?_⟩
    obtain ⟨n1, n2, n3, -⟩ := C07_nca_valid hd fdesc ldesc hf hl
    have h1 := hw (nca fdesc ldesc) (by rw [h]; simp)
    have h2 := (valid_subset_iff hd n1 hf).mp n2
    have h3 := (valid_subset_iff hd n1 hl).mp n3
    rw [h]
    exact ⟨by omega, show stop _ = _ by omega⟩
  · right
    exact ⟨hf, hf9, hl, hl9, rfl, hv, hw, linear_stops hv hlin, h, hne⟩

theorem carried_self (init : Quad d → σ → α × σ) (L : List (Leaf d α)) (hn : (L.map Leaf.q).Nodup) (s : σ) :
    carried init L (L.map Leaf.q) s = (L, s) := by
  have hg : ∀ (M : List (Leaf d α)) (s : σ), (∀ x ∈ M, x ∈ L) → carried init L (M.map Leaf.q) s = (M, s) := by
    intro M
    induction M with
    | nil => intro s _; rfl
    | cons x M ih =>
      intro s h
      have hx : L.find? (fun y => y.q = x.q) = some x := by
        cases hf : L.find? (fun y => y.q = x.q) with
        | none =>
          rw [List.find?_eq_none] at hf
          have := hf x (h x (by simp))
          simp at this
        | some y =>
          have h1 := List.find?_some hf
          have h2 := List.mem_of_find?_eq_some hf
          simp only [decide_eq_true_eq] at h1
          rw [List.inj_on_of_nodup_map hn h2 (h x (by simp)) h1]
      rw [List.map_cons, carried_cons, hx]
      simp only [ih s (fun y hy => h y (by simp [hy]))]
  exact hg L s (fun x hx => hx)

theorem linear_nodup {ls : List (Quad d)} (hv : ∀ q ∈ ls, Valid q) (h : Linear ls) : ls.Nodup := by
  apply (linear_stops hv h).imp
  rintro a b hab rfl
  have := start_lt_stop a
  omega

/-- The merge, applied to the output of the kernel. -/
theorem merge_tree (hd : 0 < d) (init : Quad d → σ → α × σ) {t : Tree d α} {s : σ} {out : List (Quad d)} {a b : ℕ}
    (hne : quadsOf t ≠ []) (hp : Path a out b) (hov : ∀ u ∈ out, Valid u) (hv : ∀ q ∈ quadsOf t, Valid q)
    (hin : ∀ q ∈ quadsOf t, a ≤ start q ∧ stop q ≤ b)
    (hlin : (quadsOf t).Pairwise fun q r => stop q ≤ start r) (hf : AsFineAs out (quadsOf t)) :
    ∃ st, mergeLoop init t.quads.toList out ⟨[], t.perLevel, t.maxlevel, s, []⟩ = some st ∧
      (st.leaves, st.s) = carried init t.quads.toList out s ∧ st.freed = dropped t.quads.toList out ∧
      st.leaves.map Leaf.q = out ∧
      (CountersOk t → ∀ off, CountersOk (⟨t.quads.ofList st.leaves, st.perLevel, st.maxlevel, off⟩ : Tree d α)) := by
  obtain ⟨st, h1, h2⟩ := mergeLoop_spec hd init t.quads.toList out ⟨[], t.perLevel, t.maxlevel, s, []⟩ hp hov
    (fun x hx => hv x.q (List.mem_map_of_mem hx)) (fun x hx => hin x.q (List.mem_map_of_mem hx))
    (List.pairwise_map.mp hlin) (by
      intro p hp x hx
      have hxq : x.q ∈ quadsOf t := List.mem_map_of_mem hx
      rw [← Bool.not_eq_true, isAncestor_iff hd (hov p hp).aligned (hv _ hxq).aligned]
      exact hf p hp x.q hxq)
  have hlv : st.leaves = (carried init t.quads.toList out s).1 := by rw [h2.leaves]; simp
  have hq : st.leaves.map Leaf.q = out := by rw [hlv, carried_quads]
  refine ⟨st, h1, by rw [hlv, h2.state], by rw [h2.freed]; simp, hq, ?_⟩
  intro hc off
  have hqs : quadsOf (⟨t.quads.ofList st.leaves, st.perLevel, st.maxlevel, off⟩ : Tree d α) = out := by
    unfold quadsOf
    rw [ofList_toList, hq]
  unfold CountersOk
  rw [hqs]
  refine ⟨?_, ?_, ?_⟩
  · intro l
    have c1 := h2.count l
    have c2 := hc.1 l
    have c3 : t.quads.toList.countP (fun x => x.q.level = l) = (quadsOf t).countP (fun q => q.level = l) := by
      unfold quadsOf
      rw [List.countP_map]
      rfl
    dsimp only at *
    omega
  · intro q hq
    rcases h2.top q hq with h3 | h3
    · exact (hc.2.1 q h3).trans h2.maxle
    · exact h3
  · rcases h2.max with h3 | ⟨p, hp, h3⟩
    · dsimp only at h3
      rcases hc.2.2 with ⟨q, hq, h4⟩ | ⟨h4, h5⟩
      · left
        have hqi := hin q hq
        have hqv := hv q hq
        have hlt := start_lt_stop q
        obtain ⟨u, hu, hm⟩ := (hp.cover (fun r hr => ⟨(hov r hr).aligned, (hov r hr).int32⟩)
          hqv.int32).mpr ⟨hqi.1, by show start q < b; omega⟩
        refine ⟨u, hu, ?_⟩
        have huv := hov u hu
        have hul : u.level ≤ st.maxlevel := by
          rcases h2.top u hu with h5 | h5
          · exact (hc.2.1 u h5).trans h2.maxle
          · exact h5
        have hql : q.level ≤ u.level := by
          by_contra hcon
          have hsub : Cells q ⊆ Cells u := cells_subset huv.aligned hqv.aligned (by omega) hm
          exact hf u hu q hq ((valid_ssubset_iff hd huv hqv).mpr ⟨by omega, hsub⟩)
        dsimp only
        omega
      · exact absurd h4 hne
    · left; exact ⟨p, hp, h3⟩

/-- A tree is not changed if its only leaf is the smallest quadrant around it. -/
theorem completeOrBalance_single {bs : (Quad d → ℤ) → List (Quad d) → Option ℕ} {init : Quad d → σ → α × σ}
    {btype bound : ℕ} (hb : balanceBound d btype = some bound) {fdesc ldesc : Quad d} {t : Tree d α} {s : σ}
    (h : quadsOf t = [nca fdesc ldesc]) : completeOrBalance bs init btype fdesc ldesc t s = some (t, s, []) := by
  unfold completeOrBalance
  rw [obind hb]
  unfold quadsOf at h
  cases hL : t.quads.toList with
  | nil => rfl
  | cons p ps =>
    rw [hL] at h
    simp only [List.map_cons, List.cons.injEq, List.map_eq_nil_iff] at h
    obtain ⟨h1, rfl⟩ := h
    dsimp only
    rw [if_pos ⟨rfl, by rw [h1, isEqual_iff]⟩]

/-- Otherwise the kernel is called with the reduced list of leaves. -/
theorem completeOrBalance_run (hd : 0 < d) {bs : (Quad d → ℤ) → List (Quad d) → Option ℕ} {init : Quad d → σ → α × σ}
    {btype bound : ℕ} (hb : balanceBound d btype = some bound) {fdesc ldesc : Quad d} {t : Tree d α} {s : σ}
    (h : SubRegion fdesc ldesc (nca fdesc ldesc) (quadsOf t)) :
    ∃ R, Reduced (nca fdesc ldesc) (quadsOf t) R ∧
      ∀ out st, balanceKernel bs (nca fdesc ldesc) bound (some fdesc) (some ldesc) R = some out →
        mergeLoop init t.quads.toList out ⟨[], t.perLevel, t.maxlevel, s, []⟩ = some st →
        completeOrBalance bs init btype fdesc ldesc t s = some
          (⟨t.quads.ofList st.leaves, st.perLevel, st.maxlevel, t.offset⟩, st.s, st.freed) := by
  cases hL : t.quads.toList with
  | nil => exact absurd (by unfold quadsOf; rw [hL]; rfl) h.ne
  | cons p ps =>
    have hq : quadsOf t = p.q :: ps.map Leaf.q := by unfold quadsOf; rw [hL]; rfl
    rw [hq] at h ⊢
    refine ⟨_, reduce_spec hd h, fun out st hk hm => ?_⟩
    unfold completeOrBalance
    rw [obind hb, hL]
    dsimp only
    rw [if_neg, obind hk, obind hm]
    rintro ⟨h1, h2⟩
    rw [isEqual_iff] at h2
    have h3 : ps = [] := by simpa using h1
    exact h.not_dom (by rw [h2, h3]; rfl)

/-- C53. `p4est_complete_subtree` fills the part of the tree between its first and its last
descendant.  Let the tree hold a nonempty list of legal leaves of that part, in order and without
overlap, with gaps or without.  Afterwards the leaves cover exactly this part, in order and without
overlap.  No leaf is lost and the leaves keep their data.  The new leaves are initialized by the
callback, in their order.  The gaps are filled with the largest quadrants possible: every legal
quadrant of this part that does not properly contain one of the given leaves lies in a leaf.  The
counters of the tree stay consistent. -/
theorem C53_complete_subtree (hd : 0 < d) (hd3 : d ≤ 3) (bs : (Quad d → ℤ) → List (Quad d) → Option ℕ)
    (init : Quad d → σ → α × σ) (fdesc ldesc : Quad d) (hf : Valid fdesc) (hf9 : fdesc.level = 29)
    (hl : Valid ldesc) (hl9 : ldesc.level = 29) (t : Tree d α) (s : σ) (hne : quadsOf t ≠ [])
    (hv : ∀ q ∈ quadsOf t, Valid q) (hlin : Linear (quadsOf t))
    (hin : ∀ q ∈ quadsOf t, Cells q ⊆ Section fdesc ldesc) :
    ∃ t' s', completeSubtree bs init fdesc ldesc t s = some (t', s', []) ∧
      Tiles fdesc ldesc (quadsOf t') ∧
      (∀ x ∈ t.quads.toList, x ∈ t'.quads.toList) ∧
      (t'.quads.toList, s') = carried init t.quads.toList (quadsOf t') s ∧
      (∀ v, Valid v → Cells v ⊆ Section fdesc ldesc → (∀ q ∈ quadsOf t, ¬ Cells q ⊂ Cells v) →
        ∃ u ∈ quadsOf t', Cells v ⊆ Cells u) ∧
      t'.offset = t.offset ∧ (CountersOk t → CountersOk t') := by
  have hw : ∀ q ∈ quadsOf t, start fdesc ≤ start q ∧ stop q ≤ stop ldesc := fun q hq =>
    (section_iff hd (hv q hq)).mp (hin q hq)
  obtain ⟨q0, hq0⟩ := List.exists_mem_of_ne_nil _ hne
  have hlt : start fdesc ≤ stop ldesc := by
    have := hw q0 hq0
    have := start_lt_stop q0
    omega
  have inLeaf : ∀ {out : List (Quad d)}, (∀ u ∈ out, Valid u) → Path (start fdesc) out (stop ldesc) → ∀ v, Valid v →
      Cells v ⊆ Section fdesc ldesc → (∀ u ∈ out, ¬ Cells u ⊂ Cells v) → ∃ u ∈ out, Cells v ⊆ Cells u := by
    intro out hov hp v hvv hvs h
    have h1 := (section_iff hd hvv).mp hvs
    have h2 := start_lt_stop v
    obtain ⟨u, hu, hm⟩ := (hp.cover (fun r hr => ⟨(hov r hr).aligned, (hov r hr).int32⟩)
      hvv.int32).mpr ⟨h1.1, by show start v < _; omega⟩
    refine ⟨u, hu, ?_⟩
    rcases laminar (hov u hu).aligned hvv.aligned ⟨v.c, hm, corner_mem v⟩ with h3 | h3
    · exact h3
    · by_contra hc
      exact h u hu ⟨h3, hc⟩
  rcases subtree_cases hd hf hf9 hl hl9 hne hv hlin hin with ⟨h1, h2⟩ | h
  · refine ⟨t, s, completeOrBalance_single (bound := 1) rfl h1, (tiles_iff hd hf hl hlt hv).mpr h2, fun x hx => hx,
      ?_, ?_, rfl, id⟩
    · exact (carried_self init _ (linear_nodup hv hlin) s).symm
    · intro v hvv hvs hvq
      exact inLeaf hv h2 v hvv hvs hvq
  · obtain ⟨R, hR, hrun⟩ := completeOrBalance_run (bs := bs) (init := init) (btype := 0) (bound := 1) (s := s) hd rfl h
    obtain ⟨out, k1, k2, k3, k4, k5⟩ := kernel_complete hd hd3 bs h hR
    have hlinear : Linear out := k2.gapless.linear fun q hq => (k3 q hq).extended
    obtain ⟨st, m1, m2, m3, m4, m5⟩ := merge_tree hd init (s := s) hne k2 k3 hv hw (linear_stops hv hlin) (by
      intro u hu p hp hss
      have := linear_eq hlinear hu (k4 p hp) ⟨p.c, hss.1 (corner_mem p), corner_mem p⟩
      rw [this] at hss
      exact lt_irrefl _ hss)
    have hq : quadsOf (⟨t.quads.ofList st.leaves, st.perLevel, st.maxlevel, t.offset⟩ : Tree d α) = out := by
      unfold quadsOf
      rw [ofList_toList, m4]
    have hfr : st.freed = [] := by
      rw [m3]
      unfold dropped
      rw [List.filter_eq_nil_iff]
      intro x hx
      have := k4 x.q (List.mem_map_of_mem hx)
      simpa using this
    have hrun' := hrun out st k1 m1
    rw [hfr] at hrun'
    refine ⟨_, _, hrun', ?_, ?_, ?_, ?_, rfl, fun hc => m5 hc _⟩
    · rw [hq]
      exact (tiles_iff hd hf hl hlt k3).mpr k2
    · intro x hx
      have hxo := k4 x.q (List.mem_map_of_mem hx)
      rw [ofList_toList]
      have hlv : st.leaves = (carried init t.quads.toList out s).1 := congrArg Prod.fst m2
      rw [hlv]
      obtain ⟨l1, l2, rfl⟩ := List.append_of_mem hxo
      rw [carried_append, carried_cons]
      have hx' : t.quads.toList.find? (fun y => y.q = x.q) = some x := by
        cases hfd : t.quads.toList.find? (fun y => y.q = x.q) with
        | none =>
          rw [List.find?_eq_none] at hfd
          have := hfd x hx
          simp at this
        | some y =>
          have h1 := List.find?_some hfd
          have h2 := List.mem_of_find?_eq_some hfd
          simp only [decide_eq_true_eq] at h1
          rw [List.inj_on_of_nodup_map (linear_nodup hv hlin) h2 hx h1]
      rw [hx']
      simp
    · rw [hq, ofList_toList]
      exact m2
    · rw [hq]
      intro v hvv hvs hvq
      have h1 := (section_iff hd hvv).mp hvs
      exact inLeaf k3 k2 v hvv hvs (k5 v hvv h1.1 h1.2 hvq)

/-- C53 for a tree without local leaves: nothing is done. -/
theorem C53_complete_subtree_empty (bs : (Quad d → ℤ) → List (Quad d) → Option ℕ) (init : Quad d → σ → α × σ)
    (fdesc ldesc : Quad d) (t : Tree d α) (s : σ) (h : quadsOf t = []) :
    completeSubtree bs init fdesc ldesc t s = some (t, s, []) := by
  unfold completeSubtree completeOrBalance
  have : t.quads.toList = [] := by simpa [quadsOf] using h
  rw [obind (show balanceBound d 0 = some 1 from rfl), this]

/-- C54. `p4est_balance_subtree`.  Let the leaves of the tree cover the part between its first and its
last descendant, in order and without overlap.  Let `k` select the neighborhood: 1 for faces, 2 for
faces and corners (2D) or faces and edges (3D), 3 for faces, edges and corners (3D).  Afterwards the
leaves cover the same part, in order and without overlap.  No leaf is coarser than before.  The leaves
are balanced: neighbors differ by at most one level.  The refinement is the least one: no leaf of a
balanced complete tree that is as fine as the given leaves properly contains a leaf of the result.
Leaves that stay keep their data, the others are initialized by the callback, in their order, and the
leaves that are replaced are freed.  The counters of the tree stay consistent. -/
theorem C54_balance_subtree (hdim : d = 2 ∨ d = 3) {bs : (Quad d → ℤ) → List (Quad d) → Option ℕ} (hbs : Finds bs)
    (init : Quad d → σ → α × σ) (k : ℕ) (hk : 1 ≤ k) (hkd : k ≤ d) (fdesc ldesc : Quad d)
    (hf : Valid fdesc) (hf9 : fdesc.level = 29) (hl : Valid ldesc) (hl9 : ldesc.level = 29)
    (t : Tree d α) (s : σ) (hne : quadsOf t ≠ []) (hT : Tiles fdesc ldesc (quadsOf t)) :
    ∃ t' s', balanceSubtree bs init k fdesc ldesc t s =
        some (t', s', dropped t.quads.toList (quadsOf t')) ∧
      Tiles fdesc ldesc (quadsOf t') ∧ AsFineAs (quadsOf t') (quadsOf t) ∧ Balanced k (quadsOf t') ∧
      (∀ U, TreeComplete U → Balanced k U → AsFineAs U (quadsOf t) → AsFineAs U (quadsOf t')) ∧
      (t'.quads.toList, s') = carried init t.quads.toList (quadsOf t') s ∧
      t'.offset = t.offset ∧ (CountersOk t → CountersOk t') := by
  have hd : 0 < d := by omega
  have hv := hT.valid
  have hin : ∀ q ∈ quadsOf t, Cells q ⊆ Section fdesc ldesc := fun q hq => by
    rw [← hT.cover]
    exact fun p hp => ⟨q, hq, hp⟩
  have hw : ∀ q ∈ quadsOf t, start fdesc ≤ start q ∧ stop q ≤ stop ldesc := fun q hq =>
    (section_iff hd (hv q hq)).mp (hin q hq)
  obtain ⟨q0, hq0⟩ := List.exists_mem_of_ne_nil _ hne
  have hlt : start fdesc ≤ stop ldesc := by
    have := hw q0 hq0
    have := start_lt_stop q0
    omega
  obtain ⟨bound, hb⟩ : ∃ bound, balanceBound d k = some bound := by
    unfold balanceBound
    split_ifs <;> first | exact ⟨_, rfl⟩ | omega
  rcases subtree_cases hd hf hf9 hl hl9 hne hv hT.linear hin with ⟨h1, h2⟩ | h
  · refine ⟨t, s, ?_, hT, ?_, ?_, fun U _ _ h => h, (carried_self init _ (linear_nodup hv hT.linear) s).symm, rfl, id⟩
    · have : dropped t.quads.toList (quadsOf t) = [] := by
        unfold dropped
        rw [List.filter_eq_nil_iff]
        intro x hx
        have : x.q ∈ quadsOf t := List.mem_map_of_mem hx
        simpa using this
      rw [this]
      exact completeOrBalance_single hb h1
    · intro q hq r hr hss
      rw [h1, List.mem_singleton] at hq hr
      rw [hq, hr] at hss
      exact lt_irrefl _ hss
    · intro q hq r hr _
      rw [h1, List.mem_singleton] at hq hr
      rw [hq, hr]
      omega
  · obtain ⟨R, hR, hrun⟩ := completeOrBalance_run (bs := bs) (init := init) (s := s) hd hb h
    obtain ⟨out, k1, k2, k3, k4, k5, k6, -⟩ := kernel_balance hdim hbs hk hb h hR ((tiles_iff hd hf hl hlt hv).mp hT)
    obtain ⟨st, m1, m2, m3, m4, m5⟩ := merge_tree hd init (s := s) hne k2 k3 hv hw (linear_stops hv hT.linear) k4
    have hq : quadsOf (⟨t.quads.ofList st.leaves, st.perLevel, st.maxlevel, t.offset⟩ : Tree d α) = out := by
      unfold quadsOf
      rw [ofList_toList, m4]
    refine ⟨⟨t.quads.ofList st.leaves, st.perLevel, st.maxlevel, t.offset⟩, st.s, ?_, ?_, ?_, ?_, ?_, ?_, rfl,
      fun hc => m5 hc _⟩
    · rw [hq, ← m3]
      exact hrun out st k1 m1
    · rw [hq]
      exact (tiles_iff hd hf hl hlt k3).mpr k2
    · rw [hq]; exact k4
    · rw [hq]; exact k5
    · rw [hq]; exact k6
    · rw [hq, ofList_toList]; exact m2

/-- C54 for a tree without local leaves: nothing is done. -/
theorem C54_balance_subtree_empty (bs : (Quad d → ℤ) → List (Quad d) → Option ℕ) (init : Quad d → σ → α × σ)
    (k : ℕ) (hdim : d = 2 ∨ d = 3) (hkd : k ≤ d) (fdesc ldesc : Quad d) (t : Tree d α) (s : σ)
    (h : quadsOf t = []) : balanceSubtree bs init k fdesc ldesc t s = some (t, s, []) := by
  unfold balanceSubtree completeOrBalance
  have : t.quads.toList = [] := by simpa [quadsOf] using h
  obtain ⟨bound, hb⟩ : ∃ bound, balanceBound d k = some bound := by
    unfold balanceBound
    split_ifs <;> first | exact ⟨_, rfl⟩ | omega
  rw [obind hb, this]

theorem root_ends (hd : 0 < d) {f l : Quad d} {ls : List (Quad d)} (h0 : start f = 0) (h1 : stop l = 2 ^ (d * 30)) :
    Tiles f l ls ↔ TreeComplete ls := by
  constructor
  · intro h
    refine ⟨h.valid, h.linear, fun p hp => ?_⟩
    have : p ∈ Cover ls := by
      rw [h.cover]
      exact ⟨hp.int32, by omega, by rw [h1]; exact curve_lt_of_inTree hp⟩
    exact this
  · intro h
    refine ⟨h.valid, h.linear, ?_⟩
    have hp := h.path hd
    have he : ∀ q ∈ ls, Aligned q ∧ Int32 q.c := fun q hq => ⟨(h.valid q hq).aligned, (h.valid q hq).int32⟩
    ext p
    constructor
    · rintro ⟨q, hq, hm⟩
      have hi := aligned_int32_cells (h.valid q hq).aligned (h.valid q hq).int32 hm
      have := (hp.cover he hi).mp ⟨q, hq, hm⟩
      exact ⟨hi, by omega, by omega⟩
    · rintro ⟨hi, h2, h3⟩
      exact (hp.cover he hi).mpr ⟨by omega, by omega⟩

/-- Two tilings of the same part of a tree that are as fine as each other are the same. -/
theorem path_unique (hd : 0 < d) {ls ms : List (Quad d)} {a b : ℕ} (h1 : Path a ls b) (h2 : Path a ms b)
    (v1 : ∀ q ∈ ls, Valid q) (v2 : ∀ q ∈ ms, Valid q) (f1 : AsFineAs ls ms) (f2 : AsFineAs ms ls) : ls = ms := by
  induction ls generalizing a ms with
  | nil =>
    cases ms with
    | nil => rfl
    | cons r ms =>
      have e : a = b := h1
      have := h2.2.le
      have := h2.1
      have := start_lt_stop r
      omega
  | cons q ls ih =>
    cases ms with
    | nil =>
      have e : a = b := h2
      have := h1.2.le
      have := h1.1
      have := start_lt_stop q
      omega
    | cons r ms =>
      obtain ⟨a1, a2⟩ := h1
      obtain ⟨b1, b2⟩ := h2
      have hq := v1 q (by simp)
      have hr := v2 r (by simp)
      have s1 := start_lt_stop q
      have s2 := start_lt_stop r
      have hqr : q = r := by
        rcases valid_cases hd hq hr with h | h | h | h | h
        · omega
        · omega
        · exact h
        · exact absurd ((isAncestor_iff hd hq.aligned hr.aligned).mp
            ((anc_interval hd hq hr).mpr ⟨h.1, h.2.1, h.2.2.1⟩)) (f1 q (by simp) r (by simp))
        · exact absurd ((isAncestor_iff hd hr.aligned hq.aligned).mp
            ((anc_interval hd hr hq).mpr ⟨h.1, h.2.1, h.2.2.1⟩)) (f2 r (by simp) q (by simp))
      subst hqr
      rw [ih a2 b2 (fun x hx => v1 x (by simp [hx])) (fun x hx => v2 x (by simp [hx]))
        (fun x hx y hy => f1 x (by simp [hx]) y (by simp [hy]))
        (fun x hx y hy => f2 x (by simp [hx]) y (by simp [hy]))]

/-- C54 for a tree that is local as a whole: the result is the coarsest balanced complete tree that is
as fine as the given one. -/
theorem C54_balance_tree (hdim : d = 2 ∨ d = 3) {bs : (Quad d → ℤ) → List (Quad d) → Option ℕ} (hbs : Finds bs)
    (init : Quad d → σ → α × σ) (k : ℕ) (hk : 1 ≤ k) (hkd : k ≤ d) (fdesc ldesc : Quad d)
    (hf : Valid fdesc) (hf9 : fdesc.level = 29) (hf0 : start fdesc = 0) (hl : Valid ldesc) (hl9 : ldesc.level = 29)
    (hl0 : stop ldesc = 2 ^ (d * 30)) (t : Tree d α) (s : σ) (hT : TreeComplete (quadsOf t)) :
    ∃ t' s', balanceSubtree bs init k fdesc ldesc t s =
        some (t', s', dropped t.quads.toList (quadsOf t')) ∧
      TreeComplete (quadsOf t') ∧ AsFineAs (quadsOf t') (quadsOf t) ∧ Balanced k (quadsOf t') ∧
      ∀ U, TreeComplete U → Balanced k U → AsFineAs U (quadsOf t) → AsFineAs U (quadsOf t') := by
  have hd : 0 < d := by omega
  have hne : quadsOf t ≠ [] := by
    intro h
    have hp := hT.path hd
    rw [h] at hp
    have h1 : 0 = 2 ^ (d * 30) := hp
    have : 0 < 2 ^ (d * 30) := by positivity
    omega
  obtain ⟨t', s', h1, h2, h3, h4, h5, -⟩ := C54_balance_subtree hdim hbs init k hk hkd fdesc ldesc hf hf9 hl hl9 t s hne
    ((root_ends hd hf0 hl0).mpr hT)
  exact ⟨t', s', h1, (root_ends hd hf0 hl0).mp h2, h3, h4, h5⟩

/-- C54 for a tree that is local as a whole: a balanced tree is not changed. -/
theorem C54_balance_unchanged (hdim : d = 2 ∨ d = 3) {bs : (Quad d → ℤ) → List (Quad d) → Option ℕ} (hbs : Finds bs)
    (init : Quad d → σ → α × σ) (k : ℕ) (hk : 1 ≤ k) (hkd : k ≤ d) (fdesc ldesc : Quad d)
    (hf : Valid fdesc) (hf9 : fdesc.level = 29) (hf0 : start fdesc = 0) (hl : Valid ldesc) (hl9 : ldesc.level = 29)
    (hl0 : stop ldesc = 2 ^ (d * 30)) (t : Tree d α) (s : σ) (hT : TreeComplete (quadsOf t))
    (hbal : Balanced k (quadsOf t)) :
    ∃ t', balanceSubtree bs init k fdesc ldesc t s = some (t', s, []) ∧ t'.quads.toList = t.quads.toList := by
  have hd : 0 < d := by omega
  have hne : quadsOf t ≠ [] := by
    intro h
    have hp := hT.path hd
    rw [h] at hp
    have h1 : 0 = 2 ^ (d * 30) := hp
    have : 0 < 2 ^ (d * 30) := by positivity
    omega
  obtain ⟨t', s', h1, h2, h3, -, h5, h6, -⟩ := C54_balance_subtree hdim hbs init k hk hkd fdesc ldesc hf hf9 hl hl9 t s
    hne ((root_ends hd hf0 hl0).mpr hT)
  have hT' := (root_ends hd hf0 hl0).mp h2
  have heq : quadsOf t' = quadsOf t := path_unique hd (hT'.path hd) (hT.path hd) hT'.valid hT.valid h3
    (h5 _ hT hbal (by
      intro q hq r hr hss
      have := linear_eq hT.linear hq hr ⟨r.c, hss.1 (corner_mem r), corner_mem r⟩
      rw [this] at hss
      exact lt_irrefl _ hss))
  rw [heq] at h1 h6
  have hc := carried_self init _ (linear_nodup hT.valid hT.linear) s
  have h7 := h6.trans hc
  have hdr : dropped t.quads.toList (quadsOf t) = [] := by
    unfold dropped
    rw [List.filter_eq_nil_iff]
    intro x hx
    have : x.q ∈ quadsOf t := List.mem_map_of_mem hx
    simpa using this
  rw [hdr, show s' = s from congrArg Prod.snd h7] at h1
  exact ⟨t', h1, congrArg Prod.fst h7⟩

/-! ## Gaps -/

theorem balanceLevels_zero (bs : (Quad d → ℤ) → List (Quad d) → Option ℕ) (dom : Quad d) (bound : ℕ)
    (cur inl : List (Mark d)) (outs : List (List (Mark d))) :
    balanceLevels bs dom bound 0 cur inl outs = some (inl, outs) := rfl

/-- If the leaves are at most two levels below the smallest quadrant around the region, then the
balance phase does nothing. -/
theorem balanceKernel_shallow (bs : (Quad d → ℤ) → List (Quad d) → Option ℕ) (dom : Quad d) (bound : ℕ)
    (first last : Option (Quad d)) (inl : List (Quad d))
    (h : inl.foldl (fun m q => max m q.level) (dom.level + 1) ≤ dom.level + 2) :
    balanceKernel bs dom bound first last inl = balanceKernel bs dom 1 first last inl := by
  unfold balanceKernel
  dsimp only
  congr 1
  funext f
  congr 1
  funext l
  by_cases hb : bound > 1
  · rw [if_pos hb, if_neg (by omega)]
    have : balancePhase bs dom bound (inl.foldl (fun m q => max m q.level) (dom.level + 1)) f.1 first last l = some l := by
      unfold balancePhase
      rw [show inl.foldl (fun m q => max m q.level) (dom.level + 1) - (dom.level + 2) = 0 by omega, balanceLevels_zero]
      simp [List.filter_map, Function.comp_def]
    rw [obind this]
  · rw [if_neg hb, if_neg (by omega)]

/-- A tree with a gap before its only leaf, which is a child of the root. -/
def gapTree : Tree 2 Unit := ⟨⟨fun _ => ⟨child (root 2) 2, ()⟩, 1⟩, fun l => if l = 1 then 1 else 0, 1, 0⟩

/-- The first quadrant of the part of the tree to be balanced (at level 4). -/
def gapFirst : Quad 2 := child (child (child (child (root 2) 1) 2) 3) 3

/-- The hypotheses of C53 hold of the example, and `p4est_balance_subtree` does the same as
`p4est_complete_subtree`. -/
theorem gap_example (bs : (Quad 2 → ℤ) → List (Quad 2) → Option ℕ) (k : ℕ) (hk : 1 ≤ k) (hk2 : k ≤ 2) :
    Valid (firstDesc gapFirst 29) ∧ Valid (lastDesc (root 2) 29) ∧ (∀ q ∈ quadsOf gapTree, Valid q) ∧
    Linear (quadsOf gapTree) ∧
    (∀ q ∈ quadsOf gapTree, Cells q ⊆ Section (firstDesc gapFirst 29) (lastDesc (root 2) 29)) ∧
    CountersOk gapTree ∧
    balanceSubtree bs (fun _ (s : Unit) => ((), s)) k (firstDesc gapFirst 29) (lastDesc (root 2) 29) gapTree () =
      completeSubtree bs (fun _ (s : Unit) => ((), s)) (firstDesc gapFirst 29) (lastDesc (root 2) 29) gapTree () := by
  have hq : quadsOf gapTree = [child (root 2) 2] := rfl
  have hv : Valid (child (root 2) 2) := by rw [← isValid_iff]; decide +kernel
  refine ⟨by rw [← isValid_iff]; decide +kernel, by rw [← isValid_iff]; decide +kernel, ?_, ?_, ?_, ?_, ?_⟩
  · rw [hq]; simpa using hv
  · rw [hq]; exact List.pairwise_singleton _ _
  · rw [hq]
    intro q hq
    rw [List.mem_singleton] at hq
    subst hq
    rw [section_iff (by decide) hv]
    decide +kernel
  · unfold CountersOk
    rw [hq]
    refine ⟨fun l => ?_, ?_, ?_⟩
    · by_cases h1 : l = 1
      · subst h1; rfl
      · have : ¬ (root 2).level + 1 = l := fun h => h1 (h ▸ rfl)
        simp [gapTree, List.countP_cons, h1, this]
    · intro q hq
      rw [List.mem_singleton] at hq
      subst hq
      decide
    · left; exact ⟨child (root 2) 2, by simp, rfl⟩
  · unfold balanceSubtree completeSubtree completeOrBalance
    have hb : ∃ bound, balanceBound 2 k = some bound := by
      unfold balanceBound
      split_ifs <;> first | exact ⟨_, rfl⟩ | omega
    obtain ⟨bound, hb⟩ := hb
    rw [obind hb, obind (show balanceBound 2 0 = some 1 from rfl)]
    have hL : gapTree.quads.toList = [⟨child (root 2) 2, ()⟩] := rfl
    rw [hL]
    dsimp only
    rw [List.map_nil, balanceKernel_shallow bs _ bound]
    decide +kernel

/-- C54 needs that there are no gaps: with a gap at the front of the part to be balanced
`p4est_balance_subtree` leaves neighbors across a face that differ by three levels. -/
theorem C54_gap_not_balanced (bs : (Quad 2 → ℤ) → List (Quad 2) → Option ℕ) (k : ℕ) (hk : 1 ≤ k) (hk2 : k ≤ 2) :
    ∃ t' s', balanceSubtree bs (fun _ (s : Unit) => ((), s)) k (firstDesc gapFirst 29) (lastDesc (root 2) 29) gapTree ()
        = some (t', s', []) ∧
      Tiles (firstDesc gapFirst 29) (lastDesc (root 2) 29) (quadsOf t') ∧ ¬ Balanced k (quadsOf t') := by
  obtain ⟨g1, g2, g3, g4, g5, -, g7⟩ := gap_example bs k hk hk2
  obtain ⟨t', s', h1, h2, h3, -, h5, -⟩ := C53_complete_subtree (by decide) (by decide) bs (fun _ (s : Unit) => ((), s))
    (firstDesc gapFirst 29) (lastDesc (root 2) 29) g1 rfl g2 rfl gapTree () (by
      rw [show quadsOf gapTree = [child (root 2) 2] from rfl]; simp) g3 g4 g5
  refine ⟨t', s', g7.trans h1, h2, ?_⟩
  have hq : quadsOf gapTree = [child (root 2) 2] := rfl
  have sub : ∀ v : Quad 2, isValid v = true → start (firstDesc gapFirst 29) ≤ start v →
      stop v ≤ stop (lastDesc (root 2) 29) → isAncestor v (child (root 2) 2) = false →
      ∃ u ∈ quadsOf t', Cells v ⊆ Cells u := by
    intro v hv a1 a2 a3
    rw [isValid_iff] at hv
    apply h5 v hv ((section_iff (by decide) hv).mpr ⟨a1, a2⟩)
    intro q hqq
    rw [hq, List.mem_singleton] at hqq
    subst hqq
    rw [← isAncestor_iff (by decide) hv.aligned (g3 _ (by rw [hq]; simp)).aligned, a3]
    simp
  obtain ⟨u, hu, hu1⟩ := sub gapFirst (by decide +kernel) (by decide +kernel) (by decide +kernel) (by decide +kernel)
  obtain ⟨w, hw, hw1⟩ := sub (child (root 2) 3) (by decide +kernel) (by decide +kernel) (by decide +kernel)
    (by decide +kernel)
  have hgv : Valid gapFirst := by rw [← isValid_iff]; decide +kernel
  have hcv : Valid (child (root 2) 3) := by rw [← isValid_iff]; decide +kernel
  have huv := h2.valid u hu
  have hwv := h2.valid w hw
  have hin : ∀ x ∈ quadsOf t', start (firstDesc gapFirst 29) ≤ start x := fun x hx =>
    ((section_iff (by decide) (h2.valid x hx)).mp (by
      rw [← h2.cover]; exact fun p hp => ⟨x, hx, hp⟩)).1
  -- the first leaf cannot be larger
  have key : ∀ x v : Quad 2, Valid x → Valid v → 0 < v.level → start (firstDesc gapFirst 29) ≤ start x →
      Cells v ⊆ Cells x → start (parent v) < start (firstDesc gapFirst 29) → x = v := by
    intro x v hx hv hv0 h1 h2 h3
    by_contra hne
    have h4 := (isAncestor_iff (by decide) hx.aligned hv.aligned).mpr
      (valid_ssubset_of_ne (by decide) hx hv h2 (Ne.symm hne))
    have h5 := (valid_subset_iff (by decide) hx (parent_valid hv hv0)).mp (parent_cells (by decide) hx hv h4)
    omega
  have e1 := key u gapFirst huv hgv (by decide) (hin u hu) hu1 (by decide +kernel)
  have e2 := key w (child (root 2) 3) hwv hcv (by decide) (hin w hw) hw1 (by decide +kernel)
  subst e1 e2
  intro hbal
  have := hbal _ hu _ hw ⟨{1}, by simp, by simpa using hk, by unfold MeetOn; decide +kernel, by
    unfold OverlapOn; decide +kernel⟩
  revert this
  decide

/-! ## Examples -/

/-- A complete tree that is not balanced: the leaves of level 3 meet leaves of level 1. -/
def steepTree : Tree 2 Unit :=
  let l := [child (child (root 2) 0) 0, child (child (root 2) 0) 1, child (child (root 2) 0) 2] ++
    (List.range 4).map (child (child (child (root 2) 0) 3)) ++ [child (root 2) 1, child (root 2) 2, child (root 2) 3]
  ⟨⟨fun i => ⟨(l[i]?).getD (root 2), ()⟩, 10⟩, fun l => if l = 1 then 3 else if l = 2 then 3 else if l = 3 then 4 else 0,
    3, 0⟩

theorem steepTree_quads : quadsOf steepTree =
    [child (child (root 2) 0) 0, child (child (root 2) 0) 1, child (child (root 2) 0) 2] ++
    (List.range 4).map (child (child (child (root 2) 0) 3)) ++ [child (root 2) 1, child (root 2) 2, child (root 2) 3] := rfl

theorem steepTree_complete : TreeComplete (quadsOf steepTree) := by
  have hv : ∀ q ∈ quadsOf steepTree, Valid q := by
    intro q hq
    rw [← isValid_iff]
    revert q
    rw [steepTree_quads]
    decide +kernel
  apply treeComplete_of_path hv
  rw [steepTree_quads]
  have e : List.range 4 = [0, 1, 2, 3] := rfl
  rw [e]
  simp only [List.map_cons, List.map_nil, List.cons_append, List.nil_append, Path]
  decide +kernel

/-- The hypotheses of C54 hold of the example. -/
example : Valid (firstDesc (root 2) 29) ∧ start (firstDesc (root 2) 29) = 0 ∧ Valid (lastDesc (root 2) 29) ∧
    stop (lastDesc (root 2) 29) = 2 ^ (2 * 30) ∧ TreeComplete (quadsOf steepTree) ∧
    Tiles (firstDesc (root 2) 29) (lastDesc (root 2) 29) (quadsOf steepTree) ∧ ¬ Balanced 1 (quadsOf steepTree) ∧
    Finds (d := 2) fun f l => l.findIdx? fun q => f q = 0 := by
  have h0 : start (firstDesc (root 2) 29) = 0 := by decide +kernel
  have h1 : stop (lastDesc (root 2) 29) = 2 ^ (2 * 30) := by decide +kernel
  refine ⟨by rw [← isValid_iff]; decide +kernel, h0, by rw [← isValid_iff]; decide +kernel, h1, steepTree_complete,
    (root_ends (by decide) h0 h1).mpr steepTree_complete, ?_, findIdx_finds⟩
  intro hbal
  have := hbal (child (child (child (root 2) 0) 3) 3) (by rw [steepTree_quads]; decide +kernel) (child (root 2) 1)
    (by rw [steepTree_quads]; decide +kernel)
    ⟨{0}, by simp, by simp, by unfold MeetOn; decide +kernel, by unfold OverlapOn; decide +kernel⟩
  revert this
  decide

/-- A balanced tree: the four children of the root. -/
example : TreeComplete ((List.range 4).map (child (root 2))) ∧ Balanced 2 ((List.range 4).map (child (root 2))) := by
  refine ⟨treeComplete_of_path ?_ ?_, ?_⟩
  · intro q hq
    rw [← isValid_iff]
    revert q
    decide +kernel
  · have e : List.range 4 = [0, 1, 2, 3] := rfl
    rw [e]
    simp only [List.map_cons, List.map_nil, Path]
    decide +kernel
  · intro q hq r hr _
    rw [List.mem_map] at hq hr
    obtain ⟨i, -, rfl⟩ := hq
    obtain ⟨j, -, rfl⟩ := hr
    show (root 2).level + 1 ≤ (root 2).level + 1 + 1
    omega

end P4est
