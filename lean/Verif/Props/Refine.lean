import Verif.Lemmas.Refine
import Verif.Props.Relations

/-! # C17, C18, C21, C45: refinement -/

namespace P4est
open Spec

variable {d : ℕ} {α σ β γ : Type}

theorem runAll_mem {f : β → σ → List γ × σ} {l : List β} {s : σ} {r : γ}
    (h : r ∈ (runAll f l s).1) : ∃ x ∈ l, ∃ s', r ∈ (f x s').1 := by
  induction l generalizing s with
  | nil => simp [runAll] at h
  | cons y ys ih =>
    simp only [runAll, List.mem_append] at h
    rcases h with h | h
    · exact ⟨y, by simp, s, h⟩
    · obtain ⟨x, hx, h'⟩ := ih h
      exact ⟨x, List.mem_cons_of_mem _ hx, h'⟩

theorem runAll_path {f : Leaf d α → σ → List (Leaf d α) × σ} {l : List (Leaf d α)} (s : σ) {a b : ℕ}
    (h : Path a (l.map Leaf.q) b)
    (hf : ∀ x ∈ l, ∀ s, Path (start x.q) ((f x s).1.map Leaf.q) (stop x.q)) :
    Path a ((runAll f l s).1.map Leaf.q) b := by
  induction l generalizing a s with
  | nil => exact h
  | cons x xs ih =>
    simp only [runAll, List.map_append]
    rw [path_append]
    refine ⟨stop x.q, ?_, ih _ h.2 fun y hy => hf y (List.mem_cons_of_mem _ hy)⟩
    rw [h.1]; exact hf x (by simp) s

theorem runAll_linear {f : Leaf d α → σ → List (Leaf d α) × σ} {l : List (Leaf d α)} (s : σ)
    (h : (l.map Leaf.q).Pairwise (fun q r => stop q ≤ start r))
    (hf : ∀ x ∈ l, ∀ s, Path (start x.q) ((f x s).1.map Leaf.q) (stop x.q)) :
    ((runAll f l s).1.map Leaf.q).Pairwise (fun q r => stop q ≤ start r) := by
  induction l generalizing s with
  | nil => simp [runAll]
  | cons x xs ih =>
    simp only [runAll, List.map_append, List.pairwise_append]
    have hx := hf x (by simp) s
    rw [List.map_cons, List.pairwise_cons] at h
    refine ⟨(pairwise_stop_iff_chain _).mpr hx.gapless.chain_le,
      ih _ h.2 fun y hy => hf y (List.mem_cons_of_mem _ hy), ?_⟩
    intro q hq r hr
    obtain ⟨r', hr', rfl⟩ := List.mem_map.mp hr
    obtain ⟨y, hy, s', hm⟩ := runAll_mem hr'
    have h1 := (hx.mem hq).2
    have h2 := ((hf y (List.mem_cons_of_mem _ hy) s').mem (List.mem_map_of_mem (f := Leaf.q) hm)).1
    have h3 := h.1 y.q (List.mem_map_of_mem hy)
    omega

/-- The result of splitting one leaf tiles that leaf. -/
theorem splitLeaf_tiles {ask : Leaf d α → σ → Bool × σ} {make : Leaf d α → σ → List (Leaf d α) × σ}
    (hm : ∀ x s, (make x s).1.map Leaf.q = childrenv x.q) (recursive : Bool) :
    ∀ (n : ℕ) (x : Leaf d α) (s : σ), Valid x.q → x.q.level + n ≤ 29 →
      Path (start x.q) ((splitLeaf ask make recursive n x s).1.map Leaf.q) (stop x.q) ∧
      ∀ r ∈ (splitLeaf ask make recursive n x s).1, Valid r.q ∧ Cells r.q ⊆ Cells x.q ∧
        (r = x ∨ (x.q.level < r.q.level ∧ r.q.level ≤ x.q.level + n)) := by
  intro n
  induction n with
  | zero =>
    intro x s hv hl
    refine ⟨by simp [splitLeaf, Path], ?_⟩
    intro r hr
    simp only [splitLeaf, List.mem_singleton] at hr
    subst hr
    exact ⟨hv, Set.Subset.rfl, Or.inl rfl⟩
  | succ n ih =>
    intro x s hv hl
    have hcp := children_path hv.aligned hv.int32 (by omega)
    have hchild : ∀ s, ∀ y ∈ (make x s).1, Valid y.q ∧ Cells y.q ⊆ Cells x.q ∧
        y.q.level = x.q.level + 1 := by
      intro s y hy
      have := List.mem_map_of_mem (f := Leaf.q) hy
      rw [hm, childrenv] at this
      obtain ⟨k, _, hk⟩ := List.mem_map.mp this
      rw [← hk]
      have ha := child_aligned hv.aligned (show x.q.level < 30 by omega) k
      have hc := child_corner_mem hv.aligned (show x.q.level < 30 by omega) k
      exact ⟨valid_subset hv ha (by rw [child_level]; omega) hc,
        child_subset hv.aligned (by omega) k, rfl⟩
    rw [splitLeaf]
    by_cases ha : (ask x s).1 = true
    · rw [if_pos ha]
      cases recursive with
      | false =>
        simp only [Bool.false_eq_true, if_false]
        refine ⟨by rw [hm]; exact hcp, fun r hr => ?_⟩
        obtain ⟨h1, h2, h3⟩ := hchild _ r hr
        exact ⟨h1, h2, Or.inr (by omega)⟩
      | true =>
        simp only [if_true]
        constructor
        · apply runAll_path
          · rw [hm]; exact hcp
          · intro y hy s'
            obtain ⟨h1, h2, h3⟩ := hchild _ y hy
            exact (ih y s' h1 (by omega)).1
        · intro r hr
          obtain ⟨y, hy, s', hr'⟩ := runAll_mem hr
          obtain ⟨h1, h2, h3⟩ := hchild _ y hy
          obtain ⟨g1, g2, g3⟩ := (ih y s' h1 (by omega)).2 r hr'
          refine ⟨g1, g2.trans h2, Or.inr ?_⟩
          rcases g3 with g3 | g3
          · rw [g3]; omega
          · omega
    · rw [if_neg ha]
      refine ⟨by simp [Path], fun r hr => ?_⟩
      simp only [List.mem_singleton] at hr
      subst hr
      exact ⟨hv, Set.Subset.rfl, Or.inl rfl⟩

/-- The quadrants of the leaves of a tree. -/
def Spec.quadsOf (t : Tree d α) : List (Quad d) := t.quads.toList.map Leaf.q

/-- C17, C45. Refinement of one tree with arbitrary stateful callbacks, recursive or not,
terminates without an array access out of bounds.  All new leaves are legal; every new leaf is
either an old leaf or strictly inside one and then not deeper than the allowed level; the covered
cells do not change; order, disjointness and gaplessness are preserved. -/
theorem C17_refine_invariants (hd : 0 < d) (cb : RefineCb d α σ) (recursive : Bool) (allowed : ℕ)
    (hal : allowed ≤ 29) (t : Tree d α) (s : σ) (hv : ∀ q ∈ quadsOf t, Valid q) :
    ∃ t' s', refineTree cb recursive allowed t s = some (t', s') ∧
      (∀ r ∈ quadsOf t', Valid r) ∧
      (∀ r ∈ quadsOf t', ∃ q ∈ quadsOf t, r = q ∨
        (Cells r ⊂ Cells q ∧ q.level < r.level ∧ r.level ≤ allowed)) ∧
      (Linear (quadsOf t) → Linear (quadsOf t')) ∧
      (Gapless (quadsOf t) → Gapless (quadsOf t') ∧ Cover (quadsOf t') = Cover (quadsOf t)) := by
  obtain ⟨t', he, hl, -, -, -⟩ := refineTree_eq hd cb recursive allowed t s
  have hvx : ∀ x ∈ t.quads.toList, Valid x.q := fun x hx => hv _ (List.mem_map_of_mem hx)
  have key : ∀ x ∈ t.quads.toList, ∀ s,
      Path (start x.q) ((leafResult cb recursive allowed x s).1.map Leaf.q) (stop x.q) ∧
      ∀ r ∈ (leafResult cb recursive allowed x s).1, Valid r.q ∧ Cells r.q ⊆ Cells x.q ∧
        (r = x ∨ (x.q.level < r.q.level ∧ r.q.level ≤ x.q.level + (allowed - x.q.level))) := by
    intro x hx s
    have := (hvx x hx).1
    exact splitLeaf_tiles (makeChildren_quads cb) recursive _ x s (hvx x hx) (by omega)
  have hvn : ∀ r ∈ quadsOf t', Valid r := by
    intro r hr
    obtain ⟨y, hy, rfl⟩ := List.mem_map.mp hr
    rw [hl] at hy
    obtain ⟨x, hx, s', hm⟩ := runAll_mem hy
    exact ((key x hx s').2 y hm).1
  refine ⟨t', _, he, hvn, ?_, ?_, ?_⟩
  · intro r hr
    obtain ⟨y, hy, rfl⟩ := List.mem_map.mp hr
    rw [hl] at hy
    obtain ⟨x, hx, s', hm⟩ := runAll_mem hy
    obtain ⟨h1, h2, h3⟩ := (key x hx s').2 y hm
    refine ⟨x.q, List.mem_map_of_mem hx, ?_⟩
    rcases h3 with h3 | ⟨h3, h4⟩
    · left; rw [h3]
    · right
      refine ⟨Set.ssubset_iff_subset_ne.mpr ⟨h2, fun hc => ?_⟩, h3, by omega⟩
      have := cells_inj hd h1.aligned (hvx x hx).aligned hc
      rw [this] at h3; omega
  · intro hlin
    rw [linear_iff_chain (fun q hq => (hv q hq).extended), ← pairwise_stop_iff_chain] at hlin
    rw [linear_iff_chain (fun q hq => (hvn q hq).extended), ← pairwise_stop_iff_chain]
    unfold quadsOf at *
    rw [hl]
    exact runAll_linear s hlin fun x hx s => (key x hx s).1
  · intro hg
    obtain ⟨a, b, hp⟩ := hg.path
    have hp' : Path a (quadsOf t') b := by
      unfold quadsOf at *
      rw [hl]
      exact runAll_path s hp fun x hx s => (key x hx s).1
    exact ⟨hp'.gapless, hp'.cover_eq hp (fun q hq => ⟨(hvn q hq).aligned, (hvn q hq).int32⟩)
      (fun q hq => ⟨(hv q hq).aligned, (hv q hq).int32⟩)⟩

/-! ## C18 -/

theorem childrenv_eq_kids {q : Quad d} (h : Aligned q) (hl : q.level < 30) : childrenv q = kids q := by
  unfold childrenv kids
  apply List.map_congr_left
  intro k _
  exact Quad.ext' (fun i => child_c h hl k i) rfl

/-- C18, sequential semantics. With arbitrary stateful callbacks the in-place algorithm gives the
same leaves (position and data) and final user state as splitting the leaves one after the other
in curve order, asking each quadrant exactly once before its children are made. -/
theorem C18_refine_sequential (hd : 0 < d) (cb : RefineCb d α σ) (recursive : Bool) (allowed : ℕ)
    (t : Tree d α) (s : σ) :
    ∃ t', refineTree cb recursive allowed t s = some (t',
        (runAll (fun x => splitLeaf cb.refine (makeChildren cb) recursive (allowed - x.q.level) x)
          t.quads.toList s).2) ∧
      t'.quads.toList =
        (runAll (fun x => splitLeaf cb.refine (makeChildren cb) recursive (allowed - x.q.level) x)
          t.quads.toList s).1 := by
  obtain ⟨t', he, hl, -⟩ := refineTree_eq hd cb recursive allowed t s
  exact ⟨t', he, hl⟩

theorem runAll_map_out {f : Leaf d α → σ → List (Leaf d α) × σ} {g : Quad d → List (Quad d)}
    {l : List (Leaf d α)} (s : σ) (h : ∀ x ∈ l, ∀ s, (f x s).1.map Leaf.q = g x.q) :
    (runAll f l s).1.map Leaf.q = (l.map Leaf.q).flatMap g := by
  induction l generalizing s with
  | nil => rfl
  | cons x xs ih =>
    simp only [runAll, List.map_append, List.map_cons, List.flatMap_cons]
    rw [h x (by simp), ih _ fun y hy => h y (List.mem_cons_of_mem _ hy)]

theorem splitLeaf_pure {cb : RefineCb d α σ} {f : Quad d → Bool} (hf : ∀ x s, (cb.refine x s).1 = f x.q)
    (recursive : Bool) : ∀ (n : ℕ) (x : Leaf d α) (s : σ), Aligned x.q → x.q.level + n ≤ 29 →
    (splitLeaf cb.refine (makeChildren cb) recursive n x s).1.map Leaf.q =
      splitQuad f recursive n x.q := by
  intro n
  induction n with
  | zero => intro x s _ _; simp [splitLeaf, splitQuad]
  | succ n ih =>
    intro x s ha hl
    rw [splitLeaf, splitQuad, hf, ← childrenv_eq_kids ha (by omega)]
    cases f x.q with
    | false => simp
    | true =>
      simp only [if_true]
      cases recursive with
      | false => simp [makeChildren_quads]
      | true =>
        simp only [if_true]
        rw [runAll_map_out (g := splitQuad f true n), makeChildren_quads]
        intro y hy s'
        have := List.mem_map_of_mem (f := Leaf.q) hy
        rw [makeChildren_quads, childrenv] at this
        obtain ⟨k, _, hk⟩ := List.mem_map.mp this
        apply ih
        · rw [← hk]; exact child_aligned ha (by omega) k
        · rw [← hk, child_level]; omega

/-- C18. If the decision of the callback depends on the quadrant only, the new leaves are, in
order, the recursive splitting of the old leaves. -/
theorem C18_refine_pure (hd : 0 < d) (cb : RefineCb d α σ) (f : Quad d → Bool)
    (hf : ∀ x s, (cb.refine x s).1 = f x.q) (recursive : Bool) (allowed : ℕ) (hal : allowed ≤ 29)
    (t : Tree d α) (s : σ) (hv : ∀ q ∈ quadsOf t, Valid q) :
    ∃ t' s', refineTree cb recursive allowed t s = some (t', s') ∧
      quadsOf t' = (quadsOf t).flatMap (fun q => splitQuad f recursive (allowed - q.level) q) := by
  obtain ⟨t', he, hl, -⟩ := refineTree_eq hd cb recursive allowed t s
  refine ⟨t', _, he, ?_⟩
  unfold quadsOf at *
  rw [hl]
  apply runAll_map_out
  intro x hx s'
  have h := hv _ (List.mem_map_of_mem hx)
  have := h.1
  exact splitLeaf_pure hf recursive _ x s' h.aligned (by omega)

/-- C18. Without recursion exactly the leaves the callback approves and that are above the
allowed level are replaced by their children; all others are kept. -/
theorem C18_refine_once (hd : 0 < d) (cb : RefineCb d α σ) (f : Quad d → Bool)
    (hf : ∀ x s, (cb.refine x s).1 = f x.q) (allowed : ℕ) (hal : allowed ≤ 29)
    (t : Tree d α) (s : σ) (hv : ∀ q ∈ quadsOf t, Valid q) :
    ∃ t' s', refineTree cb false allowed t s = some (t', s') ∧
      quadsOf t' = (quadsOf t).flatMap
        (fun q => if f q = true ∧ q.level < allowed then kids q else [q]) := by
  obtain ⟨t', s', he, hl⟩ := C18_refine_pure hd cb f hf false allowed hal t s hv
  refine ⟨t', s', he, ?_⟩
  rw [hl]
  congr 1
  funext q
  cases hn : allowed - q.level with
  | zero => simp [splitQuad, show ¬ q.level < allowed by omega]
  | succ n => simp [splitQuad, show q.level < allowed by omega]

/-- The quadrants the callback is asked about, in the order of the calls, when refining `q`. -/
def Spec.asked (ask : Quad d → Bool) (recursive : Bool) : ℕ → Quad d → List (Quad d)
  | 0, q => [q]
  | n + 1, q => q :: (if ask q && recursive then (kids q).flatMap (asked ask recursive n) else [])

theorem runAll_log {f : Leaf d α → List (Quad d) → List (Leaf d α) × List (Quad d)}
    {g : Quad d → List (Quad d)} {l : List (Leaf d α)} (s : List (Quad d))
    (h : ∀ x ∈ l, ∀ s, (f x s).2 = s ++ g x.q) :
    (runAll f l s).2 = s ++ (l.map Leaf.q).flatMap g := by
  induction l generalizing s with
  | nil => simp [runAll]
  | cons x xs ih =>
    simp only [runAll, List.map_cons, List.flatMap_cons]
    rw [ih _ fun y hy => h y (List.mem_cons_of_mem _ hy), h x (by simp), List.append_assoc]

theorem splitLeaf_log {cb : RefineCb d α (List (Quad d))} {f : Quad d → Bool}
    (hf : ∀ x s, cb.refine x s = (f x.q, s ++ [x.q]))
    (hm : ∀ x s, (makeChildren cb x s).2 = s)
    (recursive : Bool) : ∀ (n : ℕ) (x : Leaf d α) (s : List (Quad d)), Aligned x.q → x.q.level + n ≤ 29 →
    (splitLeaf cb.refine (makeChildren cb) recursive n x s).2 = s ++ asked f recursive n x.q := by
  intro n
  induction n with
  | zero => intro x s _ _; simp [splitLeaf, asked, hf]
  | succ n ih =>
    intro x s ha hl
    rw [splitLeaf, asked, hf, ← childrenv_eq_kids ha (by omega)]
    cases f x.q with
    | false => simp
    | true =>
      simp only [if_true, Bool.true_and]
      cases recursive with
      | false => simp [hm]
      | true =>
        simp only [if_true]
        rw [runAll_log (g := asked f true n), makeChildren_quads, hm]
        · simp
        · intro y hy s'
          have := List.mem_map_of_mem (f := Leaf.q) hy
          rw [makeChildren_quads, childrenv] at this
          obtain ⟨k, _, hk⟩ := List.mem_map.mp this
          apply ih
          · rw [← hk]; exact child_aligned ha (by omega) k
          · rw [← hk, child_level]; omega

theorem asked_within (hd : 0 < d) (f : Quad d → Bool) (recursive : Bool) : ∀ (n : ℕ) (q : Quad d), Valid q →
    q.level + n ≤ 29 → Sorted (asked f recursive n q) ∧
      ∀ r ∈ asked f recursive n q, Int32 r.c ∧ start q ≤ start r ∧ start r < stop q ∧ q.level ≤ r.level := by
  intro n
  induction n with
  | zero =>
    intro q hq _
    refine ⟨by simp [asked, Sorted], fun r hr => ?_⟩
    simp only [asked, List.mem_singleton] at hr
    subst hr; exact ⟨hq.int32, le_rfl, start_lt_stop _, le_rfl⟩
  | succ n ih =>
    intro q hq hl
    rw [asked]
    by_cases hc : (f q && recursive) = true
    · rw [if_pos hc, ← childrenv_eq_kids hq.aligned (by omega)]
      have hcp := children_path hq.aligned hq.int32 (by omega)
      have hch : ∀ y ∈ childrenv q, Valid y ∧ y.level = q.level + 1 := by
        intro y hy
        rw [childrenv] at hy
        obtain ⟨k, _, hk⟩ := List.mem_map.mp hy
        rw [← hk]
        exact ⟨valid_subset hq (child_aligned hq.aligned (by omega) k) (by rw [child_level]; omega)
          (child_corner_mem hq.aligned (by omega) k), rfl⟩
      have hmem : ∀ r ∈ (childrenv q).flatMap (asked f recursive n), Int32 r.c ∧
          start q ≤ start r ∧ start r < stop q ∧ q.level < r.level := by
        intro r hr
        obtain ⟨y, hy, hr⟩ := List.mem_flatMap.mp hr
        obtain ⟨h1, h2⟩ := hch y hy
        have h3 := (ih y h1 (by omega)).2 r hr
        have h4 := hcp.mem hy
        exact ⟨h3.1, by omega, by omega, by omega⟩
      constructor
      · unfold Sorted
        rw [List.pairwise_cons]
        constructor
        · intro r hr
          obtain ⟨-, h1, h2, h3⟩ := hmem r hr
          unfold Before
          change start q < start r ∨ start q = start r ∧ _
          omega
        · have hpw := (pairwise_stop_iff_chain _).mpr hcp.gapless.chain_le
          rw [List.pairwise_flatMap]
          refine ⟨fun y hy => (ih y (hch y hy).1 (by have := (hch y hy).2; omega)).1, ?_⟩
          refine List.Pairwise.imp_of_mem ?_ hpw
          intro y z hy hz hyz r hr r' hr'
          have h1 := (ih y (hch y hy).1 (by have := (hch y hy).2; omega)).2 r hr
          have h2 := (ih z (hch z hz).1 (by have := (hch z hz).2; omega)).2 r' hr'
          left
          change start r < start r'
          omega
      · intro r hr
        rcases List.mem_cons.mp hr with rfl | hr
        · exact ⟨hq.int32, le_rfl, start_lt_stop _, le_rfl⟩
        · obtain ⟨h0, h1, h2, h3⟩ := hmem r hr
          exact ⟨h0, h1, h2, h3.le⟩
    · rw [if_neg hc]
      refine ⟨by simp [Sorted], fun r hr => ?_⟩
      simp only [List.mem_singleton] at hr
      subst hr; exact ⟨hq.int32, le_rfl, start_lt_stop _, le_rfl⟩

/-- C18. Order of the callback calls: with a callback that decides by the quadrant and records its
argument, and no other callback touching the record, the recorded sequence is: every old leaf, each
followed (in recursive mode, if it is refined) by the calls for its children.  The sequence is in
curve order and no quadrant is asked about twice. -/
theorem C18_callback_order (hd : 0 < d) (f : Quad d → Bool) (init : Quad d → α)
    (recursive : Bool) (allowed : ℕ) (hal : allowed ≤ 29) (t : Tree d α)
    (hv : ∀ q ∈ quadsOf t, Valid q) (hlin : Linear (quadsOf t)) :
    ∃ t' log, refineTree ⟨fun x s => (f x.q, s ++ [x.q]), fun q s => (init q, s), none⟩
        recursive allowed t [] = some (t', log) ∧
      log = (quadsOf t).flatMap (fun q => asked f recursive (allowed - q.level) q) ∧
      Sorted log ∧ log.Nodup := by
  set cb : RefineCb d α (List (Quad d)) :=
    ⟨fun x s => (f x.q, s ++ [x.q]), fun q s => (init q, s), none⟩ with hcb
  obtain ⟨t', he, hl, -⟩ := refineTree_eq hd cb recursive allowed t []
  have hm : ∀ x s, (makeChildren cb x s).2 = s := by
    intro x s
    have hi : ∀ (qs : List (Quad d)) (s : List (Quad d)), (initAll cb.init qs s).2 = s := by
      intro qs
      induction qs with
      | nil => intro s; rfl
      | cons q qs ih => intro s; simp only [initAll]; rw [ih]
    simp only [makeChildren, callReplace, hcb]
    exact hi _ s
  have hlog : (runAll (leafResult cb recursive allowed) t.quads.toList []).2 =
      (quadsOf t).flatMap (fun q => asked f recursive (allowed - q.level) q) := by
    rw [runAll_log (g := fun q => asked f recursive (allowed - q.level) q)]
    · rfl
    · intro x hx s'
      have h := hv _ (List.mem_map_of_mem hx)
      have := h.1
      exact splitLeaf_log (fun _ _ => rfl) hm recursive _ x s' h.aligned (by omega)
  refine ⟨t', _, he, hlog, ?_⟩
  have hsorted : Sorted (runAll (leafResult cb recursive allowed) t.quads.toList []).2 := by
    rw [hlog]
    unfold Sorted
    rw [linear_iff_chain (fun q hq => (hv q hq).extended), ← pairwise_stop_iff_chain] at hlin
    rw [List.pairwise_flatMap]
    refine ⟨fun y hy => (asked_within hd f recursive _ y (hv y hy) (by have := (hv y hy).1; omega)).1, ?_⟩
    refine List.Pairwise.imp_of_mem ?_ hlin
    intro y z hy hz hyz r hr r' hr'
    have h1 := (asked_within hd f recursive _ y (hv y hy) (by have := (hv y hy).1; omega)).2 r hr
    have h2 := (asked_within hd f recursive _ z (hv z hz) (by have := (hv z hz).1; omega)).2 r' hr'
    left
    change start r < start r'
    omega
  refine ⟨hsorted, hsorted.imp ?_⟩
  rintro a b h rfl
  exact h.irrefl

/-! ## C21 for refine -/

/-- The level counters and the maximum level of a tree agree with its leaves: every counter is the
number of leaves of that level, and `maxlevel` is the largest level that occurs (0 if the tree has
no local leaves). -/
def Spec.CountersOk (t : Tree d α) : Prop :=
  (∀ l, t.perLevel l = ((quadsOf t).countP (fun q => q.level = l) : ℕ)) ∧
  (∀ q ∈ quadsOf t, q.level ≤ t.maxlevel) ∧
  ((∃ q ∈ quadsOf t, q.level = t.maxlevel) ∨ (quadsOf t = [] ∧ t.maxlevel = 0))

theorem levelCount_eq (ls : List (Leaf d α)) (l : ℕ) :
    levelCount ls l = ((ls.map Leaf.q).countP (fun q => q.level = l) : ℕ) := by
  unfold levelCount
  rw [List.countP_map, List.countP_eq_length_filter]
  rfl

theorem topLevel_spec (ls : List (Leaf d α)) :
    (∀ q ∈ ls.map Leaf.q, q.level ≤ topLevel ls) ∧
    ((∃ q ∈ ls.map Leaf.q, q.level = topLevel ls) ∨ (ls.map Leaf.q = [] ∧ topLevel ls = 0)) := by
  induction ls using List.reverseRecOn with
  | nil => exact ⟨by simp, Or.inr ⟨rfl, rfl⟩⟩
  | append_singleton ls x ih =>
    rw [topLevel_snoc]
    simp only [List.map_append, List.map_cons, List.map_nil, List.mem_append, List.mem_singleton]
    refine ⟨?_, Or.inl ?_⟩
    · rintro q (h | rfl)
      · have := ih.1 q h; omega
      · omega
    · rcases Nat.le_total (topLevel ls) x.q.level with h | h
      · exact ⟨x.q, Or.inr rfl, by omega⟩
      · rcases ih.2 with ⟨q, hq, he⟩ | ⟨_, he⟩
        · exact ⟨q, Or.inl hq, by omega⟩
        · exact ⟨x.q, Or.inr rfl, by omega⟩

theorem countersOk_of {t : Tree d α} (h1 : t.perLevel = levelCount t.quads.toList)
    (h2 : t.maxlevel = topLevel t.quads.toList) : CountersOk t := by
  obtain ⟨h3, h4⟩ := topLevel_spec t.quads.toList
  rw [← h2] at h3 h4
  exact ⟨fun l => by rw [h1, levelCount_eq]; rfl, h3, h4⟩

/-- C21. Refinement keeps the level counters and the maximum level consistent with the leaves,
and does not touch the offset. -/
theorem C21_refine_counters (hd : 0 < d) (cb : RefineCb d α σ) (recursive : Bool) (allowed : ℕ)
    (t : Tree d α) (s : σ) (hok : CountersOk t) :
    ∃ t' s', refineTree cb recursive allowed t s = some (t', s') ∧ CountersOk t' ∧
      t'.offset = t.offset := by
  obtain ⟨t', he, hl, hp, hm, ho⟩ := refineTree_eq hd cb recursive allowed t s
  refine ⟨t', _, he, ?_, ho⟩
  rcases hm with hm | ⟨hm, hsame⟩
  · exact countersOk_of hp hm
  · refine ⟨fun l => by rw [hp, levelCount_eq]; rfl, ?_, ?_⟩
    · have := hok.2.1; unfold quadsOf at *; rw [hsame, hm]; exact this
    · have := hok.2.2; unfold quadsOf at *; rw [hsame, hm]; exact this

/-- A tree with three leaves for the examples below. -/
def exampleTree : Tree 2 Unit :=
  ⟨⟨fun i => ⟨(if i = 0 then ⟨![0, 0], 1⟩ else if i = 1 then ⟨![536870912, 0], 2⟩
      else ⟨![805306368, 0], 2⟩), ()⟩, 3⟩,
    fun l => if l = 1 then 1 else if l = 2 then 2 else 0, 2, 0⟩

theorem exampleTree_quads : quadsOf exampleTree =
    [⟨![0, 0], 1⟩, ⟨![536870912, 0], 2⟩, ⟨![805306368, 0], 2⟩] := rfl

example : (∀ q ∈ quadsOf exampleTree, Valid q) ∧ Gapless (quadsOf exampleTree) ∧
    CountersOk exampleTree := by
  unfold CountersOk
  rw [exampleTree_quads]
  refine ⟨?_, ?_, fun l => ?_, ?_, ?_⟩
  · simp only [List.mem_cons, List.not_mem_nil, or_false, forall_eq_or_imp, forall_eq,
      ← isValid_iff]
    decide +kernel
  · unfold Gapless
    simp only [List.isChain_cons_cons, List.isChain_singleton, and_true]
    decide +kernel
  · by_cases h1 : l = 1
    · subst h1; rfl
    · by_cases h2 : l = 2
      · subst h2; rfl
      · simp [exampleTree, List.countP_cons, h1, h2, Ne.symm h1, Ne.symm h2]
  · simp [exampleTree]
  · left; exact ⟨⟨![805306368, 0], 2⟩, by simp, rfl⟩

end P4est
