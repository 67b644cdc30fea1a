import Verif.Lemmas.BalancedTargets
import Verif.Lemmas.IterateRank

/-! # Search in the ghost array -/

namespace P4est
open Spec

variable {d : ℕ}

/-! ### Windows -/

/-- Which piece an entry is in. -/
theorem cut_iff {β : Type} {l : List β} {offs : List ℕ} {n : ℕ} {piece : ℕ → List β} (h : CutInto l offs n piece)
    {R : β → ℕ → Prop} (hR : ∀ k < n, ∀ x ∈ piece k, R x k) (hu : ∀ x ∈ l, ∀ k < n, ∀ k' < n, R x k → R x k' → k = k') {k : ℕ} (hk : k < n) :
    ∃ a b, offs[k]? = some a ∧ offs[k + 1]? = some b ∧ ∀ i x, l[i]? = some x → (a ≤ i ∧ i < b ↔ R x k) := by
  obtain ⟨h1, h2, h3, h4⟩ := h
  have hin : ∀ j < n, ∀ a b, offs[j]? = some a → offs[j + 1]? = some b → ∀ i x, l[i]? = some x → a ≤ i → i < b → R x j := by
    intro j hj a b ha hb i x hx h5 h6
    obtain ⟨a', b', e1, e2, e3, e4⟩ := h4 j hj
    rw [ha, Option.some.injEq] at e1
    rw [hb, Option.some.injEq] at e2
    subst e1; subst e2
    refine hR j hj x ?_
    rw [← e4]
    refine List.mem_of_getElem? (i := i - a) ?_
    rw [List.getElem?_take, if_pos (by omega), List.getElem?_drop, show a + (i - a) = i by omega]
    exact hx
  have hex : ∀ i < l.length, ∃ j < n, ∃ a b, offs[j]? = some a ∧ offs[j + 1]? = some b ∧ a ≤ i ∧ i < b := by
    intro i hi
    have key : ∀ m, m ≤ n → ∀ c, offs[m]? = some c → i < c → ∃ j < n, ∃ a b, offs[j]? = some a ∧ offs[j + 1]? = some b ∧ a ≤ i ∧ i < b := by
      intro m
      induction m with
      | zero =>
        intro _ c hc hic
        rw [h2, Option.some.injEq] at hc
        omega
      | succ m ih =>
        intro hm c hc hic
        obtain ⟨a, b, e1, e2, e3, -⟩ := h4 m (by omega)
        rw [hc, Option.some.injEq] at e2
        subst e2
        by_cases c1 : a ≤ i
        · exact ⟨m, by omega, a, c, e1, hc, c1, hic⟩
        · exact ih (by omega) a e1 (by omega)
    exact key n le_rfl _ h3 hi
  obtain ⟨a, b, e1, e2, -, -⟩ := h4 k hk
  refine ⟨a, b, e1, e2, fun i x hx => ⟨fun hi => hin k hk a b e1 e2 i x hx hi.1 hi.2, fun hr => ?_⟩⟩
  obtain ⟨j, hj, a', b', f1, f2, f3, f4⟩ := hex i (List.getElem?_eq_some_iff.mp hx).1
  have := hu x (List.mem_of_getElem? hx) k hk j hj hr (hin j hj a' b' f1 f2 i x hx f3 f4)
  subst this
  rw [e1, Option.some.injEq] at f1
  rw [e2, Option.some.injEq] at f2
  omega

section

variable {trees : List (List (Quad d))} {P : ℕ} {leaves : ℕ → List (ℕ × Quad d)}

theorem Spec.Distributed.mem_forest (h : Distributed trees P leaves) {x : ℕ × Quad d} :
    x ∈ forestLeaves trees ↔ ∃ p < P, x ∈ leaves p := by
  rw [← h.split, List.mem_flatMap]
  simp

/-- The ghosts asked for. -/
def Asked (leaves : ℕ → List (ℕ × Quad d)) (proc : Option ℕ) (t : ℕ) (x : GhostQuad d) : Prop :=
  x.1.1 = t ∧ ∀ p, proc = some p → x.1 ∈ leaves p

theorem checkRange_spec (hd : 0 < d) (h : Distributed trees P leaves) {g : GhostLayer d} (hg : GhostTable trees P leaves g)
    {proc : Option ℕ} (hp : ∀ p, proc = some p → p < P) {t : ℕ} (ht : t < trees.length) :
    ∃ w, ghostCheckRange g proc (some t) = some w ∧
      (w = none → ∀ x ∈ g.ghosts, ¬ Asked leaves proc t x) ∧
      ∀ a b, w = some (a, b) → a < b ∧ b ≤ g.ghosts.length ∧ ∀ i x, g.ghosts[i]? = some x → (a ≤ i ∧ i < b ↔ Asked leaves proc t x) := by
  obtain ⟨pt, c1, c2⟩ := hg.byTree
  obtain ⟨pr, c3, c4⟩ := hg.byRank
  have hmem : ∀ x ∈ g.ghosts, x.1 ∈ forestLeaves trees := fun x hx => hg.order.subset (List.mem_map_of_mem hx)
  obtain ⟨a2, b2, o1, o2, o3⟩ := cut_iff c1 (R := fun x k => x.1.1 = k) c2 (fun x _ k _ k' _ e e' => e.symm.trans e') ht
  unfold ghostCheckRange
  by_cases h0 : g.ghosts.length = 0
  · rw [if_pos h0]
    refine ⟨none, rfl, fun _ x hx => ?_, fun a b hw => by cases hw⟩
    rw [List.length_eq_zero_iff.mp h0] at hx
    simp at hx
  rw [if_neg h0]
  have hfin : ∀ a1 b1, (∀ i x, g.ghosts[i]? = some x → (a1 ≤ i ∧ i < b1 ↔ ∀ p, proc = some p → x.1 ∈ leaves p)) → b1 ≤ g.ghosts.length →
      ∃ w, some (if max a1 a2 < min b1 b2 then some (max a1 a2, min b1 b2) else none) = some w ∧
      (w = none → ∀ x ∈ g.ghosts, ¬ Asked leaves proc t x) ∧
      ∀ a b, w = some (a, b) → a < b ∧ b ≤ g.ghosts.length ∧ ∀ i x, g.ghosts[i]? = some x → (a ≤ i ∧ i < b ↔ Asked leaves proc t x) := by
    intro a1 b1 h1 hb1
    refine ⟨_, rfl, fun hw x hx => ?_, fun a b hw => ?_⟩
    · rintro ⟨k1, k2⟩
      obtain ⟨i, hi, e⟩ := List.getElem_of_mem hx
      have e' : g.ghosts[i]? = some x := by rw [List.getElem?_eq_getElem hi, e]
      have m1 := (h1 i x e').mpr k2
      have m2 := (o3 i x e').mpr k1
      rw [if_pos (by omega)] at hw
      cases hw
    · split at hw
      · rename_i hlt
        rw [Option.some.injEq, Prod.mk.injEq] at hw
        obtain ⟨rfl, rfl⟩ := hw
        refine ⟨hlt, by omega, fun i x hx => ?_⟩
        have m1 := h1 i x hx
        have m2 := o3 i x hx
        unfold Asked
        rw [← m1, ← m2]
        omega
      · cases hw
  cases proc with
  | none =>
    simp only [o1, o2, Option.bind_eq_bind, Option.bind_some]
    refine hfin 0 g.ghosts.length (fun i x hx => ?_) le_rfl
    have := (List.getElem?_eq_some_iff.mp hx).1
    exact ⟨fun _ p hp => (by cases hp), fun _ => ⟨by omega, this⟩⟩
  | some p =>
    have hpP := hp p rfl
    obtain ⟨s, hs⟩ := h.segments hd
    obtain ⟨a1, b1, q1, q2, q3⟩ := cut_iff c3 (R := fun x k => x.1 ∈ leaves k) c4 (fun x _ k hk k' hk' e e' =>
      owner_unique hd h hk' hk e' e rfl (corner_mem _) (corner_mem _)) hpP
    simp only [o1, o2, q1, q2, Option.bind_eq_bind, Option.bind_some]
    refine hfin (max 0 a1) (min g.ghosts.length b1) (fun i x hx => ?_) (by omega)
    have := (List.getElem?_eq_some_iff.mp hx).1
    have h3 := q3 i x hx
    constructor
    · rintro ⟨k1, k2⟩ p' hp'
      cases hp'
      exact h3.mp ⟨by omega, by omega⟩
    · intro k
      have := h3.mpr (k p rfl)
      omega

/-- A sorted array for the search. -/
theorem sorted_for (hd : 0 < d) {q : Quad d} (hq : Valid q) {l : List (Quad d)} (hv : ∀ x ∈ l, Valid x) (hs : Sorted l) :
    l.Pairwise (fun a b => (compare q a ≤ 0 → compare q b ≤ 0) ∧ (compare q b ≥ 0 → compare q a ≥ 0)) := by
  refine List.Pairwise.imp_of_mem ?_ hs
  intro a b ha hb hab
  have hav := (hv a ha).int32
  have hbv := (hv b hb).int32
  refine ⟨fun h => ?_, fun h => ?_⟩
  · by_contra hc
    have h1 := (compare_pos_iff hd hq.int32 hbv).mp (not_le.mp hc)
    have := (compare_pos_iff hd hq.int32 hav).mpr (hab.trans h1)
    omega
  · by_contra hc
    have h1 := (compare_neg_iff hd hq.int32 hav).mp (not_le.mp hc)
    have := (compare_neg_iff hd hq.int32 hbv).mpr (h1.trans hab)
    omega

theorem forest_valid (h : Distributed trees P leaves) {x : ℕ × Quad d} (hx : x ∈ forestLeaves trees) : Valid x.2 := by
  obtain ⟨l, hl, -, hql⟩ := h.tree_get (t := x.1) (q := x.2) hx
  exact (h.complete l hl).valid _ hql

theorem forest_disjoint (h : Distributed trees P leaves) {t : ℕ} {a b : Quad d} (ha : (t, a) ∈ forestLeaves trees)
    (hb : (t, b) ∈ forestLeaves trees) {c : Fin d → ℤ} (h1 : c ∈ Cells a) (h2 : c ∈ Cells b) : a = b := by
  obtain ⟨l, hl, e, hal⟩ := h.tree_get ha
  obtain ⟨l', hl', e', hbl⟩ := h.tree_get hb
  rw [e] at e'
  subst e'
  exact linear_eq (h.complete l hl).linear hal hbl ⟨c, h1, h2⟩

/-- The window is a sorted array of leaves. -/
theorem window_sorted (h : Distributed trees P leaves) {g : GhostLayer d} (hg : GhostTable trees P leaves g) {t a b : ℕ}
    (hw : ∀ i x, g.ghosts[i]? = some x → a ≤ i → i < b → x.1.1 = t) :
    Sorted (((g.ghosts.drop a).take (b - a)).map fun x => x.1.2) ∧
    ∀ x ∈ ((g.ghosts.drop a).take (b - a)).map (fun x => x.1.2), (t, x) ∈ forestLeaves trees := by
  set w := (g.ghosts.drop a).take (b - a) with hwd
  have hwt : ∀ x ∈ w, x.1.1 = t := by
    intro x hx
    obtain ⟨i, hi, e⟩ := List.getElem_of_mem hx
    have e' : w[i]? = some x := by rw [List.getElem?_eq_getElem hi, e]
    rw [hwd, List.getElem?_take] at e'
    split at e'
    · rw [List.getElem?_drop] at e'
      exact hw _ x e' (by omega) (by omega)
    · cases e'
  have hsub : (w.map Prod.fst).Sublist (forestLeaves trees) :=
    (((List.take_sublist _ _).trans (List.drop_sublist _ _)).map _).trans hg.order
  have hl : leavesIn (w.map Prod.fst) t = w.map fun x => x.1.2 := by
    unfold leavesIn
    rw [List.filter_eq_self.mpr, List.map_map]
    · rfl
    · intro x hx
      obtain ⟨y, hy, rfl⟩ := List.mem_map.mp hx
      simpa using hwt y hy
  refine ⟨?_, fun x hx => ?_⟩
  · rw [← hl]
    exact (forest_sorted h t).sublist (leavesIn_sublist hsub t)
  · rw [← hl] at hx
    exact hsub.subset (mem_leavesIn.mp hx)

theorem ghosts_inj (hd : 0 < d) (h : Distributed trees P leaves) {g : GhostLayer d} (hg : GhostTable trees P leaves g) {i j : ℕ}
    {x y : GhostQuad d} (hi : g.ghosts[i]? = some x) (hj : g.ghosts[j]? = some y) (e : x.1 = y.1) : i = j := by
  have hnd : (g.ghosts.map Prod.fst).Nodup := by
    refine List.Nodup.sublist hg.order ?_
    rw [← h.split]
    rw [List.nodup_flatMap]
    refine ⟨fun p hp => h.leaves_nodup hd (List.mem_range.mp hp), ?_⟩
    refine List.Pairwise.imp_of_mem ?_ (List.nodup_range)
    intro p p' hp hp' hne
    intro z hz hz'
    exact hne (owner_unique hd h (List.mem_range.mp hp') (List.mem_range.mp hp) hz' hz rfl (corner_mem _) (corner_mem _))
  obtain ⟨h1, e1⟩ := List.getElem?_eq_some_iff.mp hi
  obtain ⟨h2, e2⟩ := List.getElem?_eq_some_iff.mp hj
  refine (List.Nodup.getElem_inj_iff hnd (hi := by rw [List.length_map]; exact h1) (hj := by rw [List.length_map]; exact h2)).mp ?_
  rw [List.getElem_map, List.getElem_map, e1, e2, e]

theorem ghostBsearch_spec (hd : 0 < d) (h : Distributed trees P leaves) {g : GhostLayer d} (hg : GhostTable trees P leaves g)
    {bs : (Quad d → ℤ) → List (Quad d) → Option ℕ} (hbs : Searches bs)
    {proc : Option ℕ} (hp : ∀ p, proc = some p → p < P) {t : ℕ} (ht : t < trees.length) {q : Quad d} (hq : Valid q) :
    ∃ res, ghostBsearch bs g proc (some t) q = some res ∧
      ∀ i, res = some i ↔ ∃ x, g.ghosts[i]? = some x ∧ x.1 = (t, q) ∧ ∀ p, proc = some p → x.1 ∈ leaves p := by
  obtain ⟨w, e1, e2, e3⟩ := checkRange_spec hd h hg hp ht
  unfold ghostBsearch
  rw [e1]
  simp only [Option.bind_eq_bind, Option.bind_some]
  cases w with
  | none =>
    refine ⟨none, rfl, fun i => ⟨fun h => (by cases h), ?_⟩⟩
    rintro ⟨x, hx, hxq, hxp⟩
    exact absurd ⟨by rw [hxq], hxp⟩ (e2 rfl x (List.mem_of_getElem? hx))
  | some w =>
    obtain ⟨a, b⟩ := w
    obtain ⟨hab, hb, hiff⟩ := e3 a b rfl
    dsimp only
    obtain ⟨ws, wf⟩ := window_sorted h hg (t := t) (a := a) (b := b) fun i x hx h1 h2 => ((hiff i x hx).mp ⟨h1, h2⟩).1
    set view := ((g.ghosts.drop a).take (b - a)).map fun x => x.1.2 with hview
    have hget : ∀ j y, view[j]? = some y ↔ a + j < b ∧ ∃ x, g.ghosts[a + j]? = some x ∧ x.1.2 = y := by
      intro j y
      rw [hview, List.getElem?_map, Option.map_eq_some_iff]
      constructor
      · rintro ⟨x, hx, rfl⟩
        rw [List.getElem?_take] at hx
        split at hx
        · rw [List.getElem?_drop] at hx
          exact ⟨by omega, x, hx, rfl⟩
        · cases hx
      · rintro ⟨hj, x, hx, rfl⟩
        refine ⟨x, ?_, rfl⟩
        rw [List.getElem?_take, if_pos (by omega), List.getElem?_drop]
        exact hx
    have hvv : ∀ y ∈ view, Valid y := fun y hy => forest_valid h (wf y hy)
    have hsound : ∀ j, bs (compare q) view = some j → ∃ x, g.ghosts[a + j]? = some x ∧ x.1 = (t, q) ∧ ∀ p, proc = some p → x.1 ∈ leaves p := by
      intro j hj
      obtain ⟨hl, h0⟩ := hbs.1 _ _ _ hj
      have hy : view[j]? = some view[j] := List.getElem?_eq_getElem hl
      have hyq := (compare_eq_zero_iff hd hq.int32 (hvv _ (List.getElem_mem hl)).int32).mp h0
      obtain ⟨hj1, x, hx, hxy⟩ := (hget _ _).mp hy
      obtain ⟨k1, k2⟩ := (hiff _ x hx).mp ⟨by omega, hj1⟩
      exact ⟨x, hx, Prod.ext k1 (hxy.trans hyq.symm), k2⟩
    refine ⟨_, rfl, fun i => ⟨fun hi => ?_, ?_⟩⟩
    · obtain ⟨j, hj, rfl⟩ := Option.map_eq_some_iff.mp hi
      rw [Nat.add_comm]
      exact hsound j hj
    · rintro ⟨x, hx, hxq, hxp⟩
      have hin := (hiff i x hx).mpr ⟨by rw [hxq], hxp⟩
      have hmem : q ∈ view := by
        refine List.mem_of_getElem? (i := i - a) ((hget _ _).mpr ⟨by omega, x, ?_, by rw [hxq]⟩)
        rw [show a + (i - a) = i by omega]
        exact hx
      cases hres : bs (compare q) view with
      | none => exact absurd hres (hbs.2 _ _ (sorted_for hd hq hvv ws) ⟨q, hmem, (compare_eq_zero_iff hd hq.int32 hq.int32).mpr rfl⟩)
      | some j =>
        obtain ⟨x', hx', hxq', -⟩ := hsound j hres
        have := ghosts_inj hd h hg hx hx' (hxq.trans hxq'.symm)
        rw [Option.map_some, this, Nat.add_comm]

theorem ghostContains_spec (hd : 0 < d) (h : Distributed trees P leaves) {g : GhostLayer d} (hg : GhostTable trees P leaves g)
    {bsr : (Quad d → ℤ) → List (Quad d) → ℕ → ℕ} (hbs : SearchesRange bsr)
    {proc : Option ℕ} (hp : ∀ p, proc = some p → p < P) {t : ℕ} (ht : t < trees.length) {q : Quad d} (hq : Valid q) :
    ∃ res, ghostContains bsr g proc (some t) q = some res ∧
      ∀ i, res = some i ↔ ∃ x, g.ghosts[i]? = some x ∧ x.1.1 = t ∧ Cells q ⊆ Cells x.1.2 ∧ ∀ p, proc = some p → x.1 ∈ leaves p := by
  obtain ⟨w, e1, e2, e3⟩ := checkRange_spec hd h hg hp ht
  unfold ghostContains
  rw [e1]
  simp only [Option.bind_eq_bind, Option.bind_some]
  cases w with
  | none =>
    refine ⟨none, rfl, fun i => ⟨fun h => (by cases h), ?_⟩⟩
    rintro ⟨x, hx, hxt, -, hxp⟩
    exact absurd ⟨hxt, hxp⟩ (e2 rfl x (List.mem_of_getElem? hx))
  | some w =>
    obtain ⟨a, b⟩ := w
    obtain ⟨hab, hb, hiff⟩ := e3 a b rfl
    dsimp only
    obtain ⟨ws, wf⟩ := window_sorted h hg (t := t) (a := a) (b := b) fun i x hx h1 h2 => ((hiff i x hx).mp ⟨h1, h2⟩).1
    set view := ((g.ghosts.drop a).take (b - a)).map fun x => x.1.2 with hview
    have hget : ∀ j y, view[j]? = some y ↔ a + j < b ∧ ∃ x, g.ghosts[a + j]? = some x ∧ x.1.2 = y := by
      intro j y
      rw [hview, List.getElem?_map, Option.map_eq_some_iff]
      constructor
      · rintro ⟨x, hx, rfl⟩
        rw [List.getElem?_take] at hx
        split at hx
        · rw [List.getElem?_drop] at hx
          exact ⟨by omega, x, hx, rfl⟩
        · cases hx
      · rintro ⟨hj, x, hx, rfl⟩
        refine ⟨x, ?_, rfl⟩
        rw [List.getElem?_take, if_pos (by omega), List.getElem?_drop]
        exact hx
    have hvv : ∀ y ∈ view, Valid y := fun y hy => forest_valid h (wf y hy)
    have hlen : view.length = b - a - 1 + 1 := by
      rw [hview, List.length_map, List.length_take, List.length_drop]
      omega
    have hrange := hbs (compare q) view (b - a - 1) hlen (sorted_for hd hq hvv ws)
    set k := bsr (compare q) view (b - a - 1) with hk
    -- the entry read
    obtain ⟨y, hy⟩ : ∃ y, view[k]? = some y := by
      rcases hrange with ⟨y, -, hy, -⟩ | ⟨hk', -⟩
      · exact ⟨y, hy⟩
      · exact ⟨_, List.getElem?_eq_getElem (by omega)⟩
    rw [hy]
    simp only [Option.bind_some]
    have hyv := hvv y (List.mem_of_getElem? hy)
    have htest : (isEqual y q || isAncestor y q) = true ↔ Cells q ⊆ Cells y := by
      rw [Bool.or_eq_true, isEqual_iff, C02_is_ancestor_iff hd y q hyv.extended hq.extended]
      constructor
      · rintro (rfl | c)
        · exact subset_rfl
        · exact c.1
      · intro c
        by_cases e : y = q
        · exact Or.inl e
        · exact Or.inr (valid_ssubset_of_ne hd hyv hq c (fun e' => e e'.symm))
    -- an entry around the quadrant is the one read
    have honly : ∀ j z, view[j]? = some z → Cells q ⊆ Cells z → j = k := by
      intro j z hz hqz
      have hzv := hvv z (List.mem_of_getElem? hz)
      -- an entry after `z` is after `q`
      have hafter : ∀ j' z', j < j' → view[j']? = some z' → compare q z' < 0 := by
        intro j' z' hjj hz'
        have hz'v := hvv z' (List.mem_of_getElem? hz')
        have hbf : Before z z' := by
          obtain ⟨l1, e1⟩ := List.getElem?_eq_some_iff.mp hz
          obtain ⟨l2, e2⟩ := List.getElem?_eq_some_iff.mp hz'
          rw [← e1, ← e2]
          exact List.pairwise_iff_getElem.mp ws j j' l1 l2 hjj
        rw [compare_neg_iff hd hq.int32 hz'v.int32]
        by_contra hnb
        have hne : z ≠ z' := fun e => (e ▸ hbf).irrefl
        have hdis : ∀ c, c ∈ Cells z → c ∉ Cells z' := fun c h1 h2 =>
          hne (forest_disjoint h (wf z (List.mem_of_getElem? hz)) (wf z' (List.mem_of_getElem? hz')) h1 h2)
        have p1 := start_lt_stop q
        have i1 := (subset_iff_interval hd hzv.aligned hq.aligned hzv.int32 hq.int32).mp hqz
        have i2 := (before_disjoint_iff hzv.aligned hz'v.aligned hzv.int32 hz'v.int32).mp
          ⟨hbf, Set.eq_empty_of_forall_notMem fun c hc => hdis c hc.1 hc.2⟩
        exact hnb (Or.inl (show start q < start z' by omega))
      have hge : compare q z ≥ 0 := by
        by_contra hc
        have hb := (compare_neg_iff hd hq.int32 hzv.int32).mp (not_le.mp hc)
        have i1 := (subset_iff_interval hd hzv.aligned hq.aligned hzv.int32 hq.int32).mp hqz
        have i2 := (cells_subset_iff hd hzv.aligned hq.aligned).mp hqz
        rcases hb with hb | hb
        · exact absurd (show start q < start z from hb) (by omega)
        · have := hb.2
          omega
      have hpw := sorted_for hd hq hvv ws
      have hbefore : ∀ j' z', j' ≤ j → view[j']? = some z' → compare q z' ≥ 0 := by
        intro j' z' hjj hz'
        rcases Nat.lt_or_eq_of_le hjj with c | c
        · obtain ⟨l1, e1⟩ := List.getElem?_eq_some_iff.mp hz
          obtain ⟨l2, e2⟩ := List.getElem?_eq_some_iff.mp hz'
          have := (List.pairwise_iff_getElem.mp hpw j' j l2 l1 c).2
          rw [e1, e2] at this
          exact this hge
        · rw [c, hz, Option.some.injEq] at hz'
          rw [← hz']
          exact hge
      have hjl : j < view.length := (List.getElem?_eq_some_iff.mp hz).1
      rcases hrange with ⟨u, v, hu, hv, hu0, hv0⟩ | ⟨hk', ⟨u, hu, hu0⟩ | ⟨u, hu, hu0⟩⟩
      · rcases Nat.lt_trichotomy j k with c | c | c
        · have := hafter k u c hu; omega
        · exact c
        · have := hbefore (k + 1) v c hv; omega
      · have := hbefore 0 u (by omega) hu; omega
      · rcases Nat.lt_or_eq_of_le (show j ≤ k by omega) with c | c
        · have := hafter (b - a - 1) u (by omega) hu; omega
        · exact c
    refine ⟨_, rfl, fun i => ?_⟩
    constructor
    · intro hi
      split at hi
      · rename_i hc
        rw [Option.some.injEq] at hi
        obtain ⟨hk1, x, hx, hxy⟩ := (hget _ _).mp hy
        obtain ⟨k1, k2⟩ := (hiff _ x hx).mp ⟨by omega, hk1⟩
        refine ⟨x, ?_, k1, ?_, k2⟩
        · rw [← hi, Nat.add_comm]; exact hx
        · rw [hxy]; exact htest.mp hc
      · cases hi
    · rintro ⟨x, hx, hxt, hxq, hxp⟩
      have hin := (hiff i x hx).mpr ⟨hxt, hxp⟩
      have hz : view[i - a]? = some x.1.2 := (hget _ _).mpr ⟨by omega, x, by rw [show a + (i - a) = i by omega]; exact hx, rfl⟩
      have hik := honly _ _ hz hxq
      rw [hik, hy, Option.some.injEq] at hz
      rw [if_pos (htest.mpr (by rw [hz]; exact hxq))]
      congr 1
      omega

end

end P4est
