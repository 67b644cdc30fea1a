import Verif.Model.ForestOps
import Verif.Props.PartitionExt
import Verif.Props.Forest

/-! # Lemmas on refining and coarsening a whole forest -/

namespace P4est
open Spec

variable {d : ℕ} {α σ : Type}

/-! ### One tree -/

/-- The leaves `n` take the place of the leaves `o`: they are legal and fill the same part of the curve. -/
structure Regrain (o n : List (Quad d × α)) : Prop where
  valid : ∀ x ∈ n, Valid x.1
  path : ∀ a b, Path a (o.map Prod.fst) b → Path a (n.map Prod.fst) b
  empty : o = [] ↔ n = []

theorem Regrain.nil : Regrain (d := d) (α := α) [] [] := ⟨by simp, fun _ _ h => h, Iff.rfl⟩

structure Refined (o n : List (Quad d × α)) : Prop extends Regrain o n where
  le : o.length ≤ n.length
  same : o.length = n.length → n.map Prod.fst = o.map Prod.fst
  inside : ∀ x ∈ n, ∃ y ∈ o, Cells x.1 ⊆ Cells y.1

structure Coarsened (o n : List (Quad d × α)) : Prop extends Regrain o n where
  le : n.length ≤ o.length
  same : o.length = n.length → n.map Prod.fst = o.map Prod.fst
  inside : ∀ y ∈ o, ∃ x ∈ n, Cells y.1 ⊆ Cells x.1

theorem Refined.nil : Refined (d := d) (α := α) [] [] := ⟨Regrain.nil, le_rfl, fun _ => rfl, by simp⟩
theorem Coarsened.nil : Coarsened (d := d) (α := α) [] [] := ⟨Regrain.nil, le_rfl, fun _ => rfl, by simp⟩

theorem treeOf_toList (x : Quad d × α) (l : List (Quad d × α)) :
    (treeOf x l).quads.toList = (x :: l).map fun y => ⟨y.1, y.2⟩ := by
  apply List.ext_getElem
  · simp [treeOf, LArr.toList]
  · intro i h1 h2
    simp only [LArr.toList, List.getElem_map, List.getElem_range]
    simp only [List.length_map] at h2
    simp [treeOf, List.getElem?_eq_getElem h2]

theorem quadsOf_treeOf (x : Quad d × α) (l : List (Quad d × α)) :
    quadsOf (treeOf x l) = (x :: l).map Prod.fst := by
  rw [quadsOf, treeOf_toList, List.map_map]; rfl

theorem leaves_quads (t : Tree d α) : t.leaves.map Prod.fst = quadsOf t := by
  rw [Tree.leaves, quadsOf, List.map_map]; rfl

theorem path_ne_nil {a b : ℕ} {l : List (Quad d)} (h : Path a l b) (hab : a < b) : l ≠ [] := by
  rintro rfl
  have : a = b := h
  omega

/-- A list that fills the interval of a legal quadrant has at least one element, and if it has one it
is that quadrant. -/
theorem path_single (hd : 0 < d) {q : Quad d} (hq : Valid q) {l : List (Quad d)} (hv : ∀ r ∈ l, Valid r)
    (h : Path (start q) l (stop q)) : 1 ≤ l.length ∧ (l.length = 1 → l = [q]) := by
  have hne := path_ne_nil h (start_lt_stop q)
  refine ⟨List.length_pos_iff.mpr hne, fun h1 => ?_⟩
  obtain ⟨r, rfl⟩ := List.length_eq_one_iff.mp h1
  have h2 : start q = start r ∧ stop r = stop q := h
  have hr := hv r (by simp)
  rw [eq_of_interval hd hr.aligned hq.aligned hr.int32 hq.int32 (by omega) (by omega)]

theorem runAll_same (hd : 0 < d) {f : Leaf d α → σ → List (Leaf d α) × σ} {l : List (Leaf d α)} (s : σ)
    (hl : ∀ x ∈ l, Valid x.q)
    (hf : ∀ x ∈ l, ∀ s, Path (start x.q) ((f x s).1.map Leaf.q) (stop x.q) ∧ ∀ r ∈ (f x s).1, Valid r.q) :
    l.length ≤ (runAll f l s).1.length ∧
      (l.length = (runAll f l s).1.length → (runAll f l s).1.map Leaf.q = l.map Leaf.q) := by
  induction l generalizing s with
  | nil => exact ⟨le_rfl, fun _ => rfl⟩
  | cons x l ih =>
    obtain ⟨h1, h2⟩ := hf x (by simp) s
    obtain ⟨h3, h4⟩ := path_single hd (hl x (by simp)) (by
      intro r hr
      obtain ⟨y, hy, rfl⟩ := List.mem_map.mp hr
      exact h2 y hy) h1
    rw [List.length_map] at h3 h4
    obtain ⟨h5, h6⟩ := ih (f x s).2 (fun y hy => hl y (by simp [hy])) (fun y hy => hf y (by simp [hy]))
    rw [runAll]
    simp only [List.length_cons, List.length_append, List.map_append, List.map_cons]
    refine ⟨by omega, fun he => ?_⟩
    rw [h4 (by omega), h6 (by omega)]
    rfl

theorem refineLeaves_spec (hd : 0 < d) (cb : ℕ → RefineCb d α σ) (recursive : Bool) (allowed : ℕ) (hal : allowed ≤ 29)
    (nt : ℕ) (l : List (Quad d × α)) (s : σ) (hv : ∀ x ∈ l, Valid x.1) :
    ∃ l' s', refineLeaves cb recursive allowed nt l s = some (l', s') ∧ Refined l l' := by
  match l with
  | [] => exact ⟨[], s, rfl, Refined.nil⟩
  | x :: l =>
    have hv' : ∀ q ∈ quadsOf (treeOf x l), Valid q := by
      rw [quadsOf_treeOf]
      intro q hq
      obtain ⟨y, hy, rfl⟩ := List.mem_map.mp hq
      exact hv y hy
    obtain ⟨t', he, hl, -, -, -⟩ := refineTree_eq hd (cb nt) recursive allowed (treeOf x l) s
    obtain ⟨t1, s1, he1, hv1, hin1, -, -⟩ := C17_refine_invariants hd (cb nt) recursive allowed hal (treeOf x l) s hv'
    rw [he] at he1
    simp only [Option.some.injEq, Prod.mk.injEq] at he1
    obtain ⟨rfl, -⟩ := he1
    have hvx : ∀ y ∈ (treeOf x l).quads.toList, Valid y.q := fun y hy => hv' _ (List.mem_map_of_mem hy)
    have key : ∀ y ∈ (treeOf x l).quads.toList, ∀ s,
        Path (start y.q) ((leafResult (cb nt) recursive allowed y s).1.map Leaf.q) (stop y.q) ∧
        ∀ r ∈ (leafResult (cb nt) recursive allowed y s).1, Valid r.q := by
      intro y hy s
      have := (hvx y hy).1
      obtain ⟨h1, h2⟩ := splitLeaf_tiles (makeChildren_quads (cb nt)) recursive (allowed - y.q.level) y s (hvx y hy) (by omega)
      exact ⟨h1, fun r hr => (h2 r hr).1⟩
    obtain ⟨hle, hsame⟩ := runAll_same hd s hvx key
    rw [← hl] at hle hsame
    have hlen : t'.leaves.length = t'.quads.toList.length := by simp [Tree.leaves]
    have hlen' : (x :: l).length = (treeOf x l).quads.toList.length := by simp [treeOf_toList]
    have hpath : ∀ a b, Path a (quadsOf (treeOf x l)) b → Path a (quadsOf t') b := by
      intro a b h
      unfold quadsOf at *
      rw [hl]
      exact runAll_path s h fun x hx s => (key x hx s).1
    refine ⟨t'.leaves, _, by rw [refineLeaves, he]; rfl, ⟨?_, ?_, ?_⟩, ?_, ?_, ?_⟩
    · intro y hy
      apply hv1
      rw [← leaves_quads]; exact List.mem_map_of_mem hy
    · intro a b h
      rw [← quadsOf_treeOf] at h
      rw [leaves_quads]; exact hpath a b h
    · constructor
      · intro h; simp at h
      · intro h
        rw [h] at hlen
        simp only [List.length_nil] at hlen
        rw [← hlen', ← hlen] at hle
        simp at hle
    · omega
    · intro h
      rw [leaves_quads, ← quadsOf_treeOf]
      exact hsame (by omega)
    · intro y hy
      obtain ⟨q, hq, h1⟩ := hin1 y.1 (by rw [← leaves_quads]; exact List.mem_map_of_mem hy)
      rw [quadsOf_treeOf] at hq
      obtain ⟨z, hz, rfl⟩ := List.mem_map.mp hq
      refine ⟨z, hz, ?_⟩
      rcases h1 with h1 | ⟨h1, -⟩
      · rw [h1]
      · exact h1.subset

theorem coarsenLeaves_spec (hd : 0 < d) (cb : ℕ → CoarsenCb d α σ) (recursive orphans : Bool)
    (nt : ℕ) (l : List (Quad d × α)) (s : σ) (hv : ∀ x ∈ l, Valid x.1) (hg : Gapless (l.map Prod.fst)) :
    ∃ l' s', coarsenLeaves cb recursive orphans nt l s = some (l', s') ∧ Coarsened l l' := by
  match l with
  | [] => exact ⟨[], s, rfl, Coarsened.nil⟩
  | x :: l =>
    have hv' : ∀ q ∈ quadsOf (treeOf x l), Valid q := by
      rw [quadsOf_treeOf]
      intro q hq
      obtain ⟨y, hy, rfl⟩ := List.mem_map.mp hq
      exact hv y hy
    rw [← quadsOf_treeOf] at hg
    have hlen' : (x :: l).length = (treeOf x l).quads.toList.length := by simp [treeOf_toList]
    obtain ⟨a, b, hG⟩ := good_of hv' hg
    set L0 := (treeOf x l).quads.toList with hL0
    obtain ⟨t', w, rem, off, s', he, hG', hP, -, -, hrem, -⟩ := coarsenTree_good hd (cb nt) recursive orphans (treeOf x l)
      0 s hG
      (fun L _ _ => L ≠ [] ∧ (L.map Leaf.q = L0.map Leaf.q ∨ L.length < L0.length) ∧ L.length ≤ L0.length) (by
        rintro L w s p x s' hGL hw hp hpl hf hx hask hmk ⟨-, -, h2⟩
        have h3 : 2 ^ 1 ≤ 2 ^ d := Nat.pow_le_pow_right (by omega) hd
        refine ⟨by simp, Or.inr ?_, ?_⟩ <;> simp only [List.length_append, List.length_cons, List.length_take, List.length_drop] <;> omega)
      (fun L w s p _ _ _ _ _ _ h => h) (fun L w s x _ _ _ _ h => h) ⟨by rw [treeOf_toList]; simp, Or.inl rfl, le_rfl⟩
    obtain ⟨t1, rem1, off1, s1, he1, hv1, -, -, -, -, hin, -⟩ := C19_coarsen_invariants hd (cb nt) recursive orphans
      (treeOf x l) 0 s hv' hg
    rw [he] at he1
    simp only [Option.some.injEq, Prod.mk.injEq] at he1
    obtain ⟨rfl, -⟩ := he1
    have hlen : t'.leaves.length = t'.quads.toList.length := by simp [Tree.leaves]
    refine ⟨t'.leaves, _, by rw [coarsenLeaves, he]; rfl, ⟨?_, ?_, ?_⟩, ?_, ?_, ?_⟩
    · intro y hy
      apply hv1
      rw [← leaves_quads]; exact List.mem_map_of_mem hy
    · intro u v h
      rw [leaves_quads]
      rw [← quadsOf_treeOf] at h
      have h1 : u = start x.1 := by rw [quadsOf_treeOf] at h; exact h.1
      have h2 : a = start x.1 := by
        have := hG.2
        change Path a (quadsOf (treeOf x l)) b at this
        rw [quadsOf_treeOf] at this; exact this.1
      subst h1 h2
      rw [h.inj hG.2]
      exact hG'.2
    · constructor
      · intro h; simp at h
      · intro h
        have := hP.1
        rw [h, List.length_nil] at hlen
        exact absurd (List.length_eq_zero_iff.mp hlen.symm) this
    · rw [hlen, hlen']; exact hP.2.2
    · intro h
      rw [leaves_quads, ← quadsOf_treeOf]
      rcases hP.2.1 with h1 | h1
      · exact h1
      · omega
    · intro y hy
      obtain ⟨z, hz, h1⟩ := hin ⟨y.1, y.2⟩ (by rw [treeOf_toList]; exact List.mem_map_of_mem hy)
      refine ⟨(z.q, z.data), List.mem_map_of_mem hz, ?_⟩
      rcases h1 with h1 | h1
      · rw [h1]
      · exact h1.subset

/-! ### One rank -/

theorem overLocal_spec {β : Type} (R : List β → List β → Prop) (hnil : R [] []) (ok : List β → Prop)
    {g : ℕ → List β → σ → Option (List β × σ)} (hg : ∀ nt l s, ok l → ∃ l' s', g nt l s = some (l', s') ∧ R l l')
    (first last : ℤ) (n : ℕ) (ls : List (List β)) (s : σ) (hok : ∀ l ∈ ls, ok l)
    (hout : ∀ i l, ls[i]? = some l → ¬ (first ≤ (n + i : ℕ) ∧ ((n + i : ℕ) : ℤ) ≤ last) → l = []) :
    ∃ ls' s', overLocal g first last n ls s = some (ls', s') ∧ List.Forall₂ R ls ls' := by
  induction ls generalizing n s with
  | nil => exact ⟨[], s, rfl, List.Forall₂.nil⟩
  | cons l ls ih =>
    have hout' : ∀ i l, ls[i]? = some l → ¬ (first ≤ (n + 1 + i : ℕ) ∧ ((n + 1 + i : ℕ) : ℤ) ≤ last) → l = [] := by
      intro i l h1 h2
      exact hout (i + 1) l (by simpa using h1) (by rwa [show n + (i + 1) = n + 1 + i by omega])
    rw [overLocal]
    split
    · obtain ⟨l', s', h1, h2⟩ := hg n l s (hok l (by simp))
      obtain ⟨ls', s'', h3, h4⟩ := ih (n + 1) s' (fun m hm => hok m (by simp [hm])) hout'
      exact ⟨l' :: ls', s'', by rw [h1]; simp only [Option.bind_eq_bind, Option.bind_some]; rw [h3]; rfl, h4.cons h2⟩
    · rename_i hc
      obtain ⟨ls', s'', h3, h4⟩ := ih (n + 1) s (fun m hm => hok m (by simp [hm])) hout'
      refine ⟨l :: ls', s'', by rw [h3]; rfl, List.Forall₂.cons ?_ h4⟩
      rw [hout 0 l (by simp) (by simpa using hc)]
      exact hnil

/-- The trees outside the local range of a rank have no leaves. -/
theorem Spec.Holds.outside {β : Type} {T : ℕ} {L : List (ℕ × β)} {rt : RankTrees β} (h : Holds T L rt) (i : ℕ) (l : List β)
    (hi : rt.trees[i]? = some l) (hc : ¬ (rt.first ≤ (i : ℕ) ∧ (i : ℤ) ≤ rt.last)) : l = [] := by
  have h1 : leavesIn L i = l := by rw [← h.split, leavesIn_forest, List.getD_eq_getElem?_getD, hi]; rfl
  rw [← h1, leavesIn_eq_nil]
  intro x hx hxi
  have hs := h.sorted
  apply hc
  rw [h.first, h.last]
  obtain ⟨y, hy⟩ : ∃ y, L.head? = some y := by cases L with | nil => simp at hx | cons y l => exact ⟨y, rfl⟩
  obtain ⟨z, hz⟩ : ∃ z, L.getLast? = some z := by
    cases L with | nil => simp at hx | cons y l => exact ⟨_, List.getLast?_eq_some_getLast (by simp)⟩
  rw [hy, hz]
  simp only [Option.elim_some]
  constructor
  · cases L with
    | nil => simp at hx
    | cons u l =>
      simp only [List.head?_cons, Option.some.injEq] at hy
      subst hy
      rcases List.mem_cons.mp hx with rfl | hx
      · omega
      · have := List.rel_of_pairwise_cons hs hx
        omega
  · obtain ⟨M, rfl⟩ := List.getLast?_eq_some_iff.mp hz
    rcases List.mem_append.mp hx with hx | hx
    · have := (List.pairwise_append.mp hs).2.2 x hx z (by simp)
      omega
    · simp only [List.mem_singleton] at hx
      subst hx; omega

theorem forall2_head {R : List (Quad d × α) → List (Quad d × α) → Prop} (hR : ∀ o n, R o n → (o = [] ↔ n = []))
    {ls ls' : List (List (Quad d × α))} (h : List.Forall₂ R ls ls') (a : ℕ) :
    ((tagFrom a ls').head?.map Prod.fst = (tagFrom a ls).head?.map Prod.fst) ∧
      ((tagFrom a ls').getLast?.map Prod.fst = (tagFrom a ls).getLast?.map Prod.fst) := by
  induction h generalizing a with
  | nil => exact ⟨rfl, rfl⟩
  | @cons o n ls ls' hon _ ih =>
    obtain ⟨h1, h2⟩ := ih (a + 1)
    have h3 := hR o n hon
    have h4 : tagFrom (a + 1) ls = [] ↔ tagFrom (a + 1) ls' = [] := by
      rw [← List.head?_eq_none_iff, ← Option.map_eq_none_iff (f := Prod.fst), ← h1, Option.map_eq_none_iff,
        List.head?_eq_none_iff]
    rw [tagFrom, tagFrom, List.head?_append, List.head?_append, List.getLast?_append, List.getLast?_append]
    constructor
    · cases o with
      | nil => rw [h3.mp rfl]; simpa using h1
      | cons x o =>
        cases n with
        | nil => simp at h3
        | cons y n => simp
    · by_cases he : tagFrom (a + 1) ls = []
      · rw [he, h4.mp he]
        cases o with
        | nil => rw [h3.mp rfl]
        | cons x o =>
          cases n with
          | nil => simp at h3
          | cons y n =>
            rw [List.getLast?_eq_some_getLast (l := List.map (fun q => (a, q)) (x :: o)) (by simp),
              List.getLast?_eq_some_getLast (l := List.map (fun q => (a, q)) (y :: n)) (by simp)]
            simp only [List.getLast?_nil, Option.none_or, Option.map_some, Option.some.injEq]
            have hh : ∀ (M : List (Quad d × α)) (hM : M.map (fun q => (a, q)) ≠ []),
                ((M.map (fun q => (a, q))).getLast hM).1 = a := by
              intro M hM
              obtain ⟨z, -, hz⟩ := List.mem_map.mp (List.getLast_mem hM)
              rw [← hz]
            rw [hh, hh]
      · have he' : tagFrom (a + 1) ls' ≠ [] := fun h => he (h4.mpr h)
        rw [List.getLast?_eq_some_getLast he, List.getLast?_eq_some_getLast he'] at h2 ⊢
        simpa using h2

theorem holds_regrain {T : ℕ} {L : List (ℕ × (Quad d × α))} {rt : RankTrees (Quad d × α)} (h : Holds T L rt)
    {R : List (Quad d × α) → List (Quad d × α) → Prop} (hR : ∀ o n, R o n → (o = [] ↔ n = []))
    {ls : List (List (Quad d × α))} (hls : List.Forall₂ R rt.trees ls) :
    Holds T (forestLeaves ls) { rt with trees := ls } := by
  obtain ⟨h1, h2⟩ := forall2_head hR hls 0
  refine ⟨by rw [← h.trees]; exact hls.length_eq.symm, rfl, ?_, ?_⟩
  · show rt.first = _
    rw [h.first, ← h.split, forestLeaves, forestLeaves]
    cases h3 : (tagFrom 0 rt.trees).head? <;> cases h4 : (tagFrom 0 ls).head? <;> rw [h3, h4] at h1 <;> simp at h1 ⊢
    exact h1.symm
  · show rt.last = _
    rw [h.last, ← h.split, forestLeaves, forestLeaves]
    cases h3 : (tagFrom 0 rt.trees).getLast? <;> cases h4 : (tagFrom 0 ls).getLast? <;> rw [h3, h4] at h2 <;> simp at h2 ⊢
    exact h2.symm

theorem backfill_tree {g h : ℕ → GPos d} (hgh : ∀ i, (g i).tree = (h i).tree) (n i : ℕ) :
    (backfill g n i).tree = (backfill h n i).tree := by
  induction n generalizing g h with
  | zero => exact hgh i
  | succ n ih =>
    rw [backfill, backfill]
    apply ih
    intro j
    rw [hgh n]
    split
    · by_cases hj : j = n
      · subst hj; simp [hgh]
      · simp [Function.update_of_ne hj, hgh]
    · exact hgh j

theorem globalPartition_tree {L L' : ℕ → List (ℕ × Quad d)} {P T : ℕ}
    (h : ∀ p, p < P → (L' p).head?.map Prod.fst = (L p).head?.map Prod.fst) :
    (globalPartition L' P T).map GPos.tree = (globalPartition L P T).map GPos.tree := by
  -- beyond the ranks the input is not read, so it may be exchanged
  have hsub : ∀ (M : ℕ → List (ℕ × Quad d)), globalPartition M P T = globalPartition (fun p => if p < P then M p else []) P T := by
    intro M
    unfold globalPartition
    have key : ∀ (n : ℕ) (g h : ℕ → GPos d), (∀ i, i ≤ P → g i = h i) → n ≤ P → ∀ i, i ≤ P → backfill g n i = backfill h n i := by
      intro n
      induction n with
      | zero => intro g h hgh _ i hi; exact hgh i hi
      | succ n ih =>
        intro g h hgh hn i hi
        rw [backfill, backfill]
        apply ih _ _ _ (by omega) i hi
        intro j hj
        rw [hgh n (by omega), hgh (n + 1) hn]
        split
        · by_cases hjn : j = n
          · subst hjn; simp
          · simp [Function.update_of_ne hjn, hgh j hj]
        · exact hgh j hj
    apply List.map_congr_left
    intro i hi
    rw [List.mem_range] at hi
    apply key P _ _ _ le_rfl i (by omega)
    intro j hj
    by_cases hjP : j = P
    · simp [hjP]
    · rw [if_neg hjP, if_neg hjP]
      show _ = rankInput (if j < P then M j else [])
      rw [if_pos (by omega)]
  rw [hsub L, hsub L']
  unfold globalPartition
  rw [List.map_map, List.map_map]
  apply List.map_congr_left
  intro i _
  simp only [Function.comp_apply]
  apply backfill_tree
  intro j
  by_cases hjP : j = P
  · simp [hjP]
  · rw [if_neg hjP, if_neg hjP]
    by_cases hj : j < P
    · rw [if_pos hj, if_pos hj]
      have := h j hj
      cases h1 : L j <;> cases h2 : L' j <;> simp [h1, h2] at this <;> simp [rankInput, this]
    · rw [if_neg hj, if_neg hj]

/-! ### All ranks -/

theorem path_parts {P : ℕ} {L : ℕ → List (Quad d)} {a b : ℕ} (h : Path a ((List.range P).flatMap L) b) :
    ∃ c : ℕ → ℕ, c 0 = a ∧ c P = b ∧ ∀ p, p < P → Path (c p) (L p) (c (p + 1)) := by
  induction P generalizing b with
  | zero => exact ⟨fun _ => a, rfl, h, by simp⟩
  | succ P ih =>
    rw [List.range_succ, List.flatMap_append, path_append] at h
    obtain ⟨m, h1, h2⟩ := h
    obtain ⟨c, hc0, hcP, hc⟩ := ih h1
    simp only [List.flatMap_cons, List.flatMap_nil, List.append_nil] at h2
    refine ⟨fun p => if p ≤ P then c p else b, by simp [hc0], by simp, fun p hp => ?_⟩
    simp only
    by_cases hpP : p = P
    · subst hpP; simp [hcP, h2]
    · rw [if_pos (by omega), if_pos (by omega)]; exact hc p (by omega)

theorem path_join {P : ℕ} {L : ℕ → List (Quad d)} {c : ℕ → ℕ} (h : ∀ p, p < P → Path (c p) (L p) (c (p + 1))) :
    Path (c 0) ((List.range P).flatMap L) (c P) := by
  induction P with
  | zero => exact rfl
  | succ P ih =>
    rw [List.range_succ, List.flatMap_append, path_append]
    exact ⟨c P, ih fun p hp => h p (by omega), by simpa using h P (by omega)⟩

/-- The part of a tree on one rank: legal leaves without gaps. -/
theorem forest_part (hd : 0 < d) {f : Forest d α} {trees : List (List (Quad d × α))} {P : ℕ}
    {leaves : ℕ → List (ℕ × (Quad d × α))} (hf : ForestHolds f trees P leaves) (t : ℕ) (ht : t < trees.length) :
    ∃ c : ℕ → ℕ, c 0 = 0 ∧ c P = 2 ^ (d * 30) ∧ ∀ p, p < P →
      Path (c p) (((f.ranks p).trees.getD t []).map Prod.fst) (c (p + 1)) ∧
      ∀ x ∈ (f.ranks p).trees.getD t [], Valid x.1 := by
  have h1 : trees.getD t [] = (List.range P).flatMap fun p => (f.ranks p).trees.getD t [] := by
    rw [← leavesIn_forest, ← hf.forest.split, leavesIn_flatMap]
    apply List.flatMap_congr
    intro p hp
    rw [← (hf.ranks p (List.mem_range.mp hp)).split, leavesIn_forest]
  have h2 : trees.getD t [] ∈ trees := by
    rw [List.getD_eq_getElem?_getD, List.getElem?_eq_getElem ht]; exact List.getElem_mem ht
  have hc := hf.forest.complete _ h2
  have hp := hc.path hd
  rw [h1, List.map_flatMap] at hp
  obtain ⟨c, h3, h4, h5⟩ := path_parts hp
  refine ⟨c, h3, h4, fun p hp => ⟨h5 p hp, fun x hx => ?_⟩⟩
  apply hc.valid
  rw [h1]
  exact List.mem_map_of_mem (List.mem_flatMap.mpr ⟨p, List.mem_range.mpr hp, hx⟩)

theorem forall2_getD {β : Type} {R : List β → List β → Prop} (hnil : R [] []) {ls ls' : List (List β)}
    (h : List.Forall₂ R ls ls') (t : ℕ) : R (ls.getD t []) (ls'.getD t []) := by
  induction h generalizing t with
  | nil => simpa using hnil
  | cons h _ ih =>
    cases t with
    | zero => simpa using h
    | succ t => simpa using ih t

theorem mem_forest_iff {β : Type} {ls : List (List β)} {x : ℕ × β} : x ∈ forestLeaves ls ↔ x.2 ∈ ls.getD x.1 [] := by
  rw [← leavesIn_forest]
  simp only [leavesIn, List.mem_map, List.mem_filter, decide_eq_true_eq]
  constructor
  · exact fun h => ⟨x, ⟨h, rfl⟩, rfl⟩
  · rintro ⟨y, ⟨h1, h2⟩, h3⟩
    have : y = x := Prod.ext h2 h3
    rw [← this]; exact h1

theorem forestLeaves_length {β : Type} (ls : List (List β)) : (forestLeaves ls).length = (ls.map List.length).sum := by
  have : ∀ (n : ℕ) (ls : List (List β)), (tagFrom n ls).length = (ls.map List.length).sum := by
    intro n ls
    induction ls generalizing n with
    | nil => rfl
    | cons l ls ih => simp [tagFrom, ih]
  exact this 0 ls

theorem exists_ranks {γ : Type} {P : ℕ} {Q : ℕ → γ → Prop} (h : ∀ p, p < P → ∃ x, Q p x) [Nonempty γ] :
    ∃ x : ℕ → γ, ∀ p, p < P → Q p (x p) := by
  classical
  obtain ⟨x0⟩ := ‹Nonempty γ›
  refine ⟨fun p => if hp : p < P then (h p hp).choose else x0, fun p hp => ?_⟩
  simp only [hp, dif_pos]
  exact (h p hp).choose_spec

theorem overRanks_spec (hd : 0 < d) {f : Forest d α} {trees : List (List (Quad d × α))} {P : ℕ}
    {leaves : ℕ → List (ℕ × (Quad d × α))} (hf : ForestHolds f trees P leaves)
    (R : List (Quad d × α) → List (Quad d × α) → Prop) (hnil : R [] []) (hR : ∀ o n, R o n → Regrain o n)
    {g : ℕ → List (Quad d × α) → σ → Option (List (Quad d × α) × σ)}
    (hg : ∀ nt l s, (∀ x ∈ l, Valid x.1) → Gapless (l.map Prod.fst) → ∃ l' s', g nt l s = some (l', s') ∧ R l l')
    (s : ℕ → σ) :
    ∃ f' s' trees', overRanks P g f s = some (f', s') ∧
      ForestHolds f' trees' P (fun p => forestLeaves (f'.ranks p).trees) ∧
      (∀ p, p < P → List.Forall₂ R (f.ranks p).trees (f'.ranks p).trees) ∧
      f'.revision = if f.globalNum ≠ f'.globalNum then f.revision + 1 else f.revision := by
  set T := trees.length with hT
  -- every rank
  have hrank : ∀ p, p < P → ∃ o : List (List (Quad d × α)) × σ,
      overLocal g (f.ranks p).first (f.ranks p).last 0 (f.ranks p).trees (s p) = some o ∧
      List.Forall₂ R (f.ranks p).trees o.1 := by
    intro p hp
    obtain ⟨ls', s', h1, h2⟩ := overLocal_spec R hnil (fun l => (∀ x ∈ l, Valid x.1) ∧ Gapless (l.map Prod.fst))
      (fun nt l s h => hg nt l s h.1 h.2) (f.ranks p).first (f.ranks p).last 0 (f.ranks p).trees (s p) (by
        intro l hl
        obtain ⟨t, ht, rfl⟩ := List.getElem_of_mem hl
        obtain ⟨c, -, -, h3⟩ := forest_part hd hf t (by rw [← (hf.ranks p hp).trees]; exact ht)
        have h4 := h3 p hp
        rw [List.getD_eq_getElem?_getD, List.getElem?_eq_getElem ht] at h4
        exact ⟨h4.2, h4.1.gapless⟩) (by
        intro i l h3 h4
        exact (hf.ranks p hp).outside i l h3 (by simpa using h4))
    exact ⟨(ls', s'), h1, h2⟩
  rcases Nat.eq_zero_or_pos P with hP | hP
  · exfalso
    have h1 := hf.forest.split
    rw [hP] at h1
    have h2 : forestLeaves trees = [] := h1.symm
    obtain ⟨l, hl⟩ := List.exists_mem_of_ne_nil _ hf.forest.someTree
    obtain ⟨t, ht, rfl⟩ := List.getElem_of_mem hl
    have h3 := (hf.forest.complete _ hl).path hd
    have h4 := leavesIn_forest t trees
    rw [h2, List.getD_eq_getElem?_getD, List.getElem?_eq_getElem ht] at h4
    have h5 : trees[t] = [] := h4.symm
    rw [h5] at h3
    exact path_ne_nil h3 (by positivity) rfl
  haveI : Nonempty (List (List (Quad d × α)) × σ) := ⟨(hrank 0 hP).choose⟩
  obtain ⟨o, ho⟩ := exists_ranks hrank
  have hmap : (List.range P).mapM (fun p => overLocal g (f.ranks p).first (f.ranks p).last 0 (f.ranks p).trees (s p)) =
      some ((List.range P).map o) := mapM_some fun p hp => (ho p (List.mem_range.mp hp)).1
  set ranks : ℕ → RankTrees (Quad d × α) := fun p => (((List.range P).map o)[p]?).elim (f.ranks p) fun o =>
    { f.ranks p with trees := o.1 } with hranks
  have hr : ∀ p, p < P → ranks p = { f.ranks p with trees := (o p).1 } := by
    intro p hp
    simp [hranks, hp]
  have hall : ∀ p, p < P → List.Forall₂ R (f.ranks p).trees (ranks p).trees := by
    intro p hp
    rw [hr p hp]; exact (ho p hp).2
  have hempty : ∀ o n, R o n → (o = [] ↔ n = []) := fun o n h => (hR o n h).empty
  have hhold : ∀ p, p < P → Holds T (forestLeaves (ranks p).trees) (ranks p) := by
    intro p hp
    have := holds_regrain (hf.ranks p hp) hempty (ho p hp).2
    rw [hr p hp]; exact this
  have hloc : ∀ p, localNum (ranks p) = (((forestLeaves (ranks p).trees).length : ℕ) : ℤ) := by
    intro p; rw [localNum, forestLeaves_length]
  have hcount := C28_count_quadrants (fun p => (forestLeaves (ranks p).trees).length) P
  have hgfq : ∀ p, p ≤ P → countQuadrants (fun p => localNum (ranks p)) P p =
      ((∑ i ∈ Finset.range p, (forestLeaves (ranks i).trees).length : ℕ) : ℤ) := by
    intro p hp
    simp only [hloc]
    exact hcount.1 p hp
  have htags : ∀ p, p < P → ∀ x ∈ forestLeaves (ranks p).trees, ∃ y ∈ leaves p, y.1 = x.1 := by
    intro p hp x hx
    rw [mem_forest_iff] at hx
    have h1 := hempty _ _ (forall2_getD hnil (hall p hp) x.1)
    have h2 : (f.ranks p).trees.getD x.1 [] ≠ [] := by
      intro h
      rw [h1.mp h] at hx; simp at hx
    obtain ⟨y, hy⟩ := List.exists_mem_of_ne_nil _ h2
    refine ⟨(x.1, y), ?_, rfl⟩
    rw [← (hf.ranks p hp).split, mem_forest_iff]; exact hy
  have hsorted : TreeSorted ((List.range P).flatMap leaves) := by
    rw [hf.forest.split]; exact treeSorted_tagFrom 0 _
  have hsorted' : TreeSorted ((List.range P).flatMap fun p => forestLeaves (ranks p).trees) := by
    unfold TreeSorted at *
    rw [List.pairwise_flatMap] at hsorted ⊢
    refine ⟨fun p _ => treeSorted_tagFrom 0 _, ?_⟩
    refine hsorted.2.imp_of_mem ?_
    intro p q hp hq h x hx y hy
    obtain ⟨x', hx', h1⟩ := htags p (List.mem_range.mp hp) x hx
    obtain ⟨y', hy', h2⟩ := htags q (List.mem_range.mp hq) y hy
    have := h x' hx' y' hy'
    omega
  set trees' := (List.range T).map fun t => (List.range P).flatMap fun p => (ranks p).trees.getD t [] with htrees'
  have hsplit : (List.range P).flatMap (fun p => forestLeaves (ranks p).trees) = forestLeaves trees' := by
    have h1 := hsorted'.eq_forest T (by
      intro x hx
      obtain ⟨p, hp, hx⟩ := List.mem_flatMap.mp hx
      rw [mem_forest_iff] at hx
      by_contra hc
      rw [List.getD_eq_getElem?_getD, List.getElem?_eq_none (by rw [(hhold p (List.mem_range.mp hp)).trees]; omega)] at hx
      simp at hx)
    rw [h1]
    congr 1
    apply List.map_congr_left
    intro t _
    rw [leavesIn_flatMap]
    simp only [leavesIn_forest]
  have hcomp : ∀ l ∈ trees', TreeComplete (l.map Prod.fst) := by
    intro l hl
    obtain ⟨t, ht, rfl⟩ := List.mem_map.mp hl
    rw [List.mem_range] at ht
    obtain ⟨c, h1, h2, h3⟩ := forest_part hd hf t ht
    apply treeComplete_of_path
    · intro q hq
      obtain ⟨x, hx, rfl⟩ := List.mem_map.mp hq
      obtain ⟨p, hp, hx⟩ := List.mem_flatMap.mp hx
      exact (hR _ _ (forall2_getD hnil (hall p (List.mem_range.mp hp)) t)).valid x hx
    · rw [List.map_flatMap, ← h1, ← h2]
      apply path_join
      intro p hp
      exact (hR _ _ (forall2_getD hnil (hall p hp) t)).path _ _ (h3 p hp).1
  have hgn : (countQuadrants (fun p => localNum (ranks p)) P P).toNat = (forestLeaves trees').length := by
    rw [hgfq P le_rfl, ← hsplit, List.length_flatMap]
    rfl
  refine ⟨_, _, trees', by rw [overRanks, hmap]; rfl, ?_, hall, ?_⟩
  · refine ⟨⟨hcomp, ?_, hsplit⟩, ?_, ?_, ?_, hgfq, ?_, hgn⟩
    · intro h
      have h1 : trees'.length = T := by simp [htrees']
      rw [h] at h1
      exact hf.forest.someTree (List.length_eq_zero_iff.mp h1.symm)
    · show f.numTrees = _
      rw [hf.numTrees]; simp [htrees', hT]
    · have h1 : trees'.length = T := by simp [htrees']
      rw [h1]; exact hf.few
    · intro p hp
      have h1 : trees'.length = T := by simp [htrees']
      rw [h1]; exact hhold p hp
    · show f.gfpTree = _
      have h1 : trees'.length = T := by simp [htrees']
      rw [hf.gfpTree, h1]
      symm
      apply globalPartition_tree
      intro p hp
      have h2 := (forall2_head hempty (hall p hp) 0).1
      simp only [bare, List.head?_map, Option.map_map]
      rw [← (hf.ranks p hp).split]
      exact h2
  · show (if (f.globalNum : ℤ) ≠ countQuadrants (fun p => localNum (ranks p)) P P then _ else _) = _
    show _ = if f.globalNum ≠ (countQuadrants (fun p => localNum (ranks p)) P P).toNat then _ else _
    rw [hgfq P le_rfl, Int.toNat_natCast]
    simp only [ne_eq, Nat.cast_inj]

end P4est
