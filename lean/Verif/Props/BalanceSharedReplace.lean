import Verif.Model.BalanceExchangeReplace
import Verif.Props.BalanceShared
import Verif.Props.BalanceReplace

/-! # C96 with the replace callback -/

namespace P4est
open Spec

variable {d : ℕ} {α σ : Type} {k : ℕ}

/-- The division of the leaves of one list is determined by what each leaf contains. -/
theorem divisions_eq (hd : 0 < d) {f l : Quad d} (hf : Valid f) (hl : Valid l) (hlt : start f ≤ stop l)
    {Q A B : List (Quad d)} {N : Quad d → Quad d → Prop} (hQ : Tiles f l Q) (hA : Tiles f l A) (hB : Tiles f l B)
    (fA : AsFineAs A Q) (fB : AsFineAs B Q)
    (cA : ∀ q ∈ Q, ∀ r, Aligned r → r.level ≤ 29 → Cells r ⊆ Cells q → ((∃ u ∈ A, Cells r ⊆ Cells u) ↔ N q r))
    (cB : ∀ q ∈ Q, ∀ r, Aligned r → r.level ≤ 29 → Cells r ⊆ Cells q → ((∃ u ∈ B, Cells r ⊆ Cells u) ↔ N q r)) : A = B := by
  have home : ∀ {C : List (Quad d)}, Tiles f l C → AsFineAs C Q → ∀ x ∈ C, ∃ q ∈ Q, Cells x ⊆ Cells q := by
    intro C hC fC x hx
    have hm : x.c ∈ Cover C := ⟨x, hx, corner_mem x⟩
    rw [hC.cover, ← hQ.cover] at hm
    obtain ⟨q, hq, hxq⟩ := hm
    refine ⟨q, hq, ?_⟩
    rcases laminar (hC.valid x hx).aligned (hQ.valid q hq).aligned ⟨_, corner_mem x, hxq⟩ with h | h
    · by_contra hn
      exact fC x hx q hq ⟨h, hn⟩
    · exact h
  have apart : ∀ {C : List (Quad d)}, Tiles f l C → ∀ v ∈ C, ∀ y ∈ C, (Cells v ∩ Cells y).Nonempty → v = y := by
    intro C hC v hv y hy hm
    by_contra hne
    have hdis := path_apart ((tiles_iff hd hf hl hlt hC.valid).mp hC) hv hy hne
    have h1 := hC.valid v hv
    have h2 := hC.valid y hy
    have := start_lt_stop v
    have := start_lt_stop y
    rcases laminar h1.aligned h2.aligned hm with h | h
    · rw [valid_subset_iff hd h1 h2] at h; omega
    · rw [valid_subset_iff hd h2 h1] at h; omega
  refine eq_of_paths ((tiles_iff hd hf hl hlt hA.valid).mp hA) ((tiles_iff hd hf hl hlt hB.valid).mp hB) hA.valid hB.valid ?_
  rintro x hx y hy ⟨p, px, py⟩
  have vx := hA.valid x hx
  have vy := hB.valid y hy
  obtain ⟨q, hq, hxq⟩ := home hA fA x hx
  obtain ⟨q', hq', hyq⟩ := home hB fB y hy
  obtain ⟨v, hv, hxv⟩ := (cB q hq x vx.aligned vx.1 hxq).mpr ((cA q hq x vx.aligned vx.1 hxq).mp ⟨x, hx, le_rfl⟩)
  obtain ⟨u, hu, hyu⟩ := (cA q' hq' y vy.aligned vy.1 hyq).mpr ((cB q' hq' y vy.aligned vy.1 hyq).mp ⟨y, hy, le_rfl⟩)
  have e1 := apart hB v hv y hy ⟨p, hxv px, py⟩
  have e2 := apart hA u hu x hx ⟨p, hyu py, px⟩
  rw [e1] at hxv
  rw [e2] at hyu
  exact cells_inj hd vx.aligned vy.aligned (hxv.antisymm hyu)

/-- **C96, with a replace callback.** The leaves of all processes are the same as without the callback, so that all of
`C96_balance_shared_partial` holds for them.  On each process the calls of the callback tell how each leaf became the
leaves in its place (C97), and a quantity that the callback conserves in each call is conserved.  `T` records the calls.
Partial as `C96_balance_shared_partial`. -/
theorem C96_replace_partial (hdim : d = 2 ∨ d = 3) {bs : (Quad d → ℤ) → List (Quad d) → Option ℕ} (hbs : Searches bs)
    (init : Quad d → σ → α × σ) (replace : List (Leaf d α) → List (Leaf d α) → σ → (ℕ → α) × σ)
    (k : ℕ) (hk : 1 ≤ k) (hkd : k ≤ d) (hedge : ¬ (d = 3 ∧ k = 2)) (n : ℕ)
    (ends : ℕ → Quad d × Quad d) (ts : ℕ → Tree d α) (ss : ℕ → σ)
    (hends : ∀ j < n, Valid (ends j).1 ∧ (ends j).1.level = 29 ∧ Valid (ends j).2 ∧ (ends j).2.level = 29)
    (hne : ∀ j < n, quadsOf (ts j) ≠ []) (htiles : ∀ j < n, Tiles (ends j).1 (ends j).2 (quadsOf (ts j)))
    (hall : TreeComplete ((List.range n).flatMap fun j => quadsOf (ts j))) (i : ℕ) (hi : i < n) :
    ∃ t' s' T, balanceSharedExt bs (watchInit init) (watchReplace replace) k n ends ts (fun j => (ss j, [])) i =
        some (t', (s', T)) ∧
      (∃ t0 s0, balanceShared bs init k n ends ts ss i = some (t0, s0) ∧ quadsOf t0 = quadsOf t') ∧
      (CountersOk (ts i) → CountersOk t') ∧
      (∃ (O : Quad d → List (Leaf d α)) (S1 S2 : Quad d → List (ReplaceCall d α)),
        t'.quads.toList = (ts i).quads.toList.flatMap (fun x => O x.q) ∧
        T = (ts i).quads.toList.flatMap (fun x => S1 x.q) ++ (ts i).quads.toList.flatMap (fun x => S2 x.q) ∧
        ∀ x ∈ (ts i).quads.toList, Becomes init replace (quadsOf t') x (O x.q) (S1 x.q ++ S2 x.q)) ∧
      ∀ (M : Type) [AddCommMonoid M] (w : Leaf d α → M), Conserves replace w →
        (t'.quads.toList.map w).sum = ((ts i).quads.toList.map w).sum := by
  have hd : 0 < d := by omega
  have hpos : ∀ j < n, start (ends j).1 < stop (ends j).2 := by
    intro j hj
    obtain ⟨q, hq⟩ := List.exists_mem_of_ne_nil _ (hne j hj)
    have := (section_iff hd ((htiles j hj).valid q hq)).mp (by
      rw [← (htiles j hj).cover]; exact fun p hp => ⟨q, hq, hp⟩)
    have := start_lt_stop q
    omega
  -- the first pass
  have hfirst : ∀ j < n, ∃ (y : Tree d α × (σ × List (ReplaceCall d α)) × List (Leaf d α)) (y0 : Tree d α × σ × List (Leaf d α)),
      balanceSubtreeExt bs (watchInit init) (watchReplace replace) k (ends j).1 (ends j).2 (ts j) (ss j, []) = some y ∧
      balanceSubtree bs init k (ends j).1 (ends j).2 (ts j) (ss j) = some y0 ∧ quadsOf y0.1 = quadsOf y.1 ∧
      PartOk k ⟨(ends j).1, (ends j).2, quadsOf y.1⟩ := by
    intro j hj
    obtain ⟨f1, f2, l1, l2⟩ := hends j hj
    obtain ⟨t1, s1, T1, a1, a2, a3, ⟨t0, s0, fr, a4, a5⟩, -⟩ := C97_replace hdim hbs init replace k hk hkd _ _ f1 f2 l1 l2
      (ts j) (ss j) (hne j hj) (htiles j hj)
    exact ⟨_, _, a1, a4, a5, ⟨f1, f2, l1, l2⟩, a2,
      path_ne_nil ((tiles_iff hd f1 l1 (hpos j hj).le a2.valid).mp a2) (hpos j hj), a3⟩
  have : Inhabited (Tree d α × (σ × List (ReplaceCall d α)) × List (Leaf d α)) := ⟨(ts 0, (ss 0, []), [])⟩
  have : Inhabited (Tree d α × σ × List (Leaf d α)) := ⟨(ts 0, ss 0, [])⟩
  choose! y y0 y1 y2 y3 y4 using hfirst
  let Ps : ℕ → Part d := fun j => ⟨(ends j).1, (ends j).2, (((List.range n).map y)[j]?).elim []
    fun x : Tree d α × (σ × List (ReplaceCall d α)) × List (Leaf d α) => x.1.quads.toList.map Leaf.q⟩
  have hPs : ∀ j < n, Ps j = ⟨(ends j).1, (ends j).2, quadsOf (y j).1⟩ := by
    intro j hj
    show (⟨_, _, _⟩ : Part d) = _
    rw [List.getElem?_map, List.getElem?_range hj]
    rfl
  let Ps0 : ℕ → Part d := fun j => ⟨(ends j).1, (ends j).2, (((List.range n).map y0)[j]?).elim []
    fun x : Tree d α × σ × List (Leaf d α) => x.1.quads.toList.map Leaf.q⟩
  have hPs0 : Ps0 = Ps := by
    funext j
    show (⟨_, _, _⟩ : Part d) = ⟨_, _, _⟩
    rw [List.getElem?_map, List.getElem?_map]
    rcases Nat.lt_or_ge j n with hj | hj
    · rw [List.getElem?_range hj]
      show (⟨_, _, quadsOf (y0 j).1⟩ : Part d) = ⟨_, _, quadsOf (y j).1⟩
      rw [y3 j hj]
    · rw [List.getElem?_eq_none (by simpa using hj)]
      rfl
  -- where the parts begin
  have hpath : ∀ j < n, Path (start (ends j).1) (quadsOf (ts j)) (stop (ends j).2) := by
    intro j hj
    obtain ⟨f1, f2, l1, l2⟩ := hends j hj
    exact (tiles_iff hd f1 l1 (hpos j hj).le (htiles j hj).valid).mp (htiles j hj)
  obtain ⟨m, m1, m2, m3⟩ := path_flatMap.mp (complete_path hd hall)
  have hm : ∀ j < n, m j = start (ends j).1 ∧ m (j + 1) = stop (ends j).2 := by
    intro j hj
    have h1 := m3 j hj
    have h2 := hpath j hj
    have h3 : m j = start (ends j).1 := by
      cases hc : quadsOf (ts j) with
      | nil => exact absurd hc (hne j hj)
      | cons q ls =>
        rw [hc] at h1 h2
        exact h1.1.trans h2.1.symm
    exact ⟨h3, Path.inj h1 (h3 ▸ h2)⟩
  have hmono : ∀ i j, i ≤ j → j ≤ n → m i ≤ m j := by
    intro i j hij hjn
    induction j, hij using Nat.le_induction with
    | base => exact le_rfl
    | succ j hij ih => exact (ih (by omega)).trans (m3 j (by omega)).le
  have hap' : ∀ i < n, ∀ j < n, i < j → Section (ends i).1 (ends i).2 ∩ Section (ends j).1 (ends j).2 = ∅ := by
    intro i hi j hj hij
    rw [Set.eq_empty_iff_forall_notMem]
    rintro p ⟨⟨-, -, h1⟩, -, h2, -⟩
    have := (hm i hi).2
    have := (hm j hj).1
    have := hmono (i + 1) j hij hj.le
    omega
  have hap : ∀ i < n, ∀ j < n, i ≠ j → Section (Ps i).f (Ps i).l ∩ Section (Ps j).f (Ps j).l = ∅ := by
    intro i hi j hj hij
    rcases Nat.lt_or_gt_of_ne hij with h | h
    · exact hap' i hi j hj h
    · rw [Set.inter_comm]
      exact hap' j hj i hi h
  have hPok : ∀ j < n, PartOk k (Ps j) := fun j hj => by rw [hPs j hj]; exact y4 j hj
  -- the second pass
  obtain ⟨f1, f2, l1, l2⟩ := hends i hi
  obtain ⟨B, b1, b2, -⟩ := merged_spec hdim hk hkd hedge hPok hap hi
  rw [hPs i hi] at b2
  obtain ⟨t1, s1, T1, a1, a2, a3, -, a5⟩ := C97_replace hdim hbs init replace k hk hkd _ _ f1 f2 l1 l2
    (ts i) (ss i) (hne i hi) (htiles i hi)
  have hy := y1 i hi
  rw [a1, Option.some.injEq] at hy
  have hy1 : (y i).1 = t1 := by rw [← hy]
  have hy2 : (y i).2.1 = (s1, T1) := by rw [← hy]
  rw [hy1] at b2
  obtain ⟨t2, s2, T2, c1, c2, c3, c4, c5, c6, ⟨O, S1, S2, c7, c8, c9, c10⟩, c11⟩ := a5 B b2
  have hne1 : quadsOf t1 ≠ [] := path_ne_nil ((tiles_iff hd f1 l1 (hpos i hi).le a2.valid).mp a2) (hpos i hi)
  have hq0 : quadsOf (y0 i).1 = quadsOf t1 := by rw [y3 i hi, hy1]
  obtain ⟨t0, s0, e1, e2, e3, -, -, e6, -⟩ := C92_balance_border hdim hbs init k hk hkd _ _ f1 f2 l1 l2 (y0 i).1 (y0 i).2.1
    (by rw [hq0]; exact hne1) (by rw [hq0]; exact a2) B (by rw [hq0]; exact b2)
  rw [hq0] at e3 e6
  refine ⟨t2, s2, T1 ++ T2, ?_, ⟨t0, s0, ?_, ?_⟩, c6, ⟨O, S1, S2, c7, by rw [← c8, ← c9], c10⟩, c11⟩
  · unfold balanceSharedExt
    rw [range_mapM_some (g := y) _ fun j hj => y1 j (List.mem_range.mp hj)]
    have e : ((List.range n).map y)[i]? = some (y i) := by rw [List.getElem?_map, List.getElem?_range hi]; rfl
    show ((List.range n).map y)[i]?.bind _ = _
    rw [e]
    show (mergedBorder k n Ps i).bind _ = _
    rw [b1]
    show (balanceBorderExt bs (watchInit init) (watchReplace replace) k (ends i).1 (ends i).2 B (y i).1 (y i).2.1).bind _ = _
    rw [hy1, hy2, c1]
    rfl
  · unfold balanceShared
    rw [range_mapM_some (g := y0) _ fun j hj => y2 j (List.mem_range.mp hj)]
    have e : ((List.range n).map y0)[i]? = some (y0 i) := by rw [List.getElem?_map, List.getElem?_range hi]; rfl
    show ((List.range n).map y0)[i]?.bind _ = _
    rw [e]
    show (mergedBorder k n Ps0 i).bind _ = _
    rw [hPs0, b1]
    show (balanceBorder bs init k (ends i).1 (ends i).2 B (y0 i).1 (y0 i).2.1).bind _ = _
    rw [e1]
    rfl
  · exact divisions_eq hd f1 l1 (hpos i hi).le a2 e2 c2 e3 c3 e6 c5

/-- Non-vacuity: the two processes of `steepParts_case` meet the hypotheses.  The area of the leaves is a quantity that
every callback conserves. -/
example : (∀ j < 2, quadsOf (steepParts j) ≠ []) ∧ (∀ j < 2, Tiles (steepEnds j).1 (steepEnds j).2 (quadsOf (steepParts j))) ∧
    TreeComplete ((List.range 2).flatMap fun j => quadsOf (steepParts j)) ∧
    ¬ Balanced 1 ((List.range 2).flatMap fun j => quadsOf (steepParts j)) ∧
    Conserves (d := 2) (α := Unit) (σ := Unit) (fun _ _ s => (fun _ => (), s)) fun x => ((1 / 4 : ℚ) ^ x.q.level) := by
  obtain ⟨-, h2, h3, h4, -, h6, -⟩ := steepParts_case
  refine ⟨h2, h3, h4, h6, ?_⟩
  intro x inc s h
  have hlen : inc.length = 4 := by
    have := congrArg List.length h
    simpa [kids] using this
  have hlev : ∀ y ∈ inc, y.q.level = x.q.level + 1 := by
    intro y hy
    have : y.q ∈ kids x.q := by rw [← h]; exact List.mem_map_of_mem hy
    unfold kids at this
    obtain ⟨c, -, e⟩ := List.mem_map.mp this
    rw [← e]
    rfl
  match inc, hlen with
  | [a, b, c, e], _ =>
    have h1 := hlev a (by simp)
    have h2 := hlev b (by simp)
    have h3 := hlev c (by simp)
    have h4 := hlev e (by simp)
    simp [List.mapIdx_cons, h1, h2, h3, h4, pow_succ]
    ring

end P4est
