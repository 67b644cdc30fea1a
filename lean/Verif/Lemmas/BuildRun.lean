import Verif.Lemmas.Build

/-! # The invariant of building a forest -/

namespace P4est

open Spec

variable {d : ℕ} {α β σ : Type}

theorem newAdds_snoc (done ops : List (AddOp d α σ)) (o : AddOp d α σ) :
    newAdds done (ops ++ [o]) =
      if ∃ p ∈ done ++ ops, p.tree = o.tree ∧ p.q = o.q then ((newAdds done ops).1, (newAdds done ops).2 ++ [false])
      else ((newAdds done ops).1 ++ [o], (newAdds done ops).2 ++ [true]) := by
  induction ops generalizing done with
  | nil =>
    simp only [List.nil_append, List.append_nil, newAdds]
  | cons x ops ih =>
    rw [List.cons_append, newAdds, ih, newAdds]
    simp only [List.append_assoc, List.singleton_append]
    split_ifs <;> rfl

theorem initEach_snoc (ops : List (AddOp d α σ)) (o : AddOp d α σ) (s : σ) :
    initEach (ops ++ [o]) s = ((initEach ops s).1 ++ [⟨o.q, (o.init o.q (initEach ops s).2).1⟩],
      (o.init o.q (initEach ops s).2).2) := by
  induction ops generalizing s with
  | nil => rfl
  | cons x ops ih => simp only [List.cons_append, initEach, ih]

/-- A finished tree. -/
theorem buildEnd_spec (hd : 0 < d) (hd3 : d ≤ 3) (bs : (Quad d → ℤ) → List (Quad d) → Option ℕ)
    (init : Quad d → σ → α × σ) (b : Build d α) (s : σ) (hf : Valid (b.forest.fdesc b.cur))
    (hf9 : (b.forest.fdesc b.cur).level = 29) (hl : Valid (b.forest.ldesc b.cur))
    (hl9 : (b.forest.ldesc b.cur).level = 29) {F : List (Quad d)} (hne : F ≠ [])
    (hT : Tiles (b.forest.fdesc b.cur) (b.forest.ldesc b.cur) F) (hm : ∀ q ∈ F, q.level ≤ b.curMax)
    (hv : ∀ q ∈ quadsOf (b.forest.trees b.cur), Valid q)
    (hs : ∀ q ∈ quadsOf (b.forest.trees b.cur), Cells q ⊆ Section (b.forest.fdesc b.cur) (b.forest.ldesc b.cur))
    (hlin : Linear (quadsOf (b.forest.trees b.cur))) (hc : CountersOk (b.forest.trees b.cur)) :
    ∃ t' s', buildEnd bs init b s = some (b.setTree b.cur t', s', (b.forest.trees b.cur).offset + (quadsOf t').length) ∧
      BuiltTree init (b.forest.fdesc b.cur) (b.forest.ldesc b.cur) (b.forest.trees b.cur).quads.toList s t' s' ∧
      t'.offset = (b.forest.trees b.cur).offset := by
  have hlen : ∀ t : Tree d α, (t.quads.count : ℤ) = (quadsOf t).length := by
    intro t; simp [quadsOf, LArr.toList]
  unfold buildEnd
  dsimp only
  by_cases h0 : (b.forest.trees b.cur).quads.count = 0
  · have hq0 : (b.forest.trees b.cur).quads.toList = [] := by simp [LArr.toList, h0]
    have hz : ∀ l, (b.forest.trees b.cur).perLevel l = 0 := by
      intro l
      rw [hc.1, quadsOf, hq0]; rfl
    obtain ⟨t', s', h1, h2, h3⟩ := buildFill_spec hd init hf hf9 hl hl9 hne hT hm (b.forest.trees b.cur) s h0 hz
    refine ⟨t', s', ?_, by rw [hq0]; exact h2, h3⟩
    rw [if_pos h0, obind h1]
    dsimp only
    rw [h3, hlen]
  · have hqn : quadsOf (b.forest.trees b.cur) ≠ [] := by
      intro h
      have := congrArg List.length h
      simp [quadsOf, LArr.toList] at this
      exact h0 this
    obtain ⟨t', s', h1, h2, h3, h4, h5, h6, h7⟩ :=
      C53_complete_subtree hd hd3 bs init _ _ hf hf9 hl hl9 (b.forest.trees b.cur) s hqn hv hlin hs
    refine ⟨t', s', ?_, ⟨h2, h3, h4, ?_, h7 hc⟩, h6⟩
    · rw [if_neg h0, obind h1]
      dsimp only
      change some (b.setTree b.cur t', s', t'.offset + (t'.quads.count : ℤ)) = _
      rw [h6, hlen]
    · intro v hvv hvs h
      apply h5 v hvv hvs
      intro q hq
      obtain ⟨x, hx, rfl⟩ := List.mem_map.mp hq
      exact h x hx

/-- The quadrants added to tree `i`. -/
def addsTo (ops : List (AddOp d α σ)) (i : ℕ) : List (AddOp d α σ) := (newAdds [] ops).1.filter (fun o => o.tree = i)

/-- A tree to which nothing has been done yet. -/
def freshTree (mem : ℕ → Leaf d α) (from_ : LocalForest d β) (i : ℕ) : Tree d α :=
  ⟨⟨mem, 0⟩, fun _ => 0, (from_.trees i).maxlevel, 0⟩

/-- After the calls `ops`. -/
structure BuildInv (init : Quad d → σ → α × σ) (mem : ℕ → Leaf d α) (from_ : LocalForest d β) (s0 : σ)
    (ops : List (AddOp d α σ)) (b : Build d α) (s : σ) (S : ℕ → σ) : Prop where
  low : from_.firstLocal ≤ b.cur
  high : b.cur ≤ from_.lastLocal
  e1 : b.forest.numTrees = from_.numTrees
  e2 : b.forest.firstLocal = from_.firstLocal
  e3 : b.forest.lastLocal = from_.lastLocal
  e4 : b.forest.fdesc = from_.fdesc
  e5 : b.forest.ldesc = from_.ldesc
  maxl : b.curMax = (from_.trees b.cur).maxlevel
  fresh : ∀ i : ℕ, i < from_.firstLocal ∨ b.cur < i → b.forest.trees i = freshTree mem from_ i
  s0 : S from_.firstLocal.toNat = s0
  built : ∀ i : ℕ, from_.firstLocal ≤ i → i < b.cur → BuiltTree init (from_.fdesc i) (from_.ldesc i)
    (initEach (addsTo ops i) (S i)).1 (initEach (addsTo ops i) (S i)).2 (b.forest.trees i) (S (i + 1))
  current : ((b.forest.trees b.cur).quads.toList, s) = initEach (addsTo ops b.cur) (S b.cur)
  offset : ∀ i ≤ b.cur, (b.forest.trees i).offset = ((∑ k ∈ Finset.range i, (quadsOf (b.forest.trees k)).length : ℕ) : ℤ)
  counters : CountersOk (b.forest.trees b.cur)
  prev : b.prev = (quadsOf (b.forest.trees b.cur)).getLast?
  valid : ∀ q ∈ quadsOf (b.forest.trees b.cur), Valid q
  inside : ∀ q ∈ quadsOf (b.forest.trees b.cur), Cells q ⊆ Section (from_.fdesc b.cur) (from_.ldesc b.cur)
  lin : Linear (quadsOf (b.forest.trees b.cur))
  done : ∀ o ∈ ops, o.tree ≤ b.cur
  mem : ∀ o ∈ ops, o.tree = b.cur → o.q ∈ quadsOf (b.forest.trees b.cur)

theorem setTree_cur (b : Build d α) (t : Tree d α) : (b.setTree b.cur t).forest.trees b.cur = t := by
  simp [Build.setTree]

theorem setTree_ne (b : Build d α) (t : Tree d α) {i j : ℕ} (h : j ≠ i) :
    (b.setTree i t).forest.trees j = b.forest.trees j := by
  simp [Build.setTree, h]

theorem sum_length_congr {f g : ℕ → Tree d α} {n : ℕ} (h : ∀ k < n, f k = g k) :
    (∑ k ∈ Finset.range n, (quadsOf (f k)).length) = ∑ k ∈ Finset.range n, (quadsOf (g k)).length :=
  Finset.sum_congr rfl fun k hk => by rw [h k (Finset.mem_range.mp hk)]

/-- Finish the current tree. -/
theorem BuildInv.finish (hd : 0 < d) (hd3 : d ≤ 3) (bs : (Quad d → ℤ) → List (Quad d) → Option ℕ)
    {init : Quad d → σ → α × σ} {mem : ℕ → Leaf d α} {from_ : LocalForest d β} {s0 : σ} {ops : List (AddOp d α σ)}
    {b : Build d α} {s : σ} {S : ℕ → σ} (hT : TemplateOk from_) (h : BuildInv init mem from_ s0 ops b s S) :
    ∃ t' s', buildEnd bs init b s = some (b.setTree b.cur t', s', (b.forest.trees b.cur).offset + (quadsOf t').length) ∧
      BuiltTree init (from_.fdesc b.cur) (from_.ldesc b.cur) (initEach (addsTo ops b.cur) (S b.cur)).1
        (initEach (addsTo ops b.cur) (S b.cur)).2 t' s' ∧ t'.offset = (b.forest.trees b.cur).offset := by
  have hF := hT.fdesc b.cur h.low h.high
  have hL := hT.ldesc b.cur h.low h.high
  obtain ⟨l1, l2, l3⟩ := hT.leaves b.cur h.low h.high
  obtain ⟨t', s', k1, k2, k3⟩ := buildEnd_spec hd hd3 bs init b s (by rw [h.e4]; exact hF.1) (by rw [h.e4]; exact hF.2)
    (by rw [h.e5]; exact hL.1) (by rw [h.e5]; exact hL.2) l1 (by rw [h.e4, h.e5]; exact l2)
    (by rw [h.maxl]; exact l3.2.1) h.valid (by rw [h.e4, h.e5]; exact h.inside) h.lin h.counters
  refine ⟨t', s', k1, ?_, k3⟩
  rw [h.e4, h.e5] at k2
  rw [← h.current]
  exact k2

theorem BuildInv.step (hd : 0 < d) (hd3 : d ≤ 3) (bs : (Quad d → ℤ) → List (Quad d) → Option ℕ)
    {init : Quad d → σ → α × σ} {mem : ℕ → Leaf d α} {from_ : LocalForest d β} {s0 : σ} {ops : List (AddOp d α σ)}
    {b : Build d α} {s : σ} {S : ℕ → σ} (hT : TemplateOk from_) (h : BuildInv init mem from_ s0 ops b s S)
    (hlt : (b.cur : ℤ) < from_.lastLocal) :
    ∃ b' s' off, buildEnd bs init b s = some (b', s', off) ∧ b'.cur = b.cur ∧
      ∃ S', BuildInv init mem from_ s0 ops (buildBegin b' (b'.cur + 1) off) s' S' ∧
        ∀ i ≤ b.cur, S' i = S i := by
  obtain ⟨t', s', k1, k2, k3⟩ := h.finish hd hd3 bs hT
  refine ⟨_, _, _, k1, rfl, Function.update S (b.cur + 1) s', ?_, ?_⟩
  swap
  · intro i hi
    rw [Function.update_of_ne (by omega)]
  have hlow := h.low
  have hcur : (b.setTree b.cur t').cur = b.cur := rfl
  rw [hcur]
  have hfr := h.fresh (b.cur + 1) (Or.inr (by omega))
  have tnew : (buildBegin (b.setTree b.cur t') (b.cur + 1)
      ((b.forest.trees b.cur).offset + (quadsOf t').length)).forest.trees (b.cur + 1) =
      ⟨⟨mem, 0⟩, fun _ => 0, 0, (b.forest.trees b.cur).offset + (quadsOf t').length⟩ := by
    simp [buildBegin, Build.setTree, hfr, freshTree]
  have told : ∀ i, i ≠ b.cur + 1 → (buildBegin (b.setTree b.cur t') (b.cur + 1)
      ((b.forest.trees b.cur).offset + (quadsOf t').length)).forest.trees i =
      (b.setTree b.cur t').forest.trees i := by
    intro i hi
    simp [buildBegin, Build.setTree, hi]
  have hmx : (buildBegin (b.setTree b.cur t') (b.cur + 1)
      ((b.forest.trees b.cur).offset + (quadsOf t').length)).curMax = (from_.trees (b.cur + 1)).maxlevel := by
    simp [buildBegin, Build.setTree, hfr, freshTree]
  have hq0 : ∀ o, quadsOf (⟨⟨mem, 0⟩, fun _ => 0, 0, o⟩ : Tree d α) = [] := fun o => rfl
  have hnone : ∀ o ∈ ops, o.tree ≠ b.cur + 1 := fun o ho => by have := h.done o ho; omega
  have hadds : addsTo ops (b.cur + 1) = [] := by
    unfold addsTo
    rw [List.filter_eq_nil_iff]
    intro o ho
    have hsub : ∀ (done l : List (AddOp d α σ)), ∀ o ∈ (newAdds done l).1, o ∈ l := by
      intro done l
      induction l generalizing done with
      | nil => intro o ho; exact ho
      | cons x l ih =>
        intro o ho
        rw [newAdds] at ho
        split_ifs at ho
        · exact List.mem_cons_of_mem _ (ih _ o ho)
        · rcases List.mem_cons.mp ho with rfl | ho
          · simp
          · exact List.mem_cons_of_mem _ (ih _ o ho)
    simpa using hnone o (hsub _ _ o ho)
  generalize hB : buildBegin (b.setTree b.cur t') (b.cur + 1)
      ((b.forest.trees b.cur).offset + (quadsOf t').length) = B at *
  have hBc : B.cur = b.cur + 1 := by rw [← hB]; rfl
  have g1 : B.forest.numTrees = b.forest.numTrees := by rw [← hB]; rfl
  have g2 : B.forest.firstLocal = b.forest.firstLocal := by rw [← hB]; rfl
  have g3 : B.forest.lastLocal = b.forest.lastLocal := by rw [← hB]; rfl
  have g4 : B.forest.fdesc = b.forest.fdesc := by rw [← hB]; rfl
  have g5 : B.forest.ldesc = b.forest.ldesc := by rw [← hB]; rfl
  have g6 : B.prev = none := by rw [← hB]; rfl
  refine ⟨by rw [hBc]; push_cast; omega, by rw [hBc]; push_cast; omega, g1.trans h.e1, g2.trans h.e2, g3.trans h.e3, g4.trans h.e4, g5.trans h.e5,
    by rw [hBc]; exact hmx, ?_, ?_, ?_, ?_, ?_, ?_, ?_, ?_, ?_, ?_, ?_, ?_⟩
  · intro i hi
    rw [hBc] at hi
    rw [told i (by omega), setTree_ne _ _ (by omega)]
    exact h.fresh i (by omega)
  · rw [Function.update_of_ne (by omega)]; exact h.s0
  · intro i hi hi2
    rw [hBc] at hi2
    rw [told i (by omega), Function.update_of_ne (show i ≠ b.cur + 1 by omega)]
    rcases Nat.lt_or_ge i b.cur with hh | hh
    · rw [Function.update_of_ne (by omega), setTree_ne _ _ (by omega)]
      exact h.built i hi hh
    · have : i = b.cur := by omega
      subst this
      rw [Function.update_self, setTree_cur]
      exact k2
  · rw [hBc, tnew, hadds, Function.update_self]; rfl
  · intro i hi
    rw [hBc] at hi
    rcases Nat.lt_or_ge i (b.cur + 1) with hh | hh
    · have : ∀ k < i, B.forest.trees k = b.forest.trees k := by
        intro k hk
        rw [told k (by omega), setTree_ne _ _ (by omega)]
      rw [sum_length_congr this, told i (by omega)]
      rcases Nat.lt_or_ge i b.cur with hh2 | hh2
      · rw [setTree_ne _ _ (by omega)]; exact h.offset i (by omega)
      · have : i = b.cur := by omega
        subst this
        rw [setTree_cur, k3]; exact h.offset _ le_rfl
    · have : i = b.cur + 1 := by omega
      subst this
      rw [tnew, Finset.sum_range_succ]
      have : ∀ k < b.cur, B.forest.trees k = b.forest.trees k := by
        intro k hk
        rw [told k (by omega), setTree_ne _ _ (by omega)]
      rw [sum_length_congr this, told b.cur (by omega), setTree_cur]
      push_cast
      rw [h.offset b.cur le_rfl]
      push_cast
      rfl
  · rw [hBc, tnew]
    exact ⟨fun l => rfl, by rw [hq0]; simp, Or.inr ⟨hq0 _, rfl⟩⟩
  · rw [hBc, tnew, g6, hq0]; rfl
  · rw [hBc, tnew, hq0]; simp
  · rw [hBc, tnew, hq0]; simp
  · rw [hBc, tnew, hq0]; exact List.Pairwise.nil
  · intro o ho
    have := h.done o ho
    omega
  · intro o ho hh
    rw [hBc] at hh
    exact absurd hh (hnone o ho)

theorem buildAdvance_spec (hd : 0 < d) (hd3 : d ≤ 3) (bs : (Quad d → ℤ) → List (Quad d) → Option ℕ)
    {init : Quad d → σ → α × σ} {mem : ℕ → Leaf d α} {from_ : LocalForest d β} {s0 : σ} {ops : List (AddOp d α σ)}
    (hT : TemplateOk from_) (w : ℕ) (hw : w ≤ from_.lastLocal) (b : Build d α) (s : σ) (S : ℕ → σ)
    (h : BuildInv init mem from_ s0 ops b s S) (hcw : b.cur ≤ w) :
    ∃ b' s' S', buildAdvance bs init w b s = some (b', s') ∧ BuildInv init mem from_ s0 ops b' s' S' ∧ b'.cur = w := by
  rw [buildAdvance]
  by_cases hc : w > b.cur
  · rw [if_pos hc]
    obtain ⟨b', s', off, k1, k2, S', k3, -⟩ := h.step hd hd3 bs hT (by omega)
    have hcur : (buildBegin b' (b'.cur + 1) off).cur = b.cur + 1 := by rw [← k2]; rfl
    obtain ⟨b'', s'', S'', k4, k5, k6⟩ := buildAdvance_spec hd hd3 bs hT w hw _ s' S' k3 (by omega)
    refine ⟨b'', s'', S'', ?_, k5, k6⟩
    rw [obind k1]
    exact k4
  · rw [if_neg hc]
    exact ⟨b, s, S, rfl, h, by omega⟩
termination_by w - b.cur
decreasing_by rw [hcur]; omega

theorem addsTo_snoc (ops : List (AddOp d α σ)) (o : AddOp d α σ) (i : ℕ)
    (hn : ¬ ∃ p ∈ ops, p.tree = o.tree ∧ p.q = o.q) :
    addsTo (ops ++ [o]) i = addsTo ops i ++ if o.tree = i then [o] else [] := by
  unfold addsTo
  rw [newAdds_snoc, if_neg (by simpa using hn), List.filter_append]
  congr 1
  by_cases h : o.tree = i <;> simp [h]

theorem addsTo_skip (ops : List (AddOp d α σ)) (o : AddOp d α σ) (i : ℕ)
    (hn : ∃ p ∈ ops, p.tree = o.tree ∧ p.q = o.q) : addsTo (ops ++ [o]) i = addsTo ops i := by
  unfold addsTo
  rw [newAdds_snoc, if_pos (by simpa using hn)]

/-- A quadrant is appended to the current tree. -/
theorem BuildInv.push {init : Quad d → σ → α × σ} {mem : ℕ → Leaf d α} {from_ : LocalForest d β} {s0 : σ}
    {ops : List (AddOp d α σ)} {b : Build d α} {s : σ} {S : ℕ → σ} (h : BuildInv init mem from_ s0 ops b s S)
    (o : AddOp d α σ) (hcur : b.cur = o.tree) (hv : Valid o.q)
    (hs : Cells o.q ⊆ Section (from_.fdesc o.tree) (from_.ldesc o.tree))
    (hord : ∀ q ∈ quadsOf (b.forest.trees b.cur), Before q o.q ∧ Cells q ∩ Cells o.q = ∅)
    (hn : ¬ ∃ p ∈ ops, p.tree = o.tree ∧ p.q = o.q) :
    BuildInv init mem from_ s0 (ops ++ [o])
      { b.setTree b.cur (addQuad o.init ⟨b.forest.trees b.cur, s⟩ o.q).tree with prev := some o.q }
      (addQuad o.init ⟨b.forest.trees b.cur, s⟩ o.q).s S := by
  have hcurr := h.current
  have hl1 : (b.forest.trees b.cur).quads.toList = (initEach (addsTo ops b.cur) (S b.cur)).1 := congrArg Prod.fst hcurr
  have hl2 : s = (initEach (addsTo ops b.cur) (S b.cur)).2 := congrArg Prod.snd hcurr
  obtain ⟨a1, a2, a3⟩ := addQuad_foldl o.init [o.q] ⟨b.forest.trees b.cur, s⟩ _ rfl
  simp only [List.foldl_cons, List.foldl_nil] at a1 a2 a3
  have hc : CountersOk (addQuad o.init ⟨b.forest.trees b.cur, s⟩ o.q).tree := by
    obtain ⟨c1, c2, c3⟩ := h.counters
    have hq : quadsOf (addQuad o.init ⟨b.forest.trees b.cur, s⟩ o.q).tree = quadsOf (b.forest.trees b.cur) ++ [o.q] := by
      unfold quadsOf; rw [a1, List.map_append]; rfl
    refine ⟨?_, ?_, ?_⟩
    · intro l
      rw [hq, List.countP_append]
      change bump (b.forest.trees b.cur).perLevel o.q.level 1 l = _
      rw [bump_apply, c1]
      by_cases hl : o.q.level = l
      · subst hl; simp
      · simp [hl]
    · rw [hq]
      change ∀ q ∈ quadsOf (b.forest.trees b.cur) ++ [o.q], q.level ≤ max o.q.level (b.forest.trees b.cur).maxlevel
      intro q hq
      rcases List.mem_append.mp hq with hq | hq
      · have := c2 q hq; omega
      · rw [List.mem_singleton] at hq; rw [hq]; omega
    · left
      rw [hq]
      change ∃ q ∈ quadsOf (b.forest.trees b.cur) ++ [o.q], q.level = max o.q.level (b.forest.trees b.cur).maxlevel
      rcases Nat.le_total (b.forest.trees b.cur).maxlevel o.q.level with hm | hm
      · exact ⟨o.q, by simp, by omega⟩
      · rcases c3 with ⟨q, hq, he⟩ | ⟨-, he⟩
        · exact ⟨q, by simp [hq], by omega⟩
        · exact ⟨o.q, by simp, by omega⟩
  have hquads : quadsOf (addQuad o.init ⟨b.forest.trees b.cur, s⟩ o.q).tree = quadsOf (b.forest.trees b.cur) ++ [o.q] := by
    unfold quadsOf; rw [a1, List.map_append]; rfl
  generalize addQuad o.init ⟨b.forest.trees b.cur, s⟩ o.q = st at *
  have hadd : ∀ i, i ≠ b.cur → addsTo (ops ++ [o]) i = addsTo ops i := by
    intro i hi
    rw [addsTo_snoc ops o i hn, if_neg (by omega), List.append_nil]
  refine ⟨h.low, h.high, h.e1, h.e2, h.e3, h.e4, h.e5, h.maxl, ?_, h.s0, ?_, ?_, ?_, ?_, ?_, ?_, ?_, ?_, ?_, ?_⟩
  · intro i hi
    have hi : i < from_.firstLocal ∨ b.cur < i := hi
    have := h.low
    change (b.setTree b.cur st.tree).forest.trees i = _
    rw [setTree_ne _ _ (by omega)]
    exact h.fresh i hi
  · intro i hi hi2
    have hi2 : i < b.cur := hi2
    change BuiltTree _ _ _ _ _ ((b.setTree b.cur st.tree).forest.trees i) _
    rw [setTree_ne _ _ (by omega), hadd i (by omega)]
    exact h.built i hi hi2
  · change (((b.setTree b.cur st.tree).forest.trees b.cur).quads.toList, st.s) = initEach (addsTo (ops ++ [o]) b.cur) (S b.cur)
    rw [setTree_cur, addsTo_snoc ops o _ hn, if_pos hcur.symm, initEach_snoc, a1, a2, ← hl1, ← hl2]
    rfl
  · intro i hi
    have hi : i ≤ b.cur := hi
    change ((b.setTree b.cur st.tree).forest.trees i).offset = ((∑ k ∈ Finset.range i, (quadsOf ((b.setTree b.cur st.tree).forest.trees k)).length : ℕ) : ℤ)
    rw [sum_length_congr (g := b.forest.trees) (fun k hk => setTree_ne _ _ (by omega)), ← h.offset i hi]
    rcases Nat.lt_or_ge i b.cur with hh | hh
    · rw [setTree_ne _ _ (by omega)]
    · have : i = b.cur := by omega
      subst this
      rw [setTree_cur, a3]
  · change CountersOk ((b.setTree b.cur st.tree).forest.trees b.cur)
    rw [setTree_cur]; exact hc
  · change some o.q = (quadsOf ((b.setTree b.cur st.tree).forest.trees b.cur)).getLast?
    rw [setTree_cur, hquads]; simp
  · change ∀ q ∈ quadsOf ((b.setTree b.cur st.tree).forest.trees b.cur), _
    rw [setTree_cur, hquads]
    intro q hq
    rcases List.mem_append.mp hq with hq | hq
    · exact h.valid q hq
    · rw [List.mem_singleton] at hq; rw [hq]; exact hv
  · change ∀ q ∈ quadsOf ((b.setTree b.cur st.tree).forest.trees b.cur), Cells q ⊆ Section (from_.fdesc b.cur) (from_.ldesc b.cur)
    rw [setTree_cur, hquads]
    intro q hq
    rcases List.mem_append.mp hq with hq | hq
    · exact h.inside q hq
    · rw [List.mem_singleton] at hq; rw [hq, hcur]; exact hs
  · change Linear (quadsOf ((b.setTree b.cur st.tree).forest.trees b.cur))
    rw [setTree_cur, hquads]
    unfold Linear
    rw [List.pairwise_append]
    refine ⟨h.lin, by simp, ?_⟩
    intro q hq r hr
    rw [List.mem_singleton] at hr
    subst hr
    exact hord q hq
  · intro p hp
    rcases List.mem_append.mp hp with hp | hp
    · exact h.done p hp
    · rw [List.mem_singleton] at hp; rw [hp]; exact hcur.ge
  · change ∀ p ∈ ops ++ [o], p.tree = b.cur → p.q ∈ quadsOf ((b.setTree b.cur st.tree).forest.trees b.cur)
    rw [setTree_cur, hquads]
    intro p hp hpt
    rcases List.mem_append.mp hp with hp | hp
    · exact List.mem_append_left _ (h.mem p hp hpt)
    · rw [List.mem_singleton] at hp; rw [hp]; simp

/-- A quadrant that was added before changes nothing. -/
theorem BuildInv.skip {init : Quad d → σ → α × σ} {mem : ℕ → Leaf d α} {from_ : LocalForest d β} {s0 : σ}
    {ops : List (AddOp d α σ)} {b : Build d α} {s : σ} {S : ℕ → σ} (h : BuildInv init mem from_ s0 ops b s S)
    (o : AddOp d α σ) (hn : ∃ p ∈ ops, p.tree = o.tree ∧ p.q = o.q) :
    BuildInv init mem from_ s0 (ops ++ [o]) b s S := by
  have ha := fun i => addsTo_skip ops o i hn
  obtain ⟨p, hp, hp1, hp2⟩ := hn
  refine { h with
    built := fun i hi hi2 => by rw [ha]; exact h.built i hi hi2
    current := by rw [ha]; exact h.current
    done := fun r hr => ?_
    mem := fun r hr hrt => ?_ }
  · rcases List.mem_append.mp hr with hr | hr
    · exact h.done r hr
    · rw [List.mem_singleton] at hr; rw [hr, ← hp1]; exact h.done p hp
  · rcases List.mem_append.mp hr with hr | hr
    · exact h.mem r hr hrt
    · rw [List.mem_singleton] at hr
      subst hr
      rw [← hp2]
      exact h.mem p hp (hp1.trans hrt)

theorem buildAdd_spec (hd : 0 < d) (hd3 : d ≤ 3) (bs : (Quad d → ℤ) → List (Quad d) → Option ℕ)
    {init : Quad d → σ → α × σ} {mem : ℕ → Leaf d α} {from_ : LocalForest d β} {s0 : σ} {ops : List (AddOp d α σ)}
    (hT : TemplateOk from_) (b : Build d α) (s : σ) (S : ℕ → σ) (h : BuildInv init mem from_ s0 ops b s S)
    (o : AddOp d α σ) (hcur : b.cur ≤ o.tree) (hw : o.tree ≤ from_.lastLocal) (hv : Valid o.q)
    (hs : Cells o.q ⊆ Section (from_.fdesc o.tree) (from_.ldesc o.tree)) (hord : ∀ p ∈ ops, AddOrder p o)
    (hopv : ∀ p ∈ ops, Valid p.q) :
    ∃ b' s' S' r, buildAdd bs init o.init b o.tree o.q s = some (b', s', r) ∧
      BuildInv init mem from_ s0 (ops ++ [o]) b' s' S' ∧ b'.cur = o.tree ∧
      (newAdds [] (ops ++ [o])).2 = (newAdds [] ops).2 ++ [r] := by
  obtain ⟨b1, s1, S1, k1, k2, k3⟩ := buildAdvance_spec hd hd3 bs hT o.tree hw b s S h hcur
  unfold buildAdd
  rw [obind k1]
  dsimp only
  have hsub : ∀ (done l : List (AddOp d α σ)), ∀ o ∈ (newAdds done l).1, o ∈ l := by
    intro done l
    induction l generalizing done with
    | nil => intro o ho; exact ho
    | cons x l ih =>
      intro o ho
      rw [newAdds] at ho
      split_ifs at ho
      · exact List.mem_cons_of_mem _ (ih _ o ho)
      · rcases List.mem_cons.mp ho with rfl | ho
        · simp
        · exact List.mem_cons_of_mem _ (ih _ o ho)
  -- every leaf of the current tree was added by a call
  have hleaf : ∀ q ∈ quadsOf (b1.forest.trees b1.cur), ∃ p ∈ ops, p.tree = o.tree ∧ p.q = q := by
    intro q hq
    have hl1 : (b1.forest.trees b1.cur).quads.toList = (initEach (addsTo ops b1.cur) (S1 b1.cur)).1 :=
      congrArg Prod.fst k2.current
    unfold quadsOf at hq
    rw [hl1] at hq
    have hm : ∀ (l : List (AddOp d α σ)) (s : σ), (initEach l s).1.map Leaf.q = l.map AddOp.q := by
      intro l
      induction l with
      | nil => intro s; rfl
      | cons x l ih => intro s; simp [initEach, ih]
    rw [hm] at hq
    obtain ⟨p, hp, rfl⟩ := List.mem_map.mp hq
    have hp := List.mem_filter.mp hp
    exact ⟨p, hsub _ _ p hp.1, by have := hp.2; simp only [decide_eq_true_eq] at this; rw [this, k3], rfl⟩
  have hnew : (¬ ∃ p ∈ ops, p.tree = o.tree ∧ p.q = o.q) →
      ∀ q ∈ quadsOf (b1.forest.trees b1.cur), Before q o.q ∧ Cells q ∩ Cells o.q = ∅ := by
    intro hn q hq
    obtain ⟨p, hp, hp1, rfl⟩ := hleaf q hq
    rcases hord p hp with g | ⟨-, g | g⟩
    · omega
    · exact absurd ⟨p, hp, hp1, g⟩ hn
    · exact g
  cases hprev : b1.prev with
  | none =>
    have hq : quadsOf (b1.forest.trees b1.cur) = [] := by
      have := k2.prev
      rw [hprev] at this
      exact List.getLast?_eq_none_iff.mp this.symm
    have hn : ¬ ∃ p ∈ ops, p.tree = o.tree ∧ p.q = o.q := by
      rintro ⟨p, hp, hp1, -⟩
      have := k2.mem p hp (hp1.trans k3.symm)
      rw [hq] at this
      simp at this
    refine ⟨_, _, S1, _, rfl, k2.push o k3 hv hs (hnew hn) hn, k3, ?_⟩
    rw [newAdds_snoc, if_neg (by simpa using hn)]
  | some p =>
    dsimp only
    have hlast : (quadsOf (b1.forest.trees b1.cur)).getLast? = some p := by rw [← k2.prev, hprev]
    have hpm := List.mem_of_getLast? hlast
    by_cases he : isEqual p o.q = true
    · rw [if_pos he]
      have he := isEqual_iff.mp he
      subst he
      refine ⟨_, _, S1, _, rfl, k2.skip o (hleaf _ hpm), k3, ?_⟩
      rw [newAdds_snoc, if_pos (by simpa using hleaf _ hpm)]
    · rw [if_neg he]
      have hne : p ≠ o.q := fun h => he (isEqual_iff.mpr h)
      have hn : ¬ ∃ r ∈ ops, r.tree = o.tree ∧ r.q = o.q := by
        rintro ⟨r, hr, hr1, hr2⟩
        obtain ⟨p', hp', hp1', hp2'⟩ := hleaf p hpm
        have hrm := k2.mem r hr (hr1.trans k3.symm)
        have hpo : stop p ≤ start o.q := by
          rcases hord p' hp' with g | ⟨-, g | g⟩
          · omega
          · exact absurd (hp2'.symm.trans g) hne
          · rw [hp2'] at g
            have hpv := k2.valid p hpm
            exact (before_disjoint_iff hpv.aligned hv.aligned hpv.int32 hv.int32).mp g
        have hls := linear_stops k2.valid k2.lin
        obtain ⟨xs, hxs⟩ : ∃ xs, quadsOf (b1.forest.trees b1.cur) = xs ++ [p] := by
          obtain ⟨ys, hys⟩ := List.getLast?_eq_some_iff.mp hlast
          exact ⟨ys, hys⟩
        rw [hxs] at hrm hls
        rw [hr2] at hrm
        have h1 := start_lt_stop p
        have h2 := start_lt_stop o.q
        rcases List.mem_append.mp hrm with g | g
        · have := (List.pairwise_append.mp hls).2.2 _ g p (by simp)
          omega
        · rw [List.mem_singleton] at g
          exact hne g.symm
      refine ⟨_, _, S1, _, rfl, k2.push o k3 hv hs (hnew hn) hn, k3, ?_⟩
      rw [newAdds_snoc, if_neg (by simpa using hn)]

theorem buildAdds_spec (hd : 0 < d) (hd3 : d ≤ 3) (bs : (Quad d → ℤ) → List (Quad d) → Option ℕ)
    {init : Quad d → σ → α × σ} {mem : ℕ → Leaf d α} {from_ : LocalForest d β} {s0 : σ}
    (hT : TemplateOk from_) (rest : List (AddOp d α σ)) (ops : List (AddOp d α σ)) (b : Build d α) (s : σ) (S : ℕ → σ)
    (h : BuildInv init mem from_ s0 ops b s S) (hcur : ∀ o ∈ rest, b.cur ≤ o.tree)
    (hops : ∀ o ∈ ops ++ rest, o.tree ≤ from_.lastLocal ∧ Valid o.q ∧
      Cells o.q ⊆ Section (from_.fdesc o.tree) (from_.ldesc o.tree))
    (hord : (ops ++ rest).Pairwise AddOrder) :
    ∃ b' s' S' rs, buildAdds bs init rest b s = some (b', s', rs) ∧
      BuildInv init mem from_ s0 (ops ++ rest) b' s' S' ∧ (newAdds [] (ops ++ rest)).2 = (newAdds [] ops).2 ++ rs := by
  induction rest generalizing ops b s S with
  | nil => exact ⟨b, s, S, [], rfl, by simpa using h, by simp⟩
  | cons o rest ih =>
    have ho := hops o (by simp)
    have hp := List.pairwise_append.mp hord
    obtain ⟨b1, s1, S1, r, k1, k2, k3, k4⟩ := buildAdd_spec hd hd3 bs hT b s S h o (hcur o (by simp)) ho.1 ho.2.1 ho.2.2
      (fun p hp' => hp.2.2 p hp' o (by simp)) (fun p hp' => (hops p (by simp [hp'])).2.1)
    have happ : ops ++ o :: rest = (ops ++ [o]) ++ rest := by simp
    obtain ⟨b2, s2, S2, rs, k5, k6, k7⟩ := ih (ops ++ [o]) b1 s1 S1 k2 (by
      intro p hp'
      rw [k3]
      rcases (List.pairwise_cons.mp hp.2.1).1 p hp' with g | g
      · exact g.le
      · exact g.1.le) (by rw [← happ]; exact hops) (by rw [← happ]; exact hord)
    refine ⟨b2, s2, S2, r :: rs, ?_, by rw [happ]; exact k6, ?_⟩
    · unfold buildAdds
      rw [obind k1]
      dsimp only
      rw [obind k5]
    · rw [happ, k7, k4]; simp

end P4est
