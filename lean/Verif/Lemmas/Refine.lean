import Verif.Spec.Refine
import Verif.Lemmas.Tree

/-! # The refinement loop equals the recursive splitting -/

namespace P4est
open Spec

variable {d : ℕ} {α σ β γ : Type}

theorem LArr.toList_length (a : LArr d α) : a.toList.length = a.count := by simp [LArr.toList]

/-- Number of leaves of level `l`. -/
def levelCount (ls : List (Leaf d α)) (l : ℕ) : ℤ := ((ls.filter fun x => x.q.level = l).length : ℤ)

/-- Largest level in a list (0 for the empty list). -/
def topLevel (ls : List (Leaf d α)) : ℕ := ls.foldl (fun m x => max m x.q.level) 0

theorem levelCount_append (a b : List (Leaf d α)) (l : ℕ) :
    levelCount (a ++ b) l = levelCount a l + levelCount b l := by
  simp [levelCount]

theorem topLevel_snoc (a : List (Leaf d α)) (x : Leaf d α) :
    topLevel (a ++ [x]) = max (topLevel a) x.q.level := by simp [topLevel]

theorem bump_levelCount (out : List (Leaf d α)) (x : Leaf d α) :
    bump (levelCount out) x.q.level 1 = levelCount (out ++ [x]) := by
  funext l
  rw [levelCount_append]
  unfold bump
  by_cases h : l = x.q.level
  · subst h; simp [levelCount]
  · rw [Function.update_of_ne h]
    have : ¬ x.q.level = l := fun h' => h h'.symm
    simp [levelCount, this]

theorem readMore_eq (a : LArr d α) (n restpos : ℕ) (list : List (Leaf d α × Bool))
    (h : restpos + n ≤ a.count) :
    readMore a n restpos list =
      some (list ++ (List.range' restpos n).map (fun i => (a.get i, false)), restpos + n) := by
  induction n generalizing restpos list with
  | zero => simp [readMore]
  | succ n ih =>
    rw [readMore, LArr.index, if_pos (by omega)]
    simp only [Option.bind_eq_bind, Option.bind_some]
    rw [ih _ _ (by omega), List.range'_succ]
    simp [Nat.add_assoc, Nat.add_comm 1 n]

/-- Loop invariant: `out` has been written, `pend` is still to be processed. -/
structure RInv (incount : ℕ) (st : RState d α σ) (out : List (Leaf d α))
    (pend : List (Leaf d α × Bool)) : Prop where
  cur : st.current = out.length
  written : (List.range out.length).map st.arr.get = out
  rest_le : st.restpos ≤ incount
  pend_eq : pend = st.list ++
    (List.range' st.restpos (incount - st.restpos)).map (fun i => (st.arr.get i, false))
  count : st.arr.count = out.length + pend.length
  lim : st.restpos < incount → st.current ≤ st.restpos
  room : st.first = false → incount < st.arr.count
  firstList : st.first = true → st.list ≠ []
  levels : st.perLevel = levelCount out
  top : st.maxlevel = topLevel out

theorem RInv.list_nil {incount : ℕ} {st : RState d α σ} {out : List (Leaf d α)}
    {pend : List (Leaf d α × Bool)} (h : RInv incount st out pend) (hl : st.list = []) :
    pend = [] := by
  have hf : st.first = false := by
    by_contra hc
    exact h.firstList (by simpa using hc) hl
  have h1 := h.room hf
  have h2 := h.count
  have h3 := h.lim
  have h4 := h.cur
  have h5 := h.pend_eq
  rw [hl, List.nil_append] at h5
  have h6 : pend.length = incount - st.restpos := by rw [h5]; simp
  by_cases hr : st.restpos < incount
  · have := h3 hr; omega
  · rw [h5, show incount - st.restpos = 0 by omega]; simp

theorem RInv.list_cons {incount : ℕ} {st : RState d α σ} {out : List (Leaf d α)}
    {x : Leaf d α} {pad : Bool}
    {pend : List (Leaf d α × Bool)} (h : RInv incount st out ((x, pad) :: pend)) :
    ∃ rest, st.list = (x, pad) :: rest ∧ pend = rest ++
      (List.range' st.restpos (incount - st.restpos)).map (fun i => (st.arr.get i, false)) := by
  cases hl : st.list with
  | nil => exact absurd (h.list_nil hl) (by simp)
  | cons y rest =>
    have := h.pend_eq
    rw [hl, List.cons_append, List.cons.injEq] at this
    exact ⟨rest, by rw [← this.1], this.2⟩

/-- One step that stores a quadrant. -/
theorem refineLoop_store (cb : RefineCb d α σ) (recursive : Bool) (allowed incount : ℕ)
    (st : RState d α σ) (out : List (Leaf d α)) (x : Leaf d α) (pad : Bool)
    (pend : List (Leaf d α × Bool)) (h : RInv incount st out ((x, pad) :: pend))
    (hf : st.first = false)
    (hdec : (refineDecision cb recursive allowed false x pad st.s).1 = false) :
    ∃ st', refineLoop cb recursive allowed incount st = refineLoop cb recursive allowed incount st' ∧
      RInv incount st' (out ++ [x]) pend ∧ st'.first = false ∧
      st'.s = (refineDecision cb recursive allowed false x pad st.s).2 := by
  obtain ⟨rest, hl, hp⟩ := h.list_cons
  have hcur := h.cur
  have hcount := h.count
  have hroom := h.room hf
  have hrest := h.rest_le
  have hlim := h.lim
  simp only [List.length_cons] at hcount
  rw [refineLoop, hl]
  simp only [hf, hdec, Bool.false_eq_true, if_false]
  have hwr : st.arr.write st.current x =
      some ⟨Function.update st.arr.get st.current x, st.arr.count⟩ := by
    rw [LArr.write, if_pos (by omega)]
  have hwritten : ∀ g : ℕ → Leaf d α, g = Function.update st.arr.get st.current x →
      (List.range (out ++ [x]).length).map g = out ++ [x] := by
    intro g hg
    rw [List.length_append, List.length_singleton, List.range_succ, List.map_append]
    congr 1
    · conv_rhs => rw [← h.written]
      apply List.map_congr_left
      intro i hi
      rw [List.mem_range] at hi
      rw [hg, Function.update_of_ne (by omega)]
    · simp [hg, ← hcur]
  by_cases hc : st.restpos < incount ∧ st.current = st.restpos
  · rw [if_pos hc, readMore_eq _ _ _ _ (by omega), hwr]
    simp only [Option.bind_eq_bind, Option.bind_some]
    set m := min (incount - st.restpos) numberToRead with hm
    have hm1 : 0 < m := by
      rw [hm]; unfold numberToRead; omega
    have hm2 : m ≤ incount - st.restpos := by omega
    refine ⟨_, rfl, ⟨by simp [hcur], hwritten _ rfl, by simp only; omega, ?_, ?_, ?_, ?_, ?_, ?_, ?_⟩,
      rfl, rfl⟩
    · simp only
      rw [hp, List.append_assoc]
      congr 1
      have : List.range' st.restpos (incount - st.restpos) =
          List.range' st.restpos m ++ List.range' (st.restpos + m) (incount - (st.restpos + m)) := by
        rw [List.range'_append_1]; congr 1; omega
      rw [this, List.map_append]
      congr 1
      apply List.map_congr_left
      intro i hi
      rw [List.mem_range'_1] at hi
      rw [Function.update_of_ne (by omega)]
    · simp; omega
    · simp only; omega
    · simp only; omega
    · simp only; intro h'; exact absurd h' (by simp)
    · simp only; rw [h.levels, bump_levelCount]
    · simp only; rw [h.top, topLevel_snoc]
  · rw [if_neg hc, hwr]
    simp only [Option.bind_eq_bind, Option.bind_some]
    refine ⟨_, rfl, ⟨by simp [hcur], hwritten _ rfl, by simp only; omega, ?_, ?_, ?_, ?_, ?_, ?_, ?_⟩,
      rfl, rfl⟩
    · simp only
      rw [hp]
      congr 1
      apply List.map_congr_left
      intro i hi
      rw [List.mem_range'_1] at hi
      rw [Function.update_of_ne]
      intro he
      have := hlim (by omega)
      apply hc
      constructor <;> omega
    · simp; omega
    · simp only; omega
    · simp only; omega
    · simp only; intro h'; exact absurd h' (by simp)
    · simp only; rw [h.levels, bump_levelCount]
    · simp only; rw [h.top, topLevel_snoc]

theorem initAll_length (init : Quad d → σ → α × σ) (qs : List (Quad d)) (s : σ) :
    (initAll init qs s).1.map Leaf.q = qs := by
  induction qs generalizing s with
  | nil => rfl
  | cons q qs ih => simp [initAll, ih]

theorem makeChildren_quads (cb : RefineCb d α σ) (x : Leaf d α) (s : σ) :
    (makeChildren cb x s).1.map Leaf.q = childrenv x.q := by
  unfold makeChildren callReplace
  cases cb.replace with
  | none => simp [initAll_length]
  | some f =>
    simp only
    conv_rhs => rw [← initAll_length cb.init (childrenv x.q) s]
    apply List.ext_getElem <;> simp

theorem makeChildren_length (cb : RefineCb d α σ) (x : Leaf d α) (s : σ) :
    (makeChildren cb x s).1.length = 2 ^ d := by
  have := congrArg List.length (makeChildren_quads cb x s)
  simpa [childrenv] using this

/-- One step that splits a quadrant. -/
theorem refineLoop_split (hd : 0 < d) (cb : RefineCb d α σ) (recursive : Bool) (allowed incount : ℕ)
    (st : RState d α σ) (out : List (Leaf d α)) (x : Leaf d α) (pad : Bool)
    (pend : List (Leaf d α × Bool)) (h : RInv incount st out ((x, pad) :: pend))
    (hinc : incount ≤ st.arr.count)
    (hdec : (refineDecision cb recursive allowed st.first x pad st.s).1 = true) :
    ∃ st', refineLoop cb recursive allowed incount st = refineLoop cb recursive allowed incount st' ∧
      RInv incount st' out ((makeChildren cb x
        (refineDecision cb recursive allowed st.first x pad st.s).2).1.map (fun y => (y, true)) ++ pend) ∧
      st'.first = false ∧
      st'.s = (makeChildren cb x (refineDecision cb recursive allowed st.first x pad st.s).2).2 := by
  obtain ⟨rest, hl, hp⟩ := h.list_cons
  have hcount := h.count
  have hD : 2 ≤ 2 ^ d := by
    calc 2 = 2 ^ 1 := rfl
      _ ≤ 2 ^ d := Nat.pow_le_pow_right (by norm_num) hd
  rw [refineLoop, hl]
  simp only [hdec, if_true]
  have hk := makeChildren_length cb x (refineDecision cb recursive allowed st.first x pad st.s).2
  simp only [List.length_cons] at hcount
  refine ⟨_, rfl, ⟨h.cur, h.written, h.rest_le, ?_, ?_, h.lim, ?_, ?_, h.levels, h.top⟩, rfl, rfl⟩
  · simp only [LArr.resize]; rw [hp, List.append_assoc]
  · simp only [LArr.resize, List.length_append, List.length_map, hk]; omega
  · simp only [LArr.resize]; omega
  · simp only; intro h'; exact absurd h' (by simp)

/-- What is done with a pending entry: children are only looked at again in recursive mode. -/
def itemResult (cb : RefineCb d α σ) (recursive : Bool) (n : ℕ) (e : Leaf d α × Bool) (s : σ) :
    List (Leaf d α) × σ :=
  if recursive || !e.2 then splitLeaf cb.refine (makeChildren cb) recursive n e.1 s else ([e.1], s)

theorem runAll_append (f : β → σ → List γ × σ) (a b : List β) (s : σ) :
    runAll f (a ++ b) s =
      ((runAll f a s).1 ++ (runAll f b (runAll f a s).2).1, (runAll f b (runAll f a s).2).2) := by
  induction a generalizing s with
  | nil => simp [runAll]
  | cons x xs ih => simp only [List.cons_append, runAll, ih, List.append_assoc]

theorem runAll_congr {f g : β → σ → List γ × σ} {l : List β} (h : ∀ x ∈ l, ∀ s, f x s = g x s) (s : σ) :
    runAll f l s = runAll g l s := by
  induction l generalizing s with
  | nil => rfl
  | cons x xs ih =>
    have h1 := h x (by simp)
    have h2 := ih (fun y hy => h y (List.mem_cons_of_mem _ hy))
    simp only [runAll, h1, h2]

theorem runAll_map {δ : Type} (g : δ → β) (f : β → σ → List γ × σ) (l : List δ) (s : σ) :
    runAll f (l.map g) s = runAll (fun x => f (g x)) l s := by
  induction l generalizing s with
  | nil => rfl
  | cons x xs ih => simp only [List.map_cons, runAll, ih]

theorem runAll_single (l : List β) (s : σ) : runAll (fun x s => ([x], s)) l s = (l, s) := by
  induction l generalizing s with
  | nil => rfl
  | cons x xs ih => simp only [runAll, ih, List.singleton_append]

/-- The loop processes a whole list of pending entries whose remaining depth is `n`. -/
theorem refineLoop_items (cb : RefineCb d α σ) (recursive : Bool)
    (allowed incount n : ℕ)
    (hitem : ∀ (st : RState d α σ) (out : List (Leaf d α)) (e : Leaf d α × Bool)
      (pend : List (Leaf d α × Bool)), RInv incount st out (e :: pend) → st.first = false →
      allowed - e.1.q.level = n →
      ∃ st', refineLoop cb recursive allowed incount st = refineLoop cb recursive allowed incount st' ∧
        RInv incount st' (out ++ (itemResult cb recursive n e st.s).1) pend ∧ st'.first = false ∧
        st'.s = (itemResult cb recursive n e st.s).2)
    (es : List (Leaf d α × Bool)) (hes : ∀ e ∈ es, allowed - e.1.q.level = n) :
    ∀ (st : RState d α σ) (out : List (Leaf d α)) (pend : List (Leaf d α × Bool)),
      RInv incount st out (es ++ pend) → st.first = false →
      ∃ st', refineLoop cb recursive allowed incount st = refineLoop cb recursive allowed incount st' ∧
        RInv incount st' (out ++ (runAll (itemResult cb recursive n) es st.s).1) pend ∧
        st'.first = false ∧ st'.s = (runAll (itemResult cb recursive n) es st.s).2 := by
  induction es with
  | nil =>
    intro st out pend h hf
    exact ⟨st, rfl, by simpa [runAll] using h, hf, rfl⟩
  | cons e es ih =>
    intro st out pend h hf
    obtain ⟨st1, e1, h1, hf1, hs1⟩ := hitem st out e (es ++ pend) h hf (hes e (by simp))
    obtain ⟨st2, e2, h2, hf2, hs2⟩ := ih (fun e' he' => hes e' (List.mem_cons_of_mem _ he')) st1 _ pend h1 hf1
    refine ⟨st2, e1.trans e2, ?_, hf2, ?_⟩
    · rw [hs1] at h2
      simp only [runAll]
      rw [← List.append_assoc]; exact h2
    · rw [hs2, hs1]; rfl

theorem refineLoop_item (hd : 0 < d) (cb : RefineCb d α σ) (recursive : Bool)
    (allowed incount : ℕ) : ∀ (n : ℕ) (st : RState d α σ) (out : List (Leaf d α)) (e : Leaf d α × Bool)
      (pend : List (Leaf d α × Bool)), RInv incount st out (e :: pend) → st.first = false →
      allowed - e.1.q.level = n →
      ∃ st', refineLoop cb recursive allowed incount st = refineLoop cb recursive allowed incount st' ∧
        RInv incount st' (out ++ (itemResult cb recursive n e st.s).1) pend ∧ st'.first = false ∧
        st'.s = (itemResult cb recursive n e st.s).2 := by
  intro n
  induction n with
  | zero =>
    intro st out e pend h hf hn
    have hlt : ¬ e.1.q.level < allowed := by omega
    have hdec : refineDecision cb recursive allowed false e.1 e.2 st.s =
        (false, (itemResult cb recursive 0 e st.s).2) := by
      unfold refineDecision itemResult
      by_cases hc : (recursive || !e.2) = true
      · simp [hc, hlt, splitLeaf]
      · simp [hc]
    obtain ⟨st', e', h', hf', hs'⟩ := refineLoop_store cb recursive allowed incount st out e.1 e.2 pend h hf
      (by rw [hdec])
    refine ⟨st', e', ?_, hf', by rw [hs', hdec]⟩
    have : (itemResult cb recursive 0 e st.s).1 = [e.1] := by
      unfold itemResult; split <;> simp [splitLeaf]
    rw [this]; exact h'
  | succ n ih =>
    intro st out e pend h hf hn
    have hlt : e.1.q.level < allowed := by omega
    by_cases hc : (recursive || !e.2) = true
    · have hdec : refineDecision cb recursive allowed false e.1 e.2 st.s = cb.refine e.1 st.s := by
        unfold refineDecision
        simp [hc, hlt]
      by_cases hr : (cb.refine e.1 st.s).1 = true
      · obtain ⟨st1, e1, h1, hf1, hs1⟩ := refineLoop_split hd cb recursive allowed incount st out e.1 e.2 pend
          h (h.room hf).le (by rw [hf, hdec, hr])
        rw [hf, hdec] at h1 hs1
        have hlev : ∀ y ∈ (makeChildren cb e.1 (cb.refine e.1 st.s).2).1, y.q.level = e.1.q.level + 1 := by
          intro y hy
          have hy' := List.mem_map_of_mem (f := Leaf.q) hy
          rw [makeChildren_quads, childrenv] at hy'
          obtain ⟨k, _, hk⟩ := List.mem_map.mp hy'
          rw [← hk]; rfl
        obtain ⟨st2, e2, h2, hf2, hs2⟩ := refineLoop_items cb recursive allowed incount n ih _
          (by
            intro e' he'
            obtain ⟨y, hy, rfl⟩ := List.mem_map.mp he'
            have := hlev y hy
            simp only; omega) st1 out pend h1 hf1
        refine ⟨st2, e1.trans e2, ?_, hf2, ?_⟩
        · have : (itemResult cb recursive (n + 1) e st.s).1 = (runAll (itemResult cb recursive n)
              ((makeChildren cb e.1 (cb.refine e.1 st.s).2).1.map (fun y => (y, true))) st1.s).1 := by
            rw [hs1, runAll_map]
            unfold itemResult
            rw [if_pos hc]
            cases recursive with
            | true => simp [splitLeaf, hr]
            | false => simp [splitLeaf, hr, runAll_single]
          rw [this]; exact h2
        · rw [hs2, hs1, runAll_map]
          unfold itemResult
          rw [if_pos hc]
          cases recursive with
          | true => simp [splitLeaf, hr]
          | false => simp [splitLeaf, hr, runAll_single]
      · have hr' : (cb.refine e.1 st.s).1 = false := by simpa using hr
        obtain ⟨st', e', h', hf', hs'⟩ := refineLoop_store cb recursive allowed incount st out e.1 e.2 pend h hf
          (by rw [hdec, hr'])
        have : itemResult cb recursive (n + 1) e st.s = ([e.1], (cb.refine e.1 st.s).2) := by
          unfold itemResult
          rw [if_pos hc]; simp [splitLeaf, hr']
        refine ⟨st', e', ?_, hf', ?_⟩
        · rw [this]; exact h'
        · rw [hs', hdec, this]
    · have hc' : (recursive || !e.2) = false := by simpa using hc
      have hdec : refineDecision cb recursive allowed false e.1 e.2 st.s = (false, st.s) := by
        unfold refineDecision; simp [hc']
      obtain ⟨st', e', h', hf', hs'⟩ := refineLoop_store cb recursive allowed incount st out e.1 e.2 pend h hf
        (by rw [hdec])
      have : itemResult cb recursive (n + 1) e st.s = ([e.1], st.s) := by
        unfold itemResult; simp [hc']
      refine ⟨st', e', ?_, hf', ?_⟩
      · rw [this]; exact h'
      · rw [hs', hdec, this]

/-- The loop processes any list of pending entries. -/
theorem refineLoop_list (hd : 0 < d) (cb : RefineCb d α σ) (recursive : Bool)
    (allowed incount : ℕ) (es : List (Leaf d α × Bool)) :
    ∀ (st : RState d α σ) (out : List (Leaf d α)),
      RInv incount st out es → st.first = false →
      ∃ st', refineLoop cb recursive allowed incount st = some st' ∧
        RInv incount st' (out ++ (runAll (fun e => itemResult cb recursive (allowed - e.1.q.level) e)
          es st.s).1) [] ∧
        st'.s = (runAll (fun e => itemResult cb recursive (allowed - e.1.q.level) e) es st.s).2 := by
  induction es with
  | nil =>
    intro st out h hf
    refine ⟨st, ?_, by simpa [runAll] using h, rfl⟩
    have h1 : st.list = [] := by
      exact (List.append_eq_nil_iff.mp h.pend_eq.symm).1
    rw [refineLoop, h1]
  | cons e es ih =>
    intro st out h hf
    obtain ⟨st1, e1, h1, hf1, hs1⟩ := refineLoop_item hd cb recursive allowed incount _ st out e es h hf rfl
    obtain ⟨st2, e2, h2, hs2⟩ := ih st1 _ h1 hf1
    refine ⟨st2, e1.trans e2, ?_, ?_⟩
    · rw [hs1] at h2
      simp only [runAll]
      rw [← List.append_assoc]; exact h2
    · rw [hs2, hs1]; rfl

/-- What happens to one leaf of the input. -/
def leafResult (cb : RefineCb d α σ) (recursive : Bool) (allowed : ℕ) (x : Leaf d α) (s : σ) :
    List (Leaf d α) × σ :=
  splitLeaf cb.refine (makeChildren cb) recursive (allowed - x.q.level) x s

theorem leafResult_no {cb : RefineCb d α σ} {recursive : Bool} {allowed : ℕ} {x : Leaf d α} {s : σ}
    (h : ((cb.refine x s).1 && decide (x.q.level < allowed)) = false) :
    leafResult cb recursive allowed x s = ([x], (cb.refine x s).2) := by
  unfold leafResult
  cases hn : allowed - x.q.level with
  | zero => rfl
  | succ n =>
    have : x.q.level < allowed := by omega
    simp only [this, decide_true, Bool.and_true] at h
    simp [splitLeaf, h]

theorem leafResult_yes {cb : RefineCb d α σ} {recursive : Bool} {allowed : ℕ} {x : Leaf d α} {s : σ}
    (h : ((cb.refine x s).1 && decide (x.q.level < allowed)) = true) :
    leafResult cb recursive allowed x s =
      runAll (fun e => itemResult cb recursive (allowed - e.1.q.level) e)
        ((makeChildren cb x (cb.refine x s).2).1.map (fun y => (y, true)))
        (makeChildren cb x (cb.refine x s).2).2 := by
  simp only [Bool.and_eq_true, decide_eq_true_eq] at h
  unfold leafResult
  rw [show allowed - x.q.level = (allowed - (x.q.level + 1)) + 1 by omega, runAll_map]
  have hlev : ∀ y ∈ (makeChildren cb x (cb.refine x s).2).1, y.q.level = x.q.level + 1 := by
    intro y hy
    have hy' := List.mem_map_of_mem (f := Leaf.q) hy
    rw [makeChildren_quads, childrenv] at hy'
    obtain ⟨k, _, hk⟩ := List.mem_map.mp hy'
    rw [← hk]; rfl
  cases recursive with
  | true =>
    simp only [splitLeaf, h.1, if_true]
    apply runAll_congr
    intro y hy s'
    simp [itemResult, hlev y hy]
  | false =>
    simp only [splitLeaf, h.1, if_true, Bool.false_eq_true, if_false]
    have : ∀ (y : Leaf d α) (s' : σ), itemResult cb false (allowed - y.q.level) (y, true) s' = ([y], s') := by
      intro y s'; simp [itemResult]
    rw [runAll_congr (g := fun y s' => ([y], s')) (fun y _ s' => this y s'), runAll_single]

theorem range_map_succ (f : ℕ → γ) (n : ℕ) :
    (List.range (n + 1)).map f = (List.range n).map f ++ [f n] := by
  rw [List.range_succ]; simp

theorem toList_split (a : LArr d α) {j : ℕ} (hj : j < a.count) :
    a.toList = (List.range j).map a.get ++ a.get j ::
      (List.range' (j + 1) (a.count - (j + 1))).map a.get := by
  unfold LArr.toList
  have : List.range a.count = List.range j ++ j :: List.range' (j + 1) (a.count - (j + 1)) := by
    rw [List.range_eq_range', List.range_eq_range', ← List.range'_succ]
    have := List.range'_append_1 (s := 0) (m := j) (n := a.count - (j + 1) + 1)
    rw [Nat.zero_add] at this
    rw [this]; congr 1; omega
  rw [this]; simp

/-- The scan either reaches the end or stops at the first leaf to be refined. -/
theorem refineScan_spec (cb : RefineCb d α σ) (recursive : Bool) (allowed : ℕ) (a : LArr d α) (s0 : σ) :
    ∀ (k current : ℕ) (s : σ), current + k = a.count →
      runAll (leafResult cb recursive allowed) ((List.range current).map a.get) s0 =
        ((List.range current).map a.get, s) →
      ∃ j s', j ≤ a.count ∧
        runAll (leafResult cb recursive allowed) ((List.range j).map a.get) s0 =
          ((List.range j).map a.get, s') ∧
        ((j = a.count ∧
          refineScan cb allowed a a.count current (levelCount ((List.range current).map a.get))
            (topLevel ((List.range current).map a.get)) s =
          (j, levelCount ((List.range j).map a.get), topLevel ((List.range j).map a.get), s')) ∨
         (j < a.count ∧ ((cb.refine (a.get j) s').1 && decide ((a.get j).q.level < allowed)) = true ∧
          refineScan cb allowed a a.count current (levelCount ((List.range current).map a.get))
            (topLevel ((List.range current).map a.get)) s =
          (j, levelCount ((List.range j).map a.get), topLevel ((List.range j).map a.get),
            (cb.refine (a.get j) s').2))) := by
  intro k
  induction k with
  | zero =>
    intro current s hk hr
    refine ⟨current, s, by omega, hr, Or.inl ⟨by omega, ?_⟩⟩
    rw [refineScan, dif_neg (by omega)]
  | succ k ih =>
    intro current s hk hr
    by_cases hc : ((cb.refine (a.get current) s).1 && decide ((a.get current).q.level < allowed)) = true
    · refine ⟨current, s, by omega, hr, Or.inr ⟨by omega, hc, ?_⟩⟩
      rw [refineScan, dif_pos (by omega)]
      simp only [hc, if_true]
    · have hc' := Bool.eq_false_iff.mpr hc
      have hstep : runAll (leafResult cb recursive allowed) ((List.range (current + 1)).map a.get) s0 =
        ((List.range (current + 1)).map a.get, (cb.refine (a.get current) s).2) := by
        rw [range_map_succ, runAll_append, hr]
        simp only [runAll, leafResult_no hc', List.append_nil]
      obtain ⟨j, s', hj, hrun, hcase⟩ := ih (current + 1) (cb.refine (a.get current) s).2 (by omega) hstep
      have hunf : refineScan cb allowed a a.count current (levelCount ((List.range current).map a.get))
            (topLevel ((List.range current).map a.get)) s =
          refineScan cb allowed a a.count (current + 1) (levelCount ((List.range (current + 1)).map a.get))
            (topLevel ((List.range (current + 1)).map a.get)) (cb.refine (a.get current) s).2 := by
        rw [refineScan, dif_pos (by omega)]
        simp only [hc', Bool.false_eq_true, if_false]
        rw [range_map_succ, bump_levelCount, topLevel_snoc]
      rw [hunf]
      exact ⟨j, s', hj, hrun, hcase⟩

/-- The in-place algorithm on one tree computes the recursive splitting of its leaves. -/
theorem refineTree_eq (hd : 0 < d) (cb : RefineCb d α σ) (recursive : Bool) (allowed : ℕ)
    (t : Tree d α) (s : σ) :
    ∃ t', refineTree cb recursive allowed t s =
        some (t', (runAll (leafResult cb recursive allowed) t.quads.toList s).2) ∧
      t'.quads.toList = (runAll (leafResult cb recursive allowed) t.quads.toList s).1 ∧
      t'.perLevel = levelCount t'.quads.toList ∧
      (t'.maxlevel = topLevel t'.quads.toList ∨
        (t'.maxlevel = t.maxlevel ∧ t'.quads.toList = t.quads.toList)) ∧
      t'.offset = t.offset := by
  obtain ⟨j, s', hj, hrun, hcase⟩ := refineScan_spec cb recursive allowed t.quads s t.quads.count 0 s
    (by omega) (by simp [runAll])
  have h0 : levelCount ((List.range 0).map t.quads.get) = fun _ => 0 := by
    funext l; simp [levelCount]
  have h0' : topLevel ((List.range 0).map t.quads.get) = 0 := by simp [topLevel]
  rw [h0, h0'] at hcase
  unfold refineTree
  simp only []
  rcases hcase with ⟨hjn, hscan⟩ | ⟨hlt, hyes, hscan⟩
  · subst hjn
    rw [hscan]
    simp only [if_true]
    change runAll _ t.quads.toList s = (t.quads.toList, s') at hrun
    rw [hrun]
    exact ⟨_, rfl, rfl, rfl, Or.inr ⟨rfl, rfl⟩, rfl⟩
  · rw [hscan]
    simp only
    rw [if_neg (by omega), LArr.index, if_pos hlt]
    simp only [Option.bind_eq_bind, Option.bind_some]
    set x := t.quads.get j with hx
    set out := (List.range j).map t.quads.get with hout
    have hol : out.length = j := by simp [hout]
    set st0 : RState d α σ := ⟨t.quads, j, j + 1, [(x, false)], true, levelCount out, topLevel out,
        (cb.refine x s').2⟩ with hst0
    set pend := (List.range' (j + 1) (t.quads.count - (j + 1))).map
      (fun i => (t.quads.get i, false)) with hpend
    have hinv : RInv t.quads.count st0 out ((x, false) :: pend) := by
      refine ⟨by simp [hst0, hol], by simp [hst0, hol, hout], by simp only [hst0]; omega, ?_, ?_, ?_, ?_, ?_, rfl, rfl⟩
      · simp [hst0, hpend]
      · simp [hst0, hpend, hol]; omega
      · simp only [hst0]; omega
      · simp [hst0]
      · simp [hst0]
    obtain ⟨st1, e1, h1, hf1, hs1⟩ := refineLoop_split hd cb recursive allowed t.quads.count st0 out x false pend
      hinv le_rfl (by simp [refineDecision, hst0])
    obtain ⟨st2, e2, h2, hs2⟩ := refineLoop_list hd cb recursive allowed t.quads.count _ st1 out h1 hf1
    rw [e1, e2]
    have hd0 : (refineDecision cb recursive allowed st0.first x false st0.s).2 = (cb.refine x s').2 := by
      simp [refineDecision, hst0]
    rw [hd0] at h1 hs1 h2 hs2
    have hpitem : ∀ s'', runAll (fun e => itemResult cb recursive (allowed - e.1.q.level) e) pend s'' =
        runAll (leafResult cb recursive allowed)
          ((List.range' (j + 1) (t.quads.count - (j + 1))).map t.quads.get) s'' := by
      intro s''
      rw [hpend, runAll_map, runAll_map]
      apply runAll_congr
      intro y _ s3
      simp [itemResult, leafResult]
    have hall : runAll (leafResult cb recursive allowed) t.quads.toList s =
        (out ++ (runAll (fun e => itemResult cb recursive (allowed - e.1.q.level) e)
          ((makeChildren cb x (cb.refine x s').2).1.map (fun y => (y, true)) ++ pend) st1.s).1,
         (runAll (fun e => itemResult cb recursive (allowed - e.1.q.level) e)
          ((makeChildren cb x (cb.refine x s').2).1.map (fun y => (y, true)) ++ pend) st1.s).2) := by
      rw [toList_split t.quads hlt, runAll_append, ← hout, hrun, ← hx]
      simp only [runAll]
      rw [leafResult_yes hyes, runAll_append, hs1, hpitem]
    have hlist : st2.arr.toList = out ++ (runAll (fun e => itemResult cb recursive (allowed - e.1.q.level) e)
          ((makeChildren cb x (cb.refine x s').2).1.map (fun y => (y, true)) ++ pend) st1.s).1 := by
      have hw := h2.written
      have hc := h2.count
      simp only [List.length_nil, Nat.add_zero] at hc
      rw [LArr.toList, hc]; exact hw
    simp only [Option.bind_some]
    refine ⟨⟨st2.arr, st2.perLevel, st2.maxlevel, t.offset⟩, by rw [hs2, hall], ?_, ?_, ?_, rfl⟩
    · rw [hlist, hall]
    · rw [h2.levels, ← hlist]
    · left; rw [h2.top, ← hlist]

end P4est
