import Verif.Lemmas.BalanceSub
import Verif.Props.Refine

/-! # The data of the new leaves -/

namespace P4est
open Spec

variable {d : ℕ} {α σ : Type}

theorem carried_quads (init : Quad d → σ → α × σ) (old : List (Leaf d α)) (ps : List (Quad d)) (s : σ) :
    (carried init old ps s).1.map Leaf.q = ps := by
  induction ps generalizing s with
  | nil => rfl
  | cons p ps ih =>
    unfold carried
    cases h : old.find? (fun x => x.q = p) with
    | none => simp [ih]
    | some x =>
      have := List.find?_some h
      simp only [decide_eq_true_eq] at this
      simp [ih, this]

theorem carried_congr (init : Quad d → σ → α × σ) (old old' : List (Leaf d α)) (ps : List (Quad d)) (s : σ)
    (h : ∀ p ∈ ps, old.find? (fun x => x.q = p) = old'.find? (fun x => x.q = p)) :
    carried init old ps s = carried init old' ps s := by
  induction ps generalizing s with
  | nil => rfl
  | cons p ps ih =>
    unfold carried
    rw [h p (by simp)]
    have ih' := fun s => ih s (fun q hq => h q (by simp [hq]))
    simp only [ih']

theorem carried_cons (init : Quad d → σ → α × σ) (old : List (Leaf d α)) (p : Quad d) (ps : List (Quad d)) (s : σ) :
    carried init old (p :: ps) s = match old.find? (fun x => x.q = p) with
    | some x => (x :: (carried init old ps s).1, (carried init old ps s).2)
    | none => (⟨p, (init p s).1⟩ :: (carried init old ps (init p s).2).1, (carried init old ps (init p s).2).2) := rfl

theorem carried_append (init : Quad d → σ → α × σ) (old : List (Leaf d α)) (ps qs : List (Quad d)) (s : σ) :
    carried init old (ps ++ qs) s = ((carried init old ps s).1 ++ (carried init old qs (carried init old ps s).2).1,
      (carried init old qs (carried init old ps s).2).2) := by
  induction ps generalizing s with
  | nil => rfl
  | cons p ps ih =>
    rw [List.cons_append, carried_cons, carried_cons]
    cases h : old.find? (fun x => x.q = p) with
    | none => simp only [ih]; simp
    | some x => simp only [ih]; simp

/-- What a run of the loops has done. -/
structure Merged (init : Quad d → σ → α × σ) (qs : List (Leaf d α)) (ps : List (Quad d))
    (st st' : MergeSt d α σ) : Prop where
  leaves : st'.leaves = st.leaves ++ (carried init qs ps st.s).1
  state : st'.s = (carried init qs ps st.s).2
  freed : st'.freed = st.freed ++ dropped qs ps
  count : ∀ l, st'.perLevel l + (qs.countP fun x => x.q.level = l : ℕ) =
    st.perLevel l + (ps.countP fun p => p.level = l : ℕ)
  maxle : st.maxlevel ≤ st'.maxlevel
  top : ∀ p ∈ ps, p ∈ qs.map Leaf.q ∨ p.level ≤ st'.maxlevel
  max : st'.maxlevel = st.maxlevel ∨ ∃ p ∈ ps, p.level = st'.maxlevel

theorem bump_apply (f : ℕ → ℤ) (l m : ℕ) (n : ℤ) : bump f l n m = f m + if l = m then n else 0 := by
  unfold bump
  by_cases h : l = m
  · subst h; simp
  · rw [Function.update_of_ne (Ne.symm h), if_neg h, add_zero]

/-- New leaves only. -/
theorem merged_new (init : Quad d → σ → α × σ) (ps : List (Quad d)) (st : MergeSt d α σ) :
    Merged init [] ps st (ps.foldl (mergeNew init) st) := by
  induction ps generalizing st with
  | nil => exact ⟨by simp [carried], by simp [carried], by simp [dropped], fun l => by simp, le_rfl, by simp, Or.inl rfl⟩
  | cons p ps ih =>
    rw [List.foldl_cons]
    have h := ih (mergeNew init st p)
    generalize ps.foldl (mergeNew init) (mergeNew init st p) = st' at h
    refine ⟨?_, ?_, ?_, ?_, ?_, ?_, ?_⟩
    · rw [h.leaves]; simp [mergeNew, carried]
    · rw [h.state]; simp [mergeNew, carried]
    · rw [h.freed]; simp [mergeNew, dropped]
    · intro l
      have := h.count l
      rw [List.countP_cons]
      simp only [mergeNew, bump_apply] at this
      rw [this]
      simp only [decide_eq_true_eq]
      push_cast
      split_ifs <;> omega
    · have := h.maxle
      simp only [mergeNew] at this
      omega
    · intro q hq
      right
      rcases List.mem_cons.mp hq with rfl | hq
      · have := h.maxle
        simp only [mergeNew] at this
        omega
      · exact (h.top q hq).resolve_left (by simp)
    · rcases h.max with h1 | ⟨q, hq, h1⟩
      · simp only [mergeNew] at h1
        rcases Nat.le_total st.maxlevel p.level with h2 | h2
        · right; exact ⟨p, by simp, by rw [h1]; omega⟩
        · left; rw [h1]; omega
      · right; exact ⟨q, by simp [hq], h1⟩

/-- The quadrants inside a leaf that was split. -/
theorem split_path (hd : 0 < d) {q : Quad d} (hq : Valid q) {ps : List (Quad d)} {a b : ℕ} (hp : Path a ps b)
    (hv : ∀ p ∈ ps, Valid p) (h1 : start q ≤ a) (h2 : a ≤ stop q) (h3 : stop q ≤ b)
    (hf : ∀ p ∈ ps, isAncestor p q = false) (hne : q ∉ ps) :
    Path a (ps.takeWhile fun p => isAncestor q p) (stop q) ∧
      Path (stop q) (ps.dropWhile fun p => isAncestor q p) b := by
  induction ps generalizing a with
  | nil =>
    have : a = b := hp
    simp only [List.takeWhile_nil, List.dropWhile_nil]
    exact ⟨show a = stop q by omega, show stop q = b by omega⟩
  | cons p ps ih =>
    obtain ⟨e1, e2⟩ := hp
    have hpv := hv p (by simp)
    have hle := e2.le
    have hlt := start_lt_stop p
    by_cases hc : isAncestor q p = true
    · have hin := (anc_interval hd hq hpv).mp hc
      obtain ⟨i1, i2⟩ := ih e2 (fun x hx => hv x (by simp [hx])) (by omega) (by omega)
        (fun x hx => hf x (by simp [hx])) (fun hx => hne (by simp [hx]))
      rw [List.takeWhile_cons_of_pos hc, List.dropWhile_cons_of_pos hc]
      exact ⟨⟨e1, i1⟩, i2⟩
    · rw [List.takeWhile_cons_of_neg hc, List.dropWhile_cons_of_neg hc]
      have : a = stop q := by
        rcases valid_cases hd hq hpv with h | h | h | h | h
        · omega
        · omega
        · exact absurd (by rw [h]; simp) hne
        · exact absurd ((anc_interval hd hq hpv).mpr ⟨h.1, h.2.1, h.2.2.1⟩) hc
        · have := hf p (by simp)
          rw [(anc_interval hd hpv hq).mpr ⟨h.1, h.2.1, h.2.2.1⟩] at this
          simp at this
      exact ⟨this, this ▸ ⟨e1, e2⟩⟩

theorem mergeLoop_spec (hd : 0 < d) (init : Quad d → σ → α × σ) (qs : List (Leaf d α)) (ps : List (Quad d))
    (st : MergeSt d α σ) {a b : ℕ} (hp : Path a ps b) (hv : ∀ p ∈ ps, Valid p) (hqv : ∀ x ∈ qs, Valid x.q)
    (hin : ∀ x ∈ qs, a ≤ start x.q ∧ stop x.q ≤ b) (hlin : qs.Pairwise fun x y => stop x.q ≤ start y.q)
    (hf : ∀ p ∈ ps, ∀ x ∈ qs, isAncestor p x.q = false) :
    ∃ st', mergeLoop init qs ps st = some st' ∧ Merged init qs ps st st' := by
  match qs, ps with
  | [], ps =>
    unfold mergeLoop
    exact ⟨_, rfl, merged_new init ps st⟩
  | x :: qs, [] =>
    have h1 := hin x (by simp)
    have h2 : a = b := hp
    have := start_lt_stop x.q
    omega
  | x :: qs, p :: ps =>
    obtain ⟨e1, e2⟩ := hp
    have hpv := hv p (by simp)
    have hxv := hqv x (by simp)
    have hxi := hin x (by simp)
    have hlt := start_lt_stop p
    have hxlt := start_lt_stop x.q
    have hple := e2.le
    obtain ⟨l1, l2⟩ := List.pairwise_cons.mp hlin
    have hxlater : ∀ y ∈ x :: qs, start x.q ≤ start y.q := by
      intro y hy
      rcases List.mem_cons.mp hy with rfl | hy
      · exact le_rfl
      · have := l1 y hy; omega
    have hpsafter : ∀ r ∈ ps, stop p ≤ start r := fun r hr => (e2.mem hr).1
    unfold mergeLoop
    by_cases hc : compare p x.q < 0
    · rw [if_pos hc]
      rw [compare_neg_iff hd hpv.int32 hxv.int32, before_interval] at hc
      have hpx := hf p (by simp) x (by simp)
      have hst : stop p ≤ start x.q := by
        rcases valid_cases hd hpv hxv with h | h | h | h | h
        · exact h
        · omega
        · rw [h] at hc; omega
        · rw [(anc_interval hd hpv hxv).mpr ⟨h.1, h.2.1, h.2.2.1⟩] at hpx
          simp at hpx
        · omega
      have hne : ps ≠ [] := by
        rintro rfl
        have : stop p = b := e2
        omega
      rw [if_neg (by simpa using hne)]
      obtain ⟨st', h1, h2⟩ := mergeLoop_spec hd init (x :: qs) ps (mergeNew init st p) e2
        (fun r hr => hv r (by simp [hr])) hqv (fun y hy => ⟨by have := hxlater y hy; omega, (hin y hy).2⟩) hlin
        (fun r hr => hf r (by simp [hr]))
      have hfind : (x :: qs).find? (fun y => y.q = p) = none := by
        rw [List.find?_eq_none]
        intro y hy hyp
        simp only [decide_eq_true_eq] at hyp
        have := hxlater y hy
        rw [hyp] at this
        omega
      refine ⟨st', h1, ?_, ?_, ?_, ?_, ?_, ?_, ?_⟩
      · rw [h2.leaves, carried_cons, hfind]; simp [mergeNew]
      · rw [h2.state]
        conv_rhs => unfold carried
        rw [hfind]; simp [mergeNew]
      · rw [h2.freed]
        unfold dropped
        congr 1
        apply List.filter_congr
        intro y hy
        have : y.q ≠ p := by
          rw [List.find?_eq_none] at hfind
          simpa using hfind y hy
        simp [this]
      · intro l
        have := h2.count l
        rw [this, List.countP_cons (l := ps)]
        simp only [mergeNew, bump_apply, decide_eq_true_eq]
        push_cast
        split_ifs <;> omega
      · have := h2.maxle
        simp only [mergeNew] at this
        omega
      · intro q hq
        rcases List.mem_cons.mp hq with rfl | hq
        · right
          have := h2.maxle
          simp only [mergeNew] at this
          omega
        · exact h2.top q hq
      · rcases h2.max with h3 | ⟨q, hq, h3⟩
        · simp only [mergeNew] at h3
          rcases Nat.le_total st.maxlevel p.level with h4 | h4
          · right; exact ⟨p, by simp, by rw [h3]; omega⟩
          · left; rw [h3]; omega
        · right; exact ⟨q, by simp [hq], h3⟩
    · rw [if_neg hc]
      rw [compare_neg_iff hd hpv.int32 hxv.int32, before_interval] at hc
      have hse : start p = start x.q := by omega
      by_cases hl : x.q.level < p.level
      · rw [if_pos hl]
        have hne : x.q ∉ p :: ps := by
          intro hm
          rcases List.mem_cons.mp hm with h | h
          · rw [h] at hl; omega
          · have := hpsafter _ h; omega
        obtain ⟨s1, s2⟩ := split_path hd hxv (ps := p :: ps) ⟨e1, e2⟩ hv (by omega) (by omega) hxi.2
          (fun r hr => hf r hr x (by simp)) hne
        have hcat := List.takeWhile_append_dropWhile (p := fun r => isAncestor x.q r) (l := p :: ps)
        generalize (p :: ps).takeWhile (fun r => isAncestor x.q r) = tw at *
        generalize hdw : (p :: ps).dropWhile (fun r => isAncestor x.q r) = dw at *
        have hdwle : dw.length ≤ ps.length + 1 := by
          have := congrArg List.length hcat
          simp only [List.length_append, List.length_cons] at this
          omega
        have htw : ∀ r ∈ tw, r ∈ p :: ps := fun r hr => by rw [← hcat]; simp [hr]
        have hdwm : ∀ r ∈ dw, r ∈ p :: ps := fun r hr => by rw [← hcat]; simp [hr]
        have hm1 := merged_new init tw
          { st with perLevel := bump st.perLevel x.q.level (-1), freed := st.freed ++ [x] }
        obtain ⟨st', h1, h2⟩ := mergeLoop_spec hd init qs dw (tw.foldl (mergeNew init)
          { st with perLevel := bump st.perLevel x.q.level (-1), freed := st.freed ++ [x] }) s2
          (fun r hr => hv r (hdwm r hr)) (fun y hy => hqv y (by simp [hy]))
          (fun y hy => ⟨l1 y hy, (hin y (by simp [hy])).2⟩) l2
          (fun r hr y hy => hf r (hdwm r hr) y (by simp [hy]))
        have hfind1 : ∀ r ∈ tw, (x :: qs).find? (fun y => y.q = r) = none := by
          intro r hr
          rw [List.find?_eq_none]
          intro y hy hyr
          simp only [decide_eq_true_eq] at hyr
          have hr1 := s1.mem hr
          have hr2 := start_lt_stop r
          rcases List.mem_cons.mp hy with rfl | hy
          · apply hne; rw [hyr]; exact htw r hr
          · have := l1 y hy; rw [hyr] at this; omega
        have hfind2 : ∀ r ∈ dw, (x :: qs).find? (fun y => y.q = r) = qs.find? (fun y => y.q = r) := by
          intro r hr
          rw [List.find?_cons_of_neg]
          simp only [decide_eq_true_eq]
          intro h; exact hne (by rw [h]; exact hdwm r hr)
        have hcar1 : ∀ s, carried init (x :: qs) tw s = carried init [] tw s := fun s =>
          carried_congr _ _ _ _ _ (fun r hr => by rw [hfind1 r hr]; rfl)
        have hcar2 : ∀ s, carried init (x :: qs) dw s = carried init qs dw s := fun s =>
          carried_congr _ _ _ _ _ hfind2
        refine ⟨st', h1, ?_⟩
        rw [← hcat]
        refine ⟨?_, ?_, ?_, ?_, ?_, ?_, ?_⟩
        · rw [h2.leaves, hm1.leaves, hm1.state, carried_append, hcar1, hcar2]
          simp
        · rw [h2.state, hm1.state, carried_append, hcar1, hcar2]
        · rw [h2.freed, hm1.freed]
          have hx : dropped (x :: qs) (tw ++ dw) = x :: dropped qs dw := by
            unfold dropped
            rw [List.filter_cons_of_pos (by rw [hcat]; simpa using hne)]
            congr 1
            apply List.filter_congr
            intro y hy
            have : y.q ∉ tw := by
              intro h
              have h4 := hfind1 _ h
              rw [List.find?_eq_none] at h4
              have := h4 y (by simp [hy])
              simp at this
            simp [this]
          rw [hx]
          simp [dropped]
        · intro l
          have c1 := h2.count l
          have c2 := hm1.count l
          simp only [bump_apply, List.countP_nil] at c2
          rw [List.countP_append, List.countP_cons]
          simp only [decide_eq_true_eq]
          push_cast at *
          split_ifs at * <;> omega
        · exact hm1.maxle.trans h2.maxle
        · intro q hq
          rcases List.mem_append.mp hq with hq | hq
          · right
            exact ((hm1.top q hq).resolve_left (by simp)).trans h2.maxle
          · exact (h2.top q hq).imp (fun h => by simp only [List.map_cons, List.mem_cons]; exact Or.inr h) id
        · rcases h2.max with h3 | ⟨q, hq, h3⟩
          · rcases hm1.max with h4 | ⟨q, hq, h4⟩
            · left; rw [h3, h4]
            · right; exact ⟨q, by simp [hq], by rw [h3, h4]⟩
          · right; exact ⟨q, by simp [hq], h3⟩
      · rw [if_neg hl]
        have hpx : x.q = p := by
          rcases valid_cases hd hpv hxv with h | h | h | h | h
          · omega
          · omega
          · exact h.symm
          · omega
          · omega
        have hse2 : stop p = stop x.q := by rw [hpx]
        obtain ⟨st', h1, h2⟩ := mergeLoop_spec hd init qs ps { st with leaves := st.leaves ++ [⟨p, x.data⟩] } e2
          (fun r hr => hv r (by simp [hr])) (fun y hy => hqv y (by simp [hy]))
          (fun y hy => ⟨by have := l1 y hy; omega, (hin y (by simp [hy])).2⟩) l2
          (fun r hr y hy => hf r (by simp [hr]) y (by simp [hy]))
        have hcar : ∀ s, carried init (x :: qs) ps s = carried init qs ps s := fun s =>
          carried_congr _ _ _ _ _ (fun r hr => by
            rw [List.find?_cons_of_neg]
            simp only [decide_eq_true_eq]
            intro h
            have := hpsafter r hr
            rw [← h] at this
            omega)
        have hfind : (x :: qs).find? (fun y => y.q = p) = some x := by
          rw [List.find?_cons_of_pos]; simpa using hpx
        have hleaf : (⟨p, x.data⟩ : Leaf d α) = x := by rw [← hpx]
        refine ⟨st', h1, ?_, ?_, ?_, ?_, ?_, ?_, ?_⟩
        · rw [h2.leaves]
          conv_rhs => unfold carried
          rw [hfind]
          simp [hcar, hleaf]
        · rw [h2.state]
          conv_rhs => unfold carried
          rw [hfind]
          simp [hcar]
        · rw [h2.freed]
          unfold dropped
          rw [List.filter_cons_of_neg (by simp [hpx])]
          congr 1
          apply List.filter_congr
          intro y hy
          have : y.q ≠ p := by
            intro h
            have := l1 y hy
            rw [h] at this
            omega
          simp [this]
        · intro l
          have c1 := h2.count l
          simp only at c1
          rw [List.countP_cons, List.countP_cons, hpx]
          simp only [decide_eq_true_eq]
          push_cast at *
          split_ifs at * <;> omega
        · exact h2.maxle
        · intro q hq
          rcases List.mem_cons.mp hq with rfl | hq
          · left; simp [hpx]
          · exact (h2.top q hq).imp (fun h => by simp only [List.map_cons, List.mem_cons]; exact Or.inr h) id
        · rcases h2.max with h3 | ⟨q, hq, h3⟩
          · left; exact h3
          · right; exact ⟨q, by simp [hq], h3⟩
termination_by qs.length + ps.length
decreasing_by
  all_goals simp only [List.length_cons]
  all_goals omega

theorem ofList_toList (a : LArr d α) (l : List (Leaf d α)) : (a.ofList l).toList = l := by
  unfold LArr.ofList LArr.toList
  apply List.ext_getElem
  · simp
  · intro i h1 h2
    simp [h2]

end P4est
