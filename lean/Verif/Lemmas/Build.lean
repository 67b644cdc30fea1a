import Verif.Spec.Build
import Verif.Props.Balance
import Verif.Props.Curve

/-! # Lemmas on building a tree -/

namespace P4est

open Spec

variable {d : ℕ} {α β σ : Type}

theorem carried_nil (init : Quad d → σ → α × σ) (ps : List (Quad d)) (s : σ) :
    carried init [] ps s = initAll init ps s := by
  induction ps generalizing s with
  | nil => rfl
  | cons p ps ih => rw [carried_cons]; simp only [List.find?_nil, ih]; rfl

/-- The quadrants at the two ends of the range, at the template's maximum level, begin and end where the
range does. -/
theorem buildEnds (hd : 0 < d) {f l : Quad d} (hf : Valid f) (hf9 : f.level = 29) (hl : Valid l)
    (hl9 : l.level = 29) {F : List (Quad d)} (hne : F ≠ []) (hT : Tiles f l F) {m : ℕ} (hm : ∀ q ∈ F, q.level ≤ m)
    (m' : ℕ) (hm' : m' = if m < 29 then m else 29) :
    Valid (ancestor f m') ∧ Valid (ancestor l m') ∧ start (ancestor f m') = start f ∧
      stop (ancestor l m') = stop l ∧
      (ancestor f m' = ancestor l m' ∨ stop (ancestor f m') ≤ start (ancestor l m')) := by
  have hm9 : m' ≤ 29 := by rw [hm']; split_ifs <;> omega
  have h0 : start f ≤ stop l := by
    obtain ⟨q, hq⟩ := List.exists_mem_of_ne_nil _ hne
    have := (section_iff hd (hT.valid q hq)).mp (by rw [← hT.cover]; exact fun p hp => ⟨q, hq, hp⟩)
    have := start_lt_stop q
    omega
  have hp := (tiles_iff hd hf hl h0 hT.valid).mp hT
  have v1 := ancestor_valid hf (l := m') (by omega)
  have v2 := ancestor_valid hl (l := m') (by omega)
  have c1 := (valid_subset_iff hd v1 hf).mp (cells_subset_ancestor hf.aligned (by omega))
  have c2 := (valid_subset_iff hd v2 hl).mp (cells_subset_ancestor hl.aligned (by omega))
  have hlev : ∀ q ∈ F, q.level ≤ m' := by
    intro q hq
    have := hm q hq
    have := (hT.valid q hq).1
    rw [hm']; split_ifs <;> omega
  have hs : start f < stop l := by
    obtain ⟨q, hq⟩ := List.exists_mem_of_ne_nil _ hne
    have := hp.mem hq
    have := start_lt_stop q
    omega
  have e1 : start (ancestor f m') = start f := by
    obtain ⟨x, xs, rfl⟩ := List.exists_cons_of_ne_nil hne
    have hx : start f = start x := hp.1
    have hxv := hT.valid x (by simp)
    have hxl := hlev x (by simp)
    have hs1 := start_lt_stop x
    have hs2 := start_lt_stop (ancestor f m')
    have hs3 := start_lt_stop f
    rcases valid_cases hd v1 hxv with g | g | g | g | g
    · omega
    · omega
    · rw [g, hx]
    · rw [ancestor_level] at g; omega
    · omega
  have e2 : stop (ancestor l m') = stop l := by
    obtain ⟨xs, x, rfl⟩ : ∃ xs x, F = xs ++ [x] := ⟨F.dropLast, F.getLast hne, (List.dropLast_append_getLast hne).symm⟩
    obtain ⟨b, -, -, hx⟩ := path_append.mp hp
    have hx : stop x = stop l := hx
    have hxv := hT.valid x (by simp)
    have hxl := hlev x (by simp)
    have hs1 := start_lt_stop x
    have hs2 := start_lt_stop (ancestor l m')
    have hs3 := start_lt_stop l
    rcases valid_cases hd v2 hxv with g | g | g | g | g
    · omega
    · omega
    · rw [g, hx]
    · rw [ancestor_level] at g; omega
    · omega
  refine ⟨v1, v2, e1, e2, ?_⟩
  rcases valid_cases hd v1 v2 with g | g | g | g | g
  · exact Or.inr g
  · omega
  · exact Or.inl g
  · rw [ancestor_level, ancestor_level] at g; omega
  · rw [ancestor_level, ancestor_level] at g; omega

/-- A tree to which nothing was added is filled as coarsely as possible. -/
theorem buildFill_spec (hd : 0 < d) (init : Quad d → σ → α × σ) {f l : Quad d} (hf : Valid f) (hf9 : f.level = 29)
    (hl : Valid l) (hl9 : l.level = 29) {F : List (Quad d)} (hne : F ≠ []) (hT : Tiles f l F) {m : ℕ}
    (hm : ∀ q ∈ F, q.level ≤ m) (t : Tree d α) (s : σ) (ht : t.quads.count = 0) (hz : ∀ l, t.perLevel l = 0) :
    ∃ t' s', buildFill init f l m t s = some (t', s') ∧ BuiltTree init f l [] s t' s' ∧ t'.offset = t.offset := by
  obtain ⟨v1, v2, e1, e2, e3⟩ := buildEnds hd hf hf9 hl hl9 hne hT hm _ rfl
  have q1 : (if m < QMAXLEVEL then ancestor f m else f) = ancestor f (if m < 29 then m else 29) := by
    have : QMAXLEVEL = 29 := rfl
    rw [this]
    split_ifs
    · rfl
    · conv_lhs => rw [← ancestor_self hf.aligned, hf9]
  have q2 : (if m < QMAXLEVEL then ancestor l m else l) = ancestor l (if m < 29 then m else 29) := by
    have : QMAXLEVEL = 29 := rfl
    rw [this]
    split_ifs
    · rfl
    · conv_lhs => rw [← ancestor_self hl.aligned, hl9]
  unfold buildFill
  simp only [q1, q2]
  generalize hqf : ancestor f (if m < 29 then m else 29) = qf at *
  generalize hql : ancestor l (if m < 29 then m else 29) = ql at *
  have hlev : qf.level = ql.level := by rw [← hqf, ← hql]; rfl
  have hs1 := start_lt_stop qf
  have hs2 := start_lt_stop ql
  have h0 : start f ≤ stop l := by rcases e3 with h | h <;> [rw [h] at e1; skip] <;> omega
  obtain ⟨n1, n2, n3, n4, -⟩ := C07_nca_valid hd qf ql v1 v2
  have i1 := (valid_subset_iff hd n1 v1).mp n2
  have i2 := (valid_subset_iff hd n1 v2).mp n3
  have hq0 : t.quads.toList = [] := by simp [LArr.toList, ht]
  have hfl := C13_is_first_last_iff hd qf ql (nca qf ql) v1.extended v2.extended n1.extended n2 n3
  generalize nca qf ql = a at *
  by_cases hc : isFirstLast qf ql a = true
  · rw [if_pos hc]
    obtain ⟨g1, g2⟩ := hfl.mp hc
    have hqs : (t.quads.push ⟨a, (init a s).1⟩).toList = [⟨a, (init a s).1⟩] := by
      simp [LArr.toList, LArr.push, ht]
    have hquads : ∀ p mx o, quadsOf (⟨t.quads.push ⟨a, (init a s).1⟩, p, mx, o⟩ : Tree d α) = [a] := by
      intro p mx o; unfold quadsOf; rw [hqs]; rfl
    refine ⟨_, _, rfl, ⟨?_, by simp, ?_, ?_, ?_⟩, rfl⟩
    · rw [hquads, tiles_iff hd hf hl h0 (by simpa using n1)]
      exact ⟨by omega, show stop a = stop l by omega⟩
    · rw [hquads, carried_nil]
      simp only [hqs]
      rfl
    · intro v hv hvs _
      rw [hquads]
      have := (section_iff hd hv).mp hvs
      exact ⟨a, by simp, (valid_subset_iff hd n1 hv).mpr (by omega)⟩
    · refine ⟨?_, ?_, ?_⟩
      · intro lv
        rw [hquads]
        by_cases h : lv = a.level
        · subst h; simp
        · simp [h, hz, Ne.symm h]
      · rw [hquads]; simp
      · rw [hquads]; simp
  · rw [if_neg hc]
    have hnot : ¬ (start qf = start a ∧ stop ql = stop a) := fun h => hc (hfl.mpr h)
    have hlt : stop qf ≤ start ql := by
      rcases e3 with h | h
      · exfalso
        have := n4 qf v1.aligned le_rfl (by rw [h])
        have := (valid_subset_iff hd v1 n1).mp this
        apply hnot
        rw [← h]; omega
      · exact h
    have hne1 : qf ≠ a := by
      rintro rfl; omega
    have hne2 : ql ≠ a := by
      rintro rfl; omega
    obtain ⟨k1, k2, k3⟩ := kid_of_ssubset hd n1 v1 (valid_ssubset_of_ne hd n1 v1 n2 hne1)
    obtain ⟨-, k4, k5⟩ := kid_of_ssubset hd n1 v2 (valid_ssubset_of_ne hd n1 v2 n3 hne2)
    have in1 := (k3 _ k2).mpr rfl
    have in2 := (k5 _ k4).mpr rfl
    have vc1 := kid_valid n1 k1 (ancestorId qf (a.level + 1))
    have vc2 := kid_valid n1 k1 (ancestorId ql (a.level + 1))
    rw [kid_eq_child n1] at in1 in2 vc1 vc2
    have hcc : Cells (child a (ancestorId qf (a.level + 1))) ⊂ Cells a := by
      rw [← kid_eq_child n1]; exact kid_subset hd n1 k1 k2
    have hne3 : child a (ancestorId qf (a.level + 1)) ≠ child a (ancestorId ql (a.level + 1)) := by
      intro h
      have := n4 _ vc1.aligned in1 (by rw [h]; exact in2)
      exact absurd this hcc.2
    have inkid : ∀ v, Valid v → Cells v ⊂ Cells a → ∀ q, Valid q → Cells q ⊂ Cells a → Cells q ⊆ Cells v →
        Cells v ⊆ Cells (child a (ancestorId q (a.level + 1))) := by
      intro v hv hva q hq hqa hqv
      obtain ⟨-, j2, j3⟩ := kid_of_ssubset hd n1 hv hva
      have j4 := (j3 _ j2).mpr rfl
      obtain ⟨-, j5, j6⟩ := kid_of_ssubset hd n1 hq hqa
      have := (j6 _ j2).mp (hqv.trans j4)
      rw [← this, ← kid_eq_child n1]
      exact j4
    obtain ⟨⟨f1, f2, f3, f4⟩, f5⟩ := C13_enlarge_first_maximal hd _ qf vc1.extended v1.extended in1
    obtain ⟨⟨l1, l2, l3, l4⟩, l5⟩ := C13_enlarge_last_maximal hd _ ql vc2.extended v2.extended in2
    have f1v : Valid (enlargeFirst (child a (ancestorId qf (a.level + 1))) qf) :=
      valid_subset vc1 f1.aligned f1.1 (f3 (corner_mem _))
    have l1v : Valid (enlargeLast (child a (ancestorId ql (a.level + 1))) ql) :=
      valid_subset vc2 l1.aligned l1.1 (l3 (corner_mem _))
    have i3 := (valid_subset_iff hd vc1 f1v).mp f3
    have i4 := (valid_subset_iff hd vc2 l1v).mp l3
    have i5 := (valid_subset_iff hd f1v v1).mp f2
    have i6 := (valid_subset_iff hd l1v v2).mp l2
    have hsep : stop (enlargeFirst (child a (ancestorId qf (a.level + 1))) qf) ≤
        start (enlargeLast (child a (ancestorId ql (a.level + 1))) ql) := by
      rcases valid_cases hd vc1 vc2 with g | g | g | g | g
      · omega
      · omega
      · exact absurd g hne3
      · rw [child_level, child_level] at g; omega
      · rw [child_level, child_level] at g; omega
    have hba := (before_disjoint_iff f1v.aligned l1v.aligned f1v.int32 l1v.int32).mpr hsep
    have hqt : quadsOf t = [] := by unfold quadsOf; rw [hq0]; rfl
    obtain ⟨mid, st, c1, c2, c3, c4, c5, -, c7, c8⟩ := C22_complete_region hd init _ _ true true t s f1v l1v hba hqt
    obtain ⟨st', c9, c10, c11⟩ := C21_complete_region_counters hd init _ _ true true t s f1v l1v hba hqt hz
    have : st = st' := by rw [c1] at c9; exact Option.some.inj c9
    subst this
    rw [obind c1]
    have hvm : ∀ q ∈ quadsOf st.tree, Valid q := by
      rw [c2]
      intro q hq
      simp only [if_true, List.mem_append, List.mem_singleton] at hq
      rcases hq with (rfl | hq) | rfl
      · exact f1v
      · exact c4 q hq
      · exact l1v
    generalize enlargeFirst (child a (ancestorId qf (a.level + 1))) qf = ef at *
    generalize enlargeLast (child a (ancestorId ql (a.level + 1))) ql = el at *
    have hsf := start_lt_stop ef
    have hsl := start_lt_stop el
    refine ⟨_, _, rfl, ⟨⟨hvm, ?_, ?_⟩, by simp, ?_, ?_, c10⟩, c11⟩
    · rw [c2]; exact c5
    · ext p
      constructor
      · rintro ⟨q, hq, hp⟩
        have hpi := aligned_int32_cells (hvm q hq).aligned (hvm q hq).int32 hp
        refine ⟨hpi, ?_⟩
        have hpq := (mem_iff_pos (hvm q hq).aligned (hvm q hq).int32 hpi).mp hp
        rw [c2] at hq
        simp only [if_true, List.mem_append, List.mem_singleton] at hq
        rcases hq with (rfl | hq) | rfl
        · omega
        · have := (c7 p hpi).mp ⟨q, hq, hp⟩
          omega
        · omega
      · rintro ⟨hpi, hp1, hp2⟩
        rw [c2]
        rcases Nat.lt_or_ge (curve p) (stop ef) with h | h
        · exact ⟨ef, by simp, (mem_iff_pos f1v.aligned f1v.int32 hpi).mpr (by omega)⟩
        · rcases Nat.lt_or_ge (curve p) (start el) with h' | h'
          · obtain ⟨q, hq, hp⟩ := (c7 p hpi).mpr ⟨h, h'⟩
            exact ⟨q, by simp [hq], hp⟩
          · exact ⟨el, by simp, (mem_iff_pos l1v.aligned l1v.int32 hpi).mpr (by omega)⟩
    · rw [carried_nil, initAll_runAll]; exact c3
    · intro v hv hvs _
      have hvi := (section_iff hd hv).mp hvs
      have hsv := start_lt_stop v
      have hva : Cells v ⊂ Cells a := by
        apply valid_ssubset_of_ne hd n1 hv ((valid_subset_iff hd n1 hv).mpr (by omega))
        rintro rfl
        exact hnot (by omega)
      -- at the left end
      by_cases hvl : start v = start f
      · refine ⟨ef, by rw [c2]; simp, ?_⟩
        rcases valid_cases hd v1 hv with g | g | g | g | g
        · omega
        · omega
        · rw [← g]; exact f2
        · exact g.2.2.2.1.trans f2
        · have hqv := g.2.2.2.1
          exact f5 v hv.extended hqv (inkid v hv hva qf v1 (valid_ssubset_of_ne hd n1 v1 n2 hne1) hqv) (by omega)
      by_cases hvr : stop v = stop l
      · refine ⟨el, by rw [c2]; simp, ?_⟩
        rcases valid_cases hd v2 hv with g | g | g | g | g
        · omega
        · omega
        · rw [← g]; exact l2
        · exact g.2.2.2.1.trans l2
        · have hqv := g.2.2.2.1
          exact l5 v hv.extended hqv (inkid v hv hva ql v2 (valid_ssubset_of_ne hd n1 v2 n3 hne2) hqv) (by omega)
      rcases valid_cases hd f1v hv with g | g | g | g | g
      rotate_left
      · omega
      · exact ⟨ef, by rw [c2]; simp, by rw [g]⟩
      · exact ⟨ef, by rw [c2]; simp, g.2.2.2.1⟩
      · omega
      rcases valid_cases hd l1v hv with g' | g' | g' | g' | g'
      · omega
      rotate_left
      · exact ⟨el, by rw [c2]; simp, by rw [g']⟩
      · exact ⟨el, by rw [c2]; simp, g'.2.2.2.1⟩
      · omega
      obtain ⟨q, hq, hmm⟩ := (c7 v.c hv.int32).mpr ⟨g, by change start v < _; omega⟩
      refine ⟨q, by rw [c2]; simp [hq], ?_⟩
      rcases laminar (c4 q hq).aligned hv.aligned ⟨v.c, hmm, corner_mem v⟩ with h | h
      · exact h
      · by_cases he : Cells q = Cells v
        · exact he.ge
        · exfalso
          rcases c8 q hq v hv (Set.ssubset_iff_subset_ne.mpr ⟨h, he⟩) with h | h
          · exact (disjoint_iff_interval hv.aligned f1v.aligned hv.int32 f1v.int32).mpr (by omega) h
          · exact (disjoint_iff_interval hv.aligned l1v.aligned hv.int32 l1v.int32).mpr (by omega) h

end P4est
