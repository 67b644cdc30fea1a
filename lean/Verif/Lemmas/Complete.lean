import Verif.Model.Complete
import Verif.Props.Coarsen

/-! # The work list of `p4est_complete_region` -/

namespace P4est
open Spec

variable {d : ℕ} {α σ : Type}

/-- Two legal quadrants are disjoint, equal or nested. -/
theorem valid_cases (hd : 0 < d) {q r : Quad d} (hq : Valid q) (hr : Valid r) :
    stop q ≤ start r ∨ stop r ≤ start q ∨ q = r ∨
    (start q ≤ start r ∧ stop r ≤ stop q ∧ q.level < r.level ∧ Cells r ⊂ Cells q) ∨
    (start r ≤ start q ∧ stop q ≤ stop r ∧ r.level < q.level ∧ Cells q ⊂ Cells r) := by
  by_cases h : (Cells q ∩ Cells r).Nonempty
  · by_cases he : q = r
    · simp [he]
    have hne : Cells q ≠ Cells r := fun h => he (cells_inj hd hq.aligned hr.aligned h)
    rcases laminar hq.aligned hr.aligned h with h1 | h1
    · have h2 := (subset_iff_interval hd hq.aligned hr.aligned hq.int32 hr.int32).mp h1
      have h3 := (cells_subset_iff hd hq.aligned hr.aligned).mp h1
      have h4 : Cells r ⊂ Cells q := Set.ssubset_iff_subset_ne.mpr ⟨h1, hne.symm⟩
      have h5 := (isAncestor_iff_div.mp ((isAncestor_iff hd hq.aligned hr.aligned).mpr h4)).1
      exact Or.inr (Or.inr (Or.inr (Or.inl ⟨h2.1, h2.2, h5, h4⟩)))
    · have h2 := (subset_iff_interval hd hr.aligned hq.aligned hr.int32 hq.int32).mp h1
      have h4 : Cells q ⊂ Cells r := Set.ssubset_iff_subset_ne.mpr ⟨h1, hne⟩
      have h5 := (isAncestor_iff_div.mp ((isAncestor_iff hd hr.aligned hq.aligned).mpr h4)).1
      exact Or.inr (Or.inr (Or.inr (Or.inr ⟨h2.1, h2.2, h5, h4⟩)))
  · rcases (disjoint_iff_interval hq.aligned hr.aligned hq.int32 hr.int32).mp h with h | h
    · exact Or.inl h
    · exact Or.inr (Or.inl h)

theorem anc_interval (hd : 0 < d) {q r : Quad d} (hq : Valid q) (hr : Valid r) :
    isAncestor q r = true ↔ start q ≤ start r ∧ stop r ≤ stop q ∧ q.level < r.level := by
  have h1 := start_lt_stop q
  have h2 := start_lt_stop r
  rw [isAncestor_iff hd hq.aligned hr.aligned]
  constructor
  · intro h
    have h3 := (subset_iff_interval hd hq.aligned hr.aligned hq.int32 hr.int32).mp h.1
    rcases valid_cases hd hq hr with h | h | h | h | h
    · omega
    · omega
    · subst h; exact absurd h (by exact fun h => h.2 subset_rfl)
    · exact ⟨h.1, h.2.1, h.2.2.1⟩
    · rename_i h'; exact absurd h'.1 h.2.2.2.2
  · rintro ⟨h3, h4, h5⟩
    rcases valid_cases hd hq hr with h | h | h | h | h
    · omega
    · omega
    · subst h; omega
    · exact h.2.2.2
    · omega

theorem before_interval (q r : Quad d) : Before q r ↔
    start q < start r ∨ (start q = start r ∧ q.level < r.level) := Iff.rfl

theorem valid_child (hd : 0 < d) {p : Quad d} (hp : Valid p) (hl : p.level < 29) {w : Quad d}
    (hw : w ∈ childrenv p) : Valid w ∧ w.level = p.level + 1 ∧ start p ≤ start w ∧ stop w ≤ stop p := by
  obtain ⟨k, hk, rfl⟩ := List.mem_map.mp hw
  have h1 : Valid (child p k) := valid_subset hp (child_aligned hp.aligned (by omega) k)
    (by rw [child_level]; omega) (child_corner_mem hp.aligned (by omega) k)
  refine ⟨h1, rfl, ?_⟩
  have := (children_path hp.aligned hp.int32 (by omega)).mem hw
  exact this

/-- Leaves made from the quadrants by the init callback, in order. -/
theorem addQuad_foldl (init : Quad d → σ → α × σ) (ms : List (Quad d)) (st : RegionSt d α σ)
    (L : List (Leaf d α)) (hL : st.tree.quads.toList = L) :
    (ms.foldl (addQuad init) st).tree.quads.toList = L ++ (initAll init ms st.s).1 ∧
    (ms.foldl (addQuad init) st).s = (initAll init ms st.s).2 ∧
    (ms.foldl (addQuad init) st).tree.offset = st.tree.offset := by
  induction ms generalizing st L with
  | nil => simp [initAll, hL]
  | cons q ms ih =>
    simp only [List.foldl_cons]
    have hp : (addQuad init st q).tree.quads.toList = L ++ [⟨q, (init q st.s).1⟩] := by
      subst hL
      simp only [addQuad, LArr.push, LArr.toList, List.range_succ, List.map_append, List.map_cons,
        List.map_nil, Function.update_self]
      congr 1
      apply List.map_congr_left
      intro i hi
      rw [Function.update_of_ne]
      have := List.mem_range.mp hi
      omega
    obtain ⟨h1, h2, h3⟩ := ih (addQuad init st q) _ hp
    refine ⟨?_, ?_, ?_⟩
    · rw [h1]; simp [initAll, addQuad]
    · rw [h2]; simp [initAll, addQuad]
    · rw [h3]; simp [addQuad]

theorem addQuad_counters (init : Quad d → σ → α × σ) (ms : List (Quad d)) (st : RegionSt d α σ)
    (h1 : st.tree.perLevel = levelCount st.tree.quads.toList)
    (h2 : st.tree.maxlevel = topLevel st.tree.quads.toList) :
    (ms.foldl (addQuad init) st).tree.perLevel =
      levelCount (ms.foldl (addQuad init) st).tree.quads.toList ∧
    (ms.foldl (addQuad init) st).tree.maxlevel =
      topLevel (ms.foldl (addQuad init) st).tree.quads.toList := by
  induction ms generalizing st with
  | nil => exact ⟨h1, h2⟩
  | cons q ms ih =>
    simp only [List.foldl_cons]
    have hp := (addQuad_foldl init [q] st _ rfl).1
    simp only [List.foldl_cons, List.foldl_nil, initAll] at hp
    apply ih
    · rw [hp, ← bump_levelCount, ← h1]; rfl
    · rw [hp, topLevel_snoc, ← h2]; exact Nat.max_comm _ _

/-- `w` is a child of a legal quadrant that properly contains `a` or `b`. -/
def Hit (a b w : Quad d) : Prop :=
  ∃ p, Valid p ∧ w ∈ childrenv p ∧ (isAncestor p a = true ∨ isAncestor p b = true)

theorem Hit.valid (hd : 0 < d) {a b w : Quad d} (ha : Valid a) (hb : Valid b) (h : Hit a b w) :
    Valid w := by
  obtain ⟨p, hp, hw, h⟩ := h
  have : p.level < 29 := by
    have := ha.1
    have := hb.1
    rcases h with h | h
    · have := ((anc_interval hd hp ha).mp h).2.2; omega
    · have := ((anc_interval hd hp hb).mp h).2.2; omega
  exact (valid_child hd hp this hw).1

/-- Position `x` moved into the range between the end of `a` and the start of `b`. -/
def clamp (a b : Quad d) (x : ℕ) : ℕ := min (max x (stop a)) (start b)

theorem completeLoop_one (hd : 0 < d) (init : Quad d → σ → α × σ) {a b : Quad d} (ha : Valid a)
    (hb : Valid b) (hab : stop a ≤ start b) : ∀ (n : ℕ) (w : Quad d), 30 ≤ n + w.level → Hit a b w →
    ∃ ms : List (Quad d), (∀ m ∈ ms, Hit a b m) ∧
      Path (clamp a b (start w)) ms (clamp a b (stop w)) ∧
      ∀ (W : List (Quad d)) (st : RegionSt d α σ), completeLoop init a b (w :: W) st =
        completeLoop init a b W (ms.foldl (addQuad init) st) := by
  intro n
  induction n with
  | zero =>
    intro w hn hw
    have := (hw.valid hd ha hb).1
    omega
  | succ n ih =>
    intro w hn hw
    have hwv := hw.valid hd ha hb
    have sa := start_lt_stop a
    have sb := start_lt_stop b
    have sw := start_lt_stop w
    have c1 := compare_neg_iff hd ha.int32 hwv.int32
    have c2 := compare_neg_iff hd hwv.int32 hb.int32
    have d1 := anc_interval hd hwv ha
    have d2 := anc_interval hd hwv hb
    rw [before_interval] at c1 c2
    -- `w` is not inside `a` or `b`
    have hna : ¬ (start a ≤ start w ∧ stop w ≤ stop a ∧ a.level < w.level) := by
      rintro ⟨e1, e2, e3⟩
      obtain ⟨p, hp, hwp, h⟩ := hw
      have hpl : p.level < 29 := by
        have := ha.1
        have := hb.1
        rcases h with h | h
        · have := ((anc_interval hd hp ha).mp h).2.2; omega
        · have := ((anc_interval hd hp hb).mp h).2.2; omega
      obtain ⟨-, e4, e5, e6⟩ := valid_child hd hp hpl hwp
      rcases valid_cases hd hp ha with g | g | g | g | g
      · omega
      · omega
      · subst g
        rcases h with h | h
        · have := ((anc_interval hd hp ha).mp h).2.2; omega
        · have := ((anc_interval hd hp hb).mp h); omega
      · omega
      · rcases h with h | h
        · have := ((anc_interval hd hp ha).mp h).2.2; omega
        · have := ((anc_interval hd hp hb).mp h); omega
    have hnb : ¬ (start b ≤ start w ∧ stop w ≤ stop b ∧ b.level < w.level) := by
      rintro ⟨e1, e2, e3⟩
      obtain ⟨p, hp, hwp, h⟩ := hw
      have hpl : p.level < 29 := by
        have := ha.1
        have := hb.1
        rcases h with h | h
        · have := ((anc_interval hd hp ha).mp h).2.2; omega
        · have := ((anc_interval hd hp hb).mp h).2.2; omega
      obtain ⟨-, e4, e5, e6⟩ := valid_child hd hp hpl hwp
      rcases valid_cases hd hp hb with g | g | g | g | g
      · omega
      · omega
      · subst g
        rcases h with h | h
        · have := ((anc_interval hd hp ha).mp h); omega
        · have := ((anc_interval hd hp hb).mp h).2.2; omega
      · omega
      · rcases h with h | h
        · have := ((anc_interval hd hp ha).mp h); omega
        · have := ((anc_interval hd hp hb).mp h).2.2; omega
    by_cases hc : (compare a w < 0 ∧ compare w b < 0) ∧ ¬ isAncestor w b = true
    · -- appended
      refine ⟨[w], by simpa using hw, ?_, ?_⟩
      · rw [c1, c2, d2] at hc
        have h1 : stop a ≤ start w := by
          rcases valid_cases hd ha hwv with g | g | g | g | g
          · exact g
          · omega
          · subst g; omega
          · omega
          · omega
        have h2 : stop w ≤ start b := by
          rcases valid_cases hd hwv hb with g | g | g | g | g
          · exact g
          · omega
          · subst g; omega
          · omega
          · omega
        simp only [Path, clamp]
        omega
      · intro W st
        rw [completeLoop, if_pos hc]; rfl
    · by_cases hc2 : isAncestor w a = true ∨ isAncestor w b = true
      · have hwl : w.level < 29 := by
          have := ha.1
          have := hb.1
          rcases hc2 with h | h
          · have := (d1.mp h).2.2; omega
          · have := (d2.mp h).2.2; omega
        have hlist : ∀ (ws : List (Quad d)) (x : ℕ), (∀ v ∈ ws, v ∈ childrenv w) →
            ∀ y, Path x ws y → ∃ ms : List (Quad d), (∀ m ∈ ms, Hit a b m) ∧
              Path (clamp a b x) ms (clamp a b y) ∧
              ∀ (W : List (Quad d)) (st : RegionSt d α σ), completeLoop init a b (ws ++ W) st =
                completeLoop init a b W (ms.foldl (addQuad init) st) := by
          intro ws
          induction ws with
          | nil =>
            intro x _ y hp
            have : x = y := hp
            subst this
            exact ⟨[], by simp, rfl, fun _ _ => rfl⟩
          | cons v vs ihv =>
            intro x hmem y hp
            have hv := hmem v (by simp)
            obtain ⟨-, hvl, -, -⟩ := valid_child hd hwv hwl hv
            obtain ⟨m1, h1, h2, h3⟩ := ih v (by omega) ⟨w, hwv, hv, hc2⟩
            obtain ⟨m2, h4, h5, h6⟩ := ihv (stop v) (fun u hu => hmem u (List.mem_cons_of_mem _ hu)) y hp.2
            refine ⟨m1 ++ m2, ?_, ?_, ?_⟩
            · intro m hm
              rcases List.mem_append.mp hm with hm | hm
              · exact h1 m hm
              · exact h4 m hm
            · rw [path_append]
              rw [hp.1]
              exact ⟨_, h2, h5⟩
            · intro W st
              rw [List.cons_append, h3, h6, List.foldl_append]
        obtain ⟨ms, h1, h2, h3⟩ := hlist (childrenv w) (start w) (fun _ h => h) (stop w)
          (children_path hwv.aligned hwv.int32 (by omega))
        refine ⟨ms, h1, h2, fun W st => ?_⟩
        rw [completeLoop, if_neg hc, if_pos hc2, h3]
      · -- dropped
        refine ⟨[], by simp, ?_, ?_⟩
        · rw [c1, c2, d2] at hc
          rw [d1, d2] at hc2
          change clamp a b (start w) = clamp a b (stop w)
          unfold clamp
          rcases valid_cases hd ha hwv with g | g | g | g | g
          · rcases valid_cases hd hwv hb with f | f | f | f | f
            · omega
            · omega
            · subst f; omega
            · omega
            · omega
          · omega
          · subst g; omega
          · omega
          · omega
        · intro W st
          rw [completeLoop, if_neg hc, if_neg hc2]; rfl

theorem completeLoop_all (hd : 0 < d) (init : Quad d → σ → α × σ) {a b : Quad d} (ha : Valid a)
    (hb : Valid b) (hab : stop a ≤ start b) : ∀ (ws : List (Quad d)) (x y : ℕ),
    (∀ v ∈ ws, Hit a b v) → Path x ws y → ∃ ms : List (Quad d), (∀ m ∈ ms, Hit a b m) ∧
      Path (clamp a b x) ms (clamp a b y) ∧
      ∀ (st : RegionSt d α σ), completeLoop init a b ws st = some (ms.foldl (addQuad init) st) := by
  intro ws
  induction ws with
  | nil =>
    intro x y _ hp
    have : x = y := hp
    subst this
    refine ⟨[], by simp, rfl, fun st => ?_⟩
    rw [completeLoop]; rfl
  | cons v vs ih =>
    intro x y hmem hp
    obtain ⟨m1, h1, h2, h3⟩ := completeLoop_one hd init ha hb hab 30 v (by omega) (hmem v (by simp))
    obtain ⟨m2, h4, h5, h6⟩ := ih (stop v) y (fun u hu => hmem u (List.mem_cons_of_mem _ hu)) hp.2
    refine ⟨m1 ++ m2, ?_, ?_, fun st => ?_⟩
    · intro m hm
      rcases List.mem_append.mp hm with hm | hm
      · exact h1 m hm
      · exact h4 m hm
    · rw [path_append, hp.1]; exact ⟨_, h2, h5⟩
    · rw [h3, h6, List.foldl_append]

end P4est
