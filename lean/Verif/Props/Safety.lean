import Verif.Props.Complete

/-! # C45: the adaptation algorithms terminate and stay inside the leaf array

In the model a result `none` stands for an array access out of bounds or for a loop that does not
end.  The leaf arrays are arbitrary: no legality, order or completeness is assumed. -/

namespace P4est
open Spec

variable {d : ℕ} {α σ : Type}

/-- C45. Refinement, for every array and all callbacks. -/
theorem C45_refine_safe (hd : 0 < d) (cb : RefineCb d α σ) (recursive : Bool) (allowed : ℕ)
    (t : Tree d α) (s : σ) : ∃ t' s', refineTree cb recursive allowed t s = some (t', s') := by
  obtain ⟨t', h, -⟩ := refineTree_eq hd cb recursive allowed t s
  exact ⟨t', _, h⟩

/-- C45. Coarsening, for every array and all callbacks. -/
theorem C45_coarsen_safe (hd : 0 < d) (cb : CoarsenCb d α σ) (recursive orphans : Bool)
    (t : Tree d α) (off : ℤ) (s : σ) :
    ∃ t' rem off' s', coarsenTree cb recursive orphans t off s = some (t', rem, off', s') ∧
      t'.quads.count + rem = t.quads.count := by
  obtain ⟨arr, w, per, rem, s', h, -, -, -, h2⟩ := coarsenTree_eq hd cb recursive orphans t off s
    (fun _ _ _ _ => True) (fun _ _ _ _ _ _ => trivial) trivial
  refine ⟨_, _, _, _, h, ?_⟩
  simpa [LArr.toList] using h2

theorem linearizeLoop_safe (incount : ℕ) : ∀ (n : ℕ) (st : LinState d α),
    st.arr.count = incount → st.current < st.rest → st.rest ≤ incount → incount ≤ st.rest + n →
    ∃ st', linearizeLoop incount st = some st' ∧ st'.current < incount := by
  intro n
  induction n with
  | zero =>
    intro st h1 h2 h3 h4
    rw [linearizeLoop, if_neg (by omega)]
    exact ⟨st, rfl, by omega⟩
  | succ n ih =>
    intro st h1 h2 h3 h4
    rw [linearizeLoop]
    by_cases hr : st.rest < incount
    · rw [if_pos hr]
      have hi : ∀ i, i < incount → st.arr.index i = some (st.arr.get i) := by
        intro i hi; unfold LArr.index; rw [if_pos (by omega)]
      have hw : ∀ i x, i < incount → st.arr.write i x = some ⟨Function.update st.arr.get i x, incount⟩ := by
        intro i x hi; unfold LArr.write; rw [if_pos (by omega), h1]
      rw [hi _ (by omega), hi _ hr]
      simp only [Option.bind_eq_bind, Option.bind_some]
      split
      · rw [hw _ _ (by omega)]
        simp only [Option.bind_some]
        exact ih _ rfl (by simp only; omega) (by simp only; omega) (by simp only; omega)
      · split
        · rw [hw _ _ (by omega)]
          simp only [Option.bind_some]
          exact ih _ rfl (by simp only; omega) (by simp only; omega) (by simp only; omega)
        · exact ih _ h1 (by simp only; omega) (by simp only; omega) (by simp only; omega)
    · rw [if_neg hr]; exact ⟨st, rfl, by omega⟩

/-- C45. Linearizing, for every array, sorted or not. -/
theorem C45_linearize_safe (t : Tree d α) :
    ∃ t' n freed, linearizeTree t = some (t', n, freed) ∧ t'.quads.count ≤ t.quads.count := by
  unfold linearizeTree
  by_cases h : t.quads.count ≤ 1
  · rw [if_pos h]; exact ⟨t, 0, [], rfl, le_rfl⟩
  · rw [if_neg h]
    obtain ⟨st, h1, h2⟩ := linearizeLoop_safe t.quads.count t.quads.count
      ⟨t.quads, t.perLevel, 0, 1, []⟩ rfl (by simp) (by simp only; omega) (by simp)
    rw [h1]
    exact ⟨_, _, _, rfl, by simp only [LArr.resize]; omega⟩

theorem completeLoop_safe (hd : 0 < d) (init : Quad d → σ → α × σ) {a b : Quad d} (ha : Valid a)
    (hb : Valid b) : ∀ (n : ℕ) (w : Quad d), Valid w → 30 ≤ n + w.level →
    ∃ ms : List (Quad d), ∀ (W : List (Quad d)) (st : RegionSt d α σ),
      completeLoop init a b (w :: W) st = completeLoop init a b W (ms.foldl (addQuad init) st) := by
  intro n
  induction n with
  | zero => intro w hw hn; have := hw.1; omega
  | succ n ih =>
    intro w hw hn
    by_cases hc : (compare a w < 0 ∧ compare w b < 0) ∧ ¬ isAncestor w b = true
    · exact ⟨[w], fun W st => by rw [completeLoop, if_pos hc]; rfl⟩
    · by_cases hc2 : isAncestor w a = true ∨ isAncestor w b = true
      · have hwl : w.level < 29 := by
          have := ha.1
          have := hb.1
          rcases hc2 with h | h
          · have := ((anc_interval hd hw ha).mp h).2.2; omega
          · have := ((anc_interval hd hw hb).mp h).2.2; omega
        have hlist : ∀ ws : List (Quad d), (∀ v ∈ ws, v ∈ childrenv w) →
            ∃ ms : List (Quad d), ∀ (W : List (Quad d)) (st : RegionSt d α σ),
              completeLoop init a b (ws ++ W) st =
                completeLoop init a b W (ms.foldl (addQuad init) st) := by
          intro ws
          induction ws with
          | nil => intro _; exact ⟨[], fun _ _ => rfl⟩
          | cons v vs ihv =>
            intro hm
            obtain ⟨hv, hvl, -, -⟩ := valid_child hd hw hwl (hm v (by simp))
            obtain ⟨m1, h1⟩ := ih v hv (by omega)
            obtain ⟨m2, h2⟩ := ihv (fun u hu => hm u (List.mem_cons_of_mem _ hu))
            exact ⟨m1 ++ m2, fun W st => by rw [List.cons_append, h1, h2, List.foldl_append]⟩
        obtain ⟨ms, h⟩ := hlist (childrenv w) (fun _ h => h)
        exact ⟨ms, fun W st => by rw [completeLoop, if_neg hc, if_pos hc2, h]⟩
      · exact ⟨[], fun W st => by rw [completeLoop, if_neg hc, if_neg hc2]; rfl⟩

/-- C45. Completing a region terminates for all pairs of legal quadrants, also for nested pairs, where the
result is not documented.  (For two equal quadrants or the wrong order nothing is filled in.) -/
theorem C45_complete_region_safe (hd : 0 < d) (init : Quad d → σ → α × σ) (a b : Quad d)
    (inclA inclB : Bool) (t : Tree d α) (s : σ) (ha : Valid a) (hb : Valid b) :
    ∃ st, completeRegion init a inclA b inclB t s = some st := by
  unfold completeRegion
  simp only []
  by_cases hcmp : compare a b < 0
  · rw [if_pos hcmp]
    obtain ⟨hn, hna, hnb, -, -⟩ := C07_nca_valid hd a b ha hb
    have hnl : (nca a b).level < 29 := by
      by_contra hl
      have h1 := (cells_subset_iff hd hn.aligned ha.aligned).mp hna
      have h2 := (cells_subset_iff hd hn.aligned hb.aligned).mp hnb
      have h3 := (subset_iff_interval hd hn.aligned ha.aligned hn.int32 ha.int32).mp hna
      have h4 := (subset_iff_interval hd hn.aligned hb.aligned hn.int32 hb.int32).mp hnb
      have := ha.1
      have := hb.1
      have s1 := stop_eq a
      have s2 := stop_eq b
      have s3 := stop_eq (nca a b)
      have v1 : volume a = volume (nca a b) := volume_congr (by omega)
      have v2 : volume b = volume (nca a b) := volume_congr (by omega)
      have hab : a = b := eq_of_interval hd ha.aligned hb.aligned ha.int32 hb.int32 (by omega) (by omega)
      rw [(compare_eq_zero_iff hd ha.int32 hb.int32).mpr hab] at hcmp
      omega
    have hall : ∀ ws : List (Quad d), (∀ v ∈ ws, v ∈ childrenv (nca a b)) →
        ∀ st : RegionSt d α σ, ∃ st', completeLoop init a b ws st = some st' := by
      intro ws
      induction ws with
      | nil => intro _ st; exact ⟨st, by rw [completeLoop]⟩
      | cons v vs ih =>
        intro hm st
        obtain ⟨hv, -, -, -⟩ := valid_child hd hn hnl (hm v (by simp))
        obtain ⟨ms, h⟩ := completeLoop_safe hd init ha hb 30 v hv (by omega)
        rw [h]
        exact ih (fun u hu => hm u (List.mem_cons_of_mem _ hu)) _
    obtain ⟨st', h⟩ := hall _ (fun _ h => h) (addIf init inclA ⟨{ t with maxlevel := 0 }, s⟩ a)
    rw [h]
    exact ⟨_, rfl⟩
  · rw [if_neg hcmp]; exact ⟨_, rfl⟩

/-- The theorems about arbitrary arrays need only a positive dimension; legal quadrants exist. -/
example : 0 < 2 ∧ Valid (root 2) ∧ Valid (⟨![0, 0], 29⟩ : Quad 2) ∧
    compare (root 2) ⟨![0, 0], 29⟩ < 0 := by
  refine ⟨by norm_num, root_valid, ?_, by decide +kernel⟩
  rw [← isValid_iff]; decide +kernel

end P4est
