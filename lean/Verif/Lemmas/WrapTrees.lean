import Verif.Lemmas.Wrap
import Verif.Props.Forest

/-! # Adaptation with flags over all local trees -/

namespace P4est
open Spec

variable {d : ℕ}

theorem wrapKids_length (m : Quad d → WrapFlag) (L : List (Quad d)) :
    (L.flatMap (wrapKids m)).length = L.length + (2 ^ d - 1) * L.countP (wrapSplits m) := by
  have hD : 0 < 2 ^ d := by positivity
  induction L with
  | nil => rfl
  | cons q L ih =>
    rw [List.flatMap_cons, List.length_append, ih, List.countP_cons, List.length_cons, wrapKids]
    cases h : wrapSplits m q
    · simp; omega
    · simp only [if_true, childrenv, List.length_map, List.length_range]
      have : (2 ^ d - 1) * (L.countP (wrapSplits m) + 1) = (2 ^ d - 1) * L.countP (wrapSplits m) + (2 ^ d - 1) := by ring
      omega

theorem wrapTemp_length (m : Quad d → WrapFlag) (L : List (Quad d)) :
    (L.flatMap (wrapTemp m)).length = (L.flatMap (wrapKids m)).length := by
  induction L with
  | nil => rfl
  | cons q L ih =>
    rw [List.flatMap_cons, List.flatMap_cons, List.length_append, List.length_append, ih]
    unfold wrapTemp wrapKids
    split_ifs <;> simp [childrenv]

/-- Refinement of all local trees with the callbacks of the wrap. -/
theorem wrap_refine_trees (hd : 0 < d) : ∀ (ts : List (Tree d Unit)) (m : ℕ → Quad d → WrapFlag),
    (∀ i q, (m i q).refine = true → (m i q).coarsen = false) → (∀ t ∈ ts, ∀ q ∈ quadsOf t, Valid q) →
    (∀ t ∈ ts, Gapless (quadsOf t)) →
    ∀ (n : ℤ) (st : WrapSt) (A R T Z : List WrapFlag),
      A.length = st.inside → st.flags = A ++ ((ts.map quadsOf).mapIdx fun i L => L.map (m i)).flatten ++ R →
      st.temp = T ++ Z → T.length = st.inside + (2 ^ d - 1) * st.replaced →
      ((ts.map quadsOf).map List.length).sum +
        (2 ^ d - 1) * ((ts.map quadsOf).mapIdx fun i L => L.countP fun q => (m i q).refine).sum ≤ Z.length →
      ((st.replaced + ((ts.map quadsOf).mapIdx fun i L => L.countP fun q => (m i q).refine).sum : ℕ) : ℤ) ≤ st.numRefine →
      ∃ ts' st' Z', refineTrees (wrapRefineCb d) false 29 ts n (some st) = some (ts', n + leafCount ts', some st') ∧
        ts'.map quadsOf = (ts.map quadsOf).mapIdx (fun i L => L.flatMap (wrapKids (m i))) ∧
        (∀ t ∈ ts', ∀ q ∈ quadsOf t, Valid q) ∧ (∀ t ∈ ts', Gapless (quadsOf t)) ∧
        ts'.map (fun t => Cover (quadsOf t)) = ts.map (fun t => Cover (quadsOf t)) ∧
        st'.inside = st.inside + ((ts.map quadsOf).map List.length).sum ∧
        st'.flags = A ++ List.replicate ((ts.map quadsOf).map List.length).sum WrapFlag.zero ++ R ∧
        st'.temp = T ++ ((ts.map quadsOf).mapIdx fun i L => L.flatMap (wrapTemp (m i))).flatten ++ Z' ∧
        st'.replaced = st.replaced + ((ts.map quadsOf).mapIdx fun i L => L.countP (wrapSplits (m i))).sum ∧
        st'.numRefine = st.numRefine := by
  intro ts
  induction ts with
  | nil =>
    intro m hm hv hg n st A R T Z hA hf ht hT hZ hr
    exact ⟨[], st, Z, by simp [refineTrees, leafCount], by simp, by simp, by simp, by simp, by simp, by simpa using hf,
      by simpa using ht, by simp, rfl⟩
  | cons t ts ih =>
    intro m hm hv hg n st A R T Z hA hf ht hT hZ hr
    simp only [List.map_cons, List.mapIdx_cons, List.sum_cons, List.flatten_cons] at hf hZ hr ⊢
    have hlist : quadsOf t = t.quads.toList.map Leaf.q := rfl
    have hcount : ∀ p : Quad d → Bool, (quadsOf t).countP p = t.quads.toList.countP fun x => p x.q := by
      intro p; rw [hlist, List.countP_map]; rfl
    have hflat : ∀ {β : Type} (g : Quad d → List β), (quadsOf t).flatMap g = t.quads.toList.flatMap fun x => g x.q := by
      intro β g; rw [hlist, List.flatMap_map]
    have hlen : (quadsOf t).length = t.quads.toList.length := by rw [hlist, List.length_map]
    set rest := (ts.map quadsOf).mapIdx (fun i L => L.countP fun q => (m (i + 1) q).refine) with hrest
    set cnt := (quadsOf t).countP (fun q => (m 0 q).refine) with hcnt
    have hmul : (2 ^ d - 1) * (cnt + rest.sum) = (2 ^ d - 1) * cnt + (2 ^ d - 1) * rest.sum := by ring
    obtain ⟨st1, Z1, h1, h2, h3, h4, h5, h6, h7, h8⟩ := wrap_refine_list (m 0) (hm 0) t.quads.toList st A
      (((ts.map quadsOf).mapIdx fun i L => L.map (m (i + 1))).flatten ++ R) T Z hA
      (by rw [hf, hlist, List.map_map]; simp [Function.comp_def]) ht hT
      (by rw [← hcount (fun q => (m 0 q).refine), ← hlen, ← hcnt]; omega)
      (by rw [← hcount (fun q => (m 0 q).refine), ← hcnt]; exact le_trans (Int.ofNat_le.mpr (by omega)) hr)
    rw [← hcount (fun q => (m 0 q).refine), ← hlen, ← hcnt] at h8
    rw [← hcount (wrapSplits (m 0))] at h6
    rw [← hflat (wrapTemp (m 0))] at h5
    rw [← hflat (wrapKids (m 0))] at h2
    rw [← hlen] at h3 h4
    have hrefle : (quadsOf t).countP (wrapSplits (m 0)) ≤ cnt :=
      List.countP_mono_left (fun q _ h => by unfold wrapSplits at h; simp at h; exact h.1)
    obtain ⟨t1, he, hl, -, -, -⟩ := refineTree_eq hd (wrapRefineCb d) false 29 { t with offset := n } (some st)
    have hq1 : quadsOf t1 = (quadsOf t).flatMap (wrapKids (m 0)) := by
      rw [← h2]; unfold quadsOf; rw [hl]
    obtain ⟨t2, s2, he2, hval, -, -, hgap⟩ := C17_refine_invariants hd (wrapRefineCb d) false 29 (le_refl _) { t with offset := n }
      (some st) (hv t (by simp))
    rw [he] at he2
    simp only [Option.some.injEq, Prod.mk.injEq] at he2
    obtain ⟨rfl, -⟩ := he2
    obtain ⟨hgap1, hcov⟩ := hgap (hg t (by simp))
    obtain ⟨ts', st', Z', e, g1, g2, g3, g4, g5, g6, g7, g8, g9⟩ := ih (fun i => m (i + 1)) (fun i => hm (i + 1))
      (fun t ht => hv t (by simp [ht])) (fun t ht => hg t (by simp [ht])) (n + t1.quads.count) st1
      (A ++ List.replicate (quadsOf t).length WrapFlag.zero) R (T ++ (quadsOf t).flatMap (wrapTemp (m 0))) Z1
      (by simp [h3, hA]) (by rw [h4]; simp) h5
      (by
        rw [List.length_append, wrapTemp_length, wrapKids_length, h3, h6]
        have : (2 ^ d - 1) * (st.replaced + (quadsOf t).countP (wrapSplits (m 0))) =
          (2 ^ d - 1) * st.replaced + (2 ^ d - 1) * (quadsOf t).countP (wrapSplits (m 0)) := by ring
        omega)
      (by rw [← hrest]; omega)
      (by rw [← hrest, h6, h7]; exact le_trans (Int.ofNat_le.mpr (by omega)) hr)
    have hc1 : (t1.quads.count : ℤ) = (quadsOf t1).length := by simp [quadsOf, LArr.toList_length]
    refine ⟨t1 :: ts', st', Z', ?_, ?_, ?_, ?_, ?_, ?_, ?_, ?_, ?_, ?_⟩
    · rw [refineTrees, he]
      simp only [Option.bind_eq_bind, Option.bind_some]
      rw [h1, e]
      simp only [Option.bind_some, Option.some.injEq, Prod.mk.injEq, true_and, and_true]
      rw [hc1]; simp [leafCount]; ring
    · rw [List.map_cons, g1, hq1]
    · intro x hx
      rcases List.mem_cons.mp hx with rfl | hx
      · exact hval
      · exact g2 x hx
    · intro x hx
      rcases List.mem_cons.mp hx with rfl | hx
      · exact hgap1
      · exact g3 x hx
    · rw [List.map_cons, g4, hcov]; rfl
    · rw [g5, h3]; omega
    · rw [g6]; simp [← List.replicate_append_replicate]
    · rw [g7]; simp
    · rw [g8, h6]; omega
    · rw [g9, h7]

/-- Coarsening of all local trees with the callback of the wrap. -/
theorem wrap_coarsen_trees (hd : 0 < d) : ∀ (ts : List (Tree d Unit)) (c : ℕ → Quad d → Bool),
    (∀ t ∈ ts, ∀ q ∈ quadsOf t, Valid q) → (∀ t ∈ ts, Gapless (quadsOf t)) →
    ∀ (off : ℤ) (st : WrapSt) (T S Z : List WrapFlag), st.temp = T ++ S ++ Z → T.length = st.inside →
      S.map WrapFlag.coarsen = ((ts.map quadsOf).mapIdx fun i L => L.map (c i)).flatten →
      ∃ ts' change off' k, coarsenTrees (wrapCoarsenCb d) false true ts off (some st) = some (ts', change, off',
          some { st with inside := st.inside + ((ts.map quadsOf).map List.length).sum, replaced := st.replaced + k }) ∧
        change = -((2 ^ d - 1) * k) ∧ ts'.length = ts.length ∧ (k = 0 → ts'.map quadsOf = ts.map quadsOf) ∧
        leafCount ts' = leafCount ts + change ∧
        (∀ i t t', ts[i]? = some t → ts'[i]? = some t' →
          (∀ r ∈ quadsOf t', Valid r) ∧ Gapless (quadsOf t') ∧ Cover (quadsOf t') = Cover (quadsOf t) ∧
          (∀ r, r ∈ quadsOf t' ↔ ((kids r).all (c i) = true ∧ HasFamily (quadsOf t) r) ∨
            (r ∈ quadsOf t ∧ ¬ ∃ p, (kids p).all (c i) = true ∧ HasFamily (quadsOf t) p ∧ r ∈ kids p))) := by
  intro ts
  have hD : 0 < 2 ^ d := by positivity
  induction ts with
  | nil =>
    intro c hv hg off st T S Z ht hT hS
    exact ⟨[], 0, off, 0, by simp [coarsenTrees], by simp, rfl, fun _ => rfl, by simp, by simp⟩
  | cons t ts ih =>
    intro c hv hg off st T S Z ht hT hS
    simp only [List.map_cons, List.mapIdx_cons, List.flatten_cons, List.sum_cons] at hS ⊢
    have hlist : quadsOf t = t.quads.toList.map Leaf.q := rfl
    have hlen : (quadsOf t).length = t.quads.toList.length := by rw [hlist, List.length_map]
    have hSs : S = S.take (quadsOf t).length ++ S.drop (quadsOf t).length := (List.take_append_drop _ _).symm
    have hS1 : (S.take (quadsOf t).length).map WrapFlag.coarsen = t.quads.toList.map (fun x => c 0 x.q) := by
      rw [List.map_take, hS, List.take_left' (by simp), hlist, List.map_map]; rfl
    have hS2 : (S.drop (quadsOf t).length).map WrapFlag.coarsen =
        ((ts.map quadsOf).mapIdx fun i L => L.map (c (i + 1))).flatten := by
      rw [List.map_drop, hS, List.drop_left' (by simp)]
    have hSlen : (S.take (quadsOf t).length).length = (quadsOf t).length := by
      have := congrArg List.length hS1
      simp only [List.length_map] at this
      omega
    obtain ⟨k1, h1, h2, h3, hk1⟩ := wrap_coarsen_list hd (c 0) _ t.quads.toList st T (S.take (quadsOf t).length)
      (S.drop (quadsOf t).length ++ Z) (le_refl _) (by rw [ht, List.append_assoc T (S.take _), ← List.append_assoc (S.take _), List.take_append_drop, List.append_assoc]) hT hS1
    obtain ⟨t1, rem, off1, he, hl, hrem, -⟩ := coarsenTree_once hd (wrapCoarsenCb d) true t off (some st) (hv t (by simp))
      (hg t (by simp))
    obtain ⟨t2, rem2, off2, he2, hl2, hrem2, -⟩ := coarsenTree_once hd (markedCb (c 0)) true t off () (hv t (by simp))
      (hg t (by simp))
    have hsame : quadsOf t1 = quadsOf t2 := by unfold quadsOf; rw [hl, hl2, h2]
    obtain ⟨t3, rem3, off3, s3, he3, hmem⟩ := C19_coarsen_once hd (markedCb (c 0)) (fun p => (kids p).all (c 0))
      (by
        intro fam p s hf
        change (fam.all fun x => c 0 x.q) = (kids p).all (c 0)
        rw [← hf, List.all_map]; rfl) true t off () (hv t (by simp)) (hg t (by simp))
    rw [he2] at he3
    simp only [Option.some.injEq, Prod.mk.injEq] at he3
    obtain ⟨rfl, -⟩ := he3
    rw [← hsame] at hmem
    obtain ⟨t4, rem4, off4, s4, he4, hv4, hg4, -, hc4, -⟩ := C19_coarsen_invariants hd (wrapCoarsenCb d) false true t off (some st)
      (hv t (by simp)) (hg t (by simp))
    rw [he] at he4
    simp only [Option.some.injEq, Prod.mk.injEq] at he4
    obtain ⟨rfl, -⟩ := he4
    obtain ⟨ts', ch, off', k2, e, hch, hlen', hk2, hlc, hall⟩ := ih (fun i => c (i + 1)) (fun t ht => hv t (by simp [ht]))
      (fun t ht => hg t (by simp [ht])) off1
      { st with inside := st.inside + (quadsOf t).length, replaced := st.replaced + k1 }
      (T ++ S.take (quadsOf t).length) (S.drop (quadsOf t).length) Z (by rw [ht, List.append_assoc T (S.take _), List.take_append_drop])
      (by rw [List.length_append, hSlen, hT]) hS2
    refine ⟨t1 :: ts', ch - rem, off', k1 + k2, ?_, ?_, by simp [hlen'], ?_, ?_, ?_⟩
    · rw [coarsenTrees, he]
      simp only [Option.bind_eq_bind, Option.bind_some]
      rw [h1, ← hlen, e]
      simp only [Option.bind_some, Option.some.injEq, Prod.mk.injEq, WrapSt.mk.injEq, true_and, and_true]
      constructor <;> omega
    · rw [hch]
      have : (rem : ℤ) = (2 ^ d - 1) * k1 := by
        have h4 : (onceRun (markedCb (c 0)) true t.quads.toList ()).1.length = t1.quads.toList.length := by rw [hl, h2]
        rw [h4] at h3
        have h5 : rem = (2 ^ d - 1) * k1 := by omega
        rw [h5]; push_cast [Nat.cast_sub hD]; ring
      rw [this]; push_cast; ring
    · intro h
      rw [List.map_cons, hk2 (by omega)]
      congr 1
      unfold quadsOf
      rw [hl, h2, hk1 (by omega)]
    · have h6 : (quadsOf t1).length + rem = (quadsOf t).length := by simpa [quadsOf] using hrem
      unfold leafCount at *
      simp only [List.map_cons, List.sum_cons]
      rw [hlc]; push_cast [← h6]; ring
    · intro i x x' hx hx'
      cases i with
      | zero =>
        simp only [List.getElem?_cons_zero, Option.some.injEq] at hx hx'
        subst hx; subst hx'
        exact ⟨hv4, hg4, hc4, hmem⟩
      | succ i =>
        simp only [List.getElem?_cons_succ] at hx hx'
        exact hall i x x' hx hx'

end P4est
