import Verif.Lemmas.FamilyList
import Verif.Props.Refine

/-! # Invariants of the coarsening loop on legal gapless trees -/

namespace P4est
open Spec

variable {d : ℕ} {α σ : Type}

/-- Legal leaves that follow each other without gap from position `a` to position `b`. -/
def Good (a b : ℕ) (L : List (Leaf d α)) : Prop := (∀ x ∈ L, Valid x.q) ∧ Path a (L.map Leaf.q) b

theorem list_split (d : ℕ) (L : List (Leaf d α)) (w : ℕ) :
    L = L.take w ++ (win d L w ++ L.drop (w + 2 ^ d)) := by
  unfold win
  rw [← List.drop_drop, List.take_append_drop, List.take_append_drop]

theorem Good.window {a b : ℕ} {L : List (Leaf d α)} (h : Good a b L) (w : ℕ) :
    (∀ x ∈ win d L w, Valid x.q) ∧ Gapless ((win d L w).map Leaf.q) := by
  obtain ⟨hv, hp⟩ := h
  rw [list_split d L w] at hv hp
  rw [List.map_append, path_append] at hp
  obtain ⟨u, _, hp⟩ := hp
  rw [List.map_append, path_append] at hp
  obtain ⟨v, hp, _⟩ := hp
  exact ⟨fun x hx => hv x (by simp [hx]), hp.gapless⟩

theorem path_family {u v : ℕ} {p : Quad d} (hp : Aligned p) (hi : Int32 p.c) (hl : p.level < 30)
    (h : Path u (childrenv p) v) : u = start p ∧ v = stop p := by
  have hc := children_path hp hi hl
  have hne : childrenv p ≠ [] := by unfold childrenv; simp
  have hu : u = start p := by
    cases hcv : childrenv p with
    | nil => exact absurd hcv hne
    | cons q ls =>
      rw [hcv] at h hc
      have h1 : start q = u := by have := h.1; omega
      have h2 : start q = start p := by have := hc.1; omega
      omega
  subst hu
  exact ⟨rfl, h.inj hc⟩

theorem Good.merge {a b : ℕ} {L : List (Leaf d α)} (h : Good a b L) {w : ℕ} {p : Quad d} (hp : Valid p)
    (hw : (win d L w).map Leaf.q = childrenv p) {x : Leaf d α} (hx : x.q = p) :
    Good a b (L.take w ++ x :: L.drop (w + 2 ^ d)) := by
  obtain ⟨hv, hpa⟩ := h
  constructor
  · intro y hy
    rw [List.mem_append, List.mem_cons] at hy
    rcases hy with hy | rfl | hy
    · exact hv y (List.mem_of_mem_take hy)
    · rw [hx]; exact hp
    · exact hv y (List.mem_of_mem_drop hy)
  · rw [list_split d L w] at hpa
    rw [List.map_append, path_append] at hpa
    obtain ⟨u, h1, hpa⟩ := hpa
    rw [List.map_append, path_append, hw] at hpa
    obtain ⟨v, h2, h3⟩ := hpa
    obtain ⟨e1, e2⟩ := path_family hp.aligned hp.int32 (by have := hp.1; omega) h2
    rw [List.map_append, path_append]
    refine ⟨u, h1, ?_⟩
    rw [List.map_cons, hx]
    refine ⟨by omega, ?_⟩
    rw [← e2]; exact h3

theorem win_getElem? {L : List (Leaf d α)} {w : ℕ} (h : w + 2 ^ d ≤ L.length) :
    (win d L w)[0]? = L[w]? := by
  unfold win
  rw [List.getElem?_take_of_lt (by positivity), List.getElem?_drop, Nat.add_zero]

/-- What one turn can do. -/
theorem turn_cases (hd : 0 < d) (cb : CoarsenCb d α σ) (recursive orphans : Bool) {a b : ℕ}
    {L : List (Leaf d α)} (hg : Good a b L) {w : ℕ} (hw : w + 2 ^ d ≤ L.length) (s : σ) (per : ℕ → ℤ) :
    (∃ p x s', Valid p ∧ p.level < 29 ∧ (win d L w).map Leaf.q = childrenv p ∧ x.q = p ∧
      (cb.coarsen (win d L w) s).1 = true ∧
      makeParent cb (win d L w) p (cb.coarsen (win d L w) s).2 = ([x], s') ∧
      listTurn cb recursive orphans L w s = (L.take w ++ x :: L.drop (w + 2 ^ d),
        (if childId p ≤ w ∧ recursive = true then w - childId p else w + 1), s') ∧
      turnLevels cb L w s per = bump (bump per (p.level + 1) (-2 ^ d)) p.level 1) ∨
    (∃ p, Valid p ∧ p.level < 29 ∧ (win d L w).map Leaf.q = childrenv p ∧
      (cb.coarsen (win d L w) s).1 = false ∧
      listTurn cb recursive orphans L w s = (L, w + 1, (cb.coarsen (win d L w) s).2) ∧
      turnLevels cb L w s per = per) ∨
    (∃ x, L[w]? = some x ∧ (∀ p, Aligned p → p.level < 30 → (win d L w).map Leaf.q ≠ childrenv p) ∧
      listTurn cb recursive orphans L w s = (L, w + 1, if orphans then (cb.coarsen [x] s).2 else s) ∧
      turnLevels cb L w s per = per) := by
  have hD := two_le_pow hd
  have hLw : L[w]? = some (L[w]'(by omega)) := List.getElem?_eq_getElem (by omega)
  set c0 := L[w]'(by omega) with hc0
  obtain ⟨hv, hgl⟩ := hg.window w
  by_cases hids : IdsOk (win d L w)
  · obtain ⟨h0, hp, hf⟩ := family_of_ids hd hv hgl hids (c0 := c0) (by rw [win_getElem? hw, hLw])
    have hlev : (parent c0.q).level < 29 := by
      have : Valid c0.q := hg.1 _ (List.getElem_mem _)
      have := this.1
      simp; omega
    by_cases hask : (cb.coarsen (win d L w) s).1 = true
    · left
      refine ⟨parent c0.q, _, _, hp, hlev, hf, ?_, hask, makeParent_eq _ _ _ _, ?_, ?_⟩
      · simp
      · unfold listTurn
        rw [if_pos hids, if_pos hask, hLw]
        simp
      · unfold turnLevels
        rw [if_pos ⟨hids, hask⟩, hLw]
        simp only [parent_level]
        rw [Nat.sub_add_cancel h0]
    · right; left
      refine ⟨parent c0.q, hp, hlev, hf, by simpa using hask, ?_, ?_⟩
      · unfold listTurn
        rw [if_pos hids, if_neg hask]
      · unfold turnLevels
        rw [if_neg (fun h => hask h.2)]
  · right; right
    refine ⟨c0, hLw, fun p hp hl hf => hids (ids_of_family hp hl hf), ?_, ?_⟩
    · unfold listTurn
      rw [if_neg hids, hLw]
    · unfold turnLevels
      rw [if_neg (fun h => hids h.1)]

theorem levelCount_family {fam : List (Leaf d α)} {p : Quad d} (h : fam.map Leaf.q = childrenv p) (l : ℕ) :
    levelCount fam l = if l = p.level + 1 then 2 ^ d else 0 := by
  rw [levelCount_eq, h, childrenv, List.countP_map]
  by_cases hl : l = p.level + 1
  · subst hl
    rw [if_pos rfl, List.countP_eq_length.mpr]
    · simp
    · intro a _; simp
  · rw [if_neg hl, List.countP_eq_zero.mpr]
    · simp
    · intro a _; simp [Ne.symm hl]

theorem levelCount_merge {L : List (Leaf d α)} {w : ℕ} {p : Quad d}
    (hw : (win d L w).map Leaf.q = childrenv p) {x : Leaf d α} (hx : x.q = p) :
    bump (bump (levelCount L) (p.level + 1) (-2 ^ d)) p.level 1 =
      levelCount (L.take w ++ x :: L.drop (w + 2 ^ d)) := by
  funext l
  have h1 : levelCount L l = levelCount (L.take w) l + (levelCount (win d L w) l + levelCount (L.drop (w + 2 ^ d)) l) := by
    conv_lhs => rw [list_split d L w]
    rw [levelCount_append, levelCount_append]
  rw [levelCount_family hw] at h1
  have h2 : levelCount (L.take w ++ x :: L.drop (w + 2 ^ d)) l = levelCount (L.take w) l +
      ((if l = p.level then 1 else 0) + levelCount (L.drop (w + 2 ^ d)) l) := by
    rw [levelCount_append, show x :: L.drop (w + 2 ^ d) = [x] ++ L.drop (w + 2 ^ d) from rfl, levelCount_append]
    congr 2
    unfold levelCount
    by_cases hl : l = p.level
    · subst hl; simp [hx]
    · simp [hx, hl, Ne.symm hl]
  rw [h2]
  unfold bump
  simp only [Function.update_apply]
  by_cases e1 : l = p.level
  · subst e1
    simp at h1 ⊢; omega
  · by_cases e2 : l = p.level + 1
    · subst e2
      simp at h1 ⊢; omega
    · simp [e1, e2] at h1 ⊢; omega

theorem sum_levelCount (L : List (Leaf d α)) (n : ℕ) :
    (List.range n).foldl (fun m i => m + levelCount L i) 0 =
      ((L.filter fun x => x.q.level < n).length : ℤ) := by
  induction n with
  | zero => simp
  | succ n ih =>
    rw [List.range_succ, List.foldl_append, ih]
    simp only [List.foldl_cons, List.foldl_nil]
    unfold levelCount
    rw [← Nat.cast_add]
    congr 1
    clear ih
    induction L with
    | nil => rfl
    | cons x xs ih2 =>
      simp only [List.filter_cons]
      by_cases h1 : x.q.level < n
      · have h2 : x.q.level ≠ n := by omega
        have h3 : x.q.level < n + 1 := by omega
        simp [h1, h2, h3] at ih2 ⊢; omega
      · by_cases h2 : x.q.level = n
        · have h3 : x.q.level < n + 1 := by omega
          simp [h1, h2, h3] at ih2 ⊢; omega
        · have h3 : ¬ x.q.level < n + 1 := by omega
          simp [h1, h2, h3] at ih2 ⊢; omega

theorem sumCounters_levelCount {L : List (Leaf d α)} (h : ∀ x ∈ L, x.q.level ≤ 29) :
    sumCounters (levelCount L) = L.length := by
  unfold sumCounters
  rw [sum_levelCount, List.filter_eq_self.mpr]
  intro x hx
  have := h x hx
  exact decide_eq_true (show x.q.level < QMAXLEVEL + 1 by unfold QMAXLEVEL; omega)

theorem maxFold (per : ℕ → ℤ) (n : ℕ) :
    (∀ i, i < n → 0 < per i → i ≤ (List.range n).foldl (fun m i => if per i > 0 then i else m) 0) ∧
    (0 < per ((List.range n).foldl (fun m i => if per i > 0 then i else m) 0) ∨
      ((List.range n).foldl (fun m i => if per i > 0 then i else m) 0 = 0 ∧ ∀ i, i < n → ¬ 0 < per i)) ∧
    ((List.range n).foldl (fun m i => if per i > 0 then i else m) 0 < n ∨ n = 0) := by
  induction n with
  | zero => simp
  | succ n ih =>
    rw [List.range_succ, List.foldl_append]
    simp only [List.foldl_cons, List.foldl_nil]
    obtain ⟨h1, h2, h3⟩ := ih
    by_cases hp : 0 < per n
    · rw [if_pos hp]
      exact ⟨fun i hi _ => by omega, Or.inl hp, Or.inl (by omega)⟩
    · rw [if_neg hp]
      refine ⟨fun i hi hpi => ?_, ?_, ?_⟩
      · rcases Nat.lt_succ_iff_lt_or_eq.mp hi with h | rfl
        · exact h1 i h hpi
        · exact absurd hpi hp
      · rcases h2 with h2 | ⟨h2, h4⟩
        · exact Or.inl h2
        · refine Or.inr ⟨h2, fun i hi => ?_⟩
          rcases Nat.lt_succ_iff_lt_or_eq.mp hi with h | rfl
          · exact h4 i h
          · exact hp
      · rcases h3 with h3 | h3
        · exact Or.inl (by omega)
        · subst h3; left; simp

theorem levelCount_pos_iff (L : List (Leaf d α)) (l : ℕ) :
    0 < levelCount L l ↔ ∃ q ∈ L.map Leaf.q, q.level = l := by
  rw [levelCount_eq]
  rw [Nat.cast_pos, List.countP_pos_iff]
  simp

theorem countersOk_coarsen {arr : LArr d α} (off : ℤ) (h : ∀ x ∈ arr.toList, x.q.level ≤ 29) :
    CountersOk (⟨arr, levelCount arr.toList, maxFromCounters (levelCount arr.toList), off⟩ : Tree d α) := by
  obtain ⟨h1, h2, -⟩ := maxFold (levelCount arr.toList) (QMAXLEVEL + 1)
  refine ⟨fun l => levelCount_eq _ _, ?_, ?_⟩
  · intro q hq
    obtain ⟨x, hx, rfl⟩ := List.mem_map.mp hq
    apply h1
    · have := h x hx; simp [QMAXLEVEL]; omega
    · rw [levelCount_pos_iff]; exact ⟨_, List.mem_map_of_mem hx, rfl⟩
  · rcases h2 with h2 | ⟨h2, h3⟩
    · left; exact (levelCount_pos_iff _ _).mp h2
    · right
      refine ⟨?_, h2⟩
      unfold quadsOf
      rw [List.eq_nil_iff_forall_not_mem]
      intro q hq
      obtain ⟨x, hx, rfl⟩ := List.mem_map.mp hq
      refine h3 x.q.level (by have := h x hx; simp [QMAXLEVEL]; omega) ?_
      rw [levelCount_pos_iff]; exact ⟨_, List.mem_map_of_mem hx, rfl⟩

/-- Induction principle for coarsening a legal gapless tree: `P` has to survive a coarsening, a
rejected family and a window without family. -/
theorem coarsenTree_good (hd : 0 < d) (cb : CoarsenCb d α σ) (recursive orphans : Bool) (t : Tree d α)
    (prevOffset : ℤ) (s : σ) {a b : ℕ} (hg : Good a b t.quads.toList)
    (P : List (Leaf d α) → ℕ → σ → Prop)
    (hyes : ∀ L w s p x s', Good a b L → w + 2 ^ d ≤ L.length → Valid p → p.level < 29 →
      (win d L w).map Leaf.q = childrenv p → x.q = p → (cb.coarsen (win d L w) s).1 = true →
      makeParent cb (win d L w) p (cb.coarsen (win d L w) s).2 = ([x], s') → P L w s →
      P (L.take w ++ x :: L.drop (w + 2 ^ d))
        (if childId p ≤ w ∧ recursive = true then w - childId p else w + 1) s')
    (hno : ∀ L w s p, Good a b L → w + 2 ^ d ≤ L.length → Valid p → p.level < 29 →
      (win d L w).map Leaf.q = childrenv p → (cb.coarsen (win d L w) s).1 = false → P L w s →
      P L (w + 1) (cb.coarsen (win d L w) s).2)
    (horph : ∀ L w s x, Good a b L → w + 2 ^ d ≤ L.length → L[w]? = some x →
      (∀ p, Aligned p → p.level < 30 → (win d L w).map Leaf.q ≠ childrenv p) → P L w s →
      P L (w + 1) (if orphans then (cb.coarsen [x] s).2 else s))
    (h0 : P t.quads.toList 0 s) :
    ∃ t' w rem off s', coarsenTree cb recursive orphans t prevOffset s =
        some (t', rem, off, if orphans then orphanRun cb (t'.quads.toList.drop w) s' else s') ∧
      Good a b t'.quads.toList ∧ P t'.quads.toList w s' ∧ w ≤ t'.quads.toList.length ∧
      ¬ w + 2 ^ d ≤ t'.quads.toList.length ∧
      t'.quads.toList.length + rem = t.quads.toList.length ∧ t'.offset = prevOffset ∧
      (t.perLevel = levelCount t.quads.toList → CountersOk t' ∧
        off = prevOffset + t'.quads.toList.length) := by
  obtain ⟨arr, w, per, rem, s', he, ⟨hG, hP, hper⟩, hw1, hw2, hrem⟩ := coarsenTree_eq hd cb recursive orphans t
    prevOffset s (fun L w s per => Good a b L ∧ P L w s ∧ (t.perLevel = levelCount t.quads.toList →
      per = levelCount L)) (by
      rintro L w s per hw ⟨hG, hP, hper⟩
      rcases turn_cases hd cb recursive orphans hG hw s per with
        ⟨p, x, s', hp, hpl, hf, hx, hask, hmk, ht, hl⟩ | ⟨p, hp, hpl, hf, hask, ht, hl⟩ | ⟨x, hx, hnf, ht, hl⟩
      · rw [ht, hl]
        refine ⟨hG.merge hp hf hx, hyes L w s p x s' hG hw hp hpl hf hx hask hmk hP, fun h => ?_⟩
        rw [hper h]
        exact levelCount_merge hf hx
      · rw [ht, hl]
        exact ⟨hG, hno L w s p hG hw hp hpl hf hask hP, hper⟩
      · rw [ht, hl]
        exact ⟨hG, horph L w s x hG hw hx hnf hP, hper⟩) ⟨hg, h0, fun h => h⟩
  refine ⟨_, w, rem, _, s', he, hG, hP, hw1, hw2, hrem, rfl, fun h => ?_⟩
  have hper' := hper h
  have hlev : ∀ x ∈ arr.toList, x.q.level ≤ 29 := fun x hx => (hG.1 x hx).1
  subst hper'
  exact ⟨countersOk_coarsen _ hlev, by rw [sumCounters_levelCount hlev]⟩

end P4est
