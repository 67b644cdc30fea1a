import Verif.Spec.Coarsen
import Verif.Lemmas.CoarsenTree

/-! # C19, C20, C21, C45: coarsening -/

namespace P4est
open Spec

variable {d : ℕ} {α σ : Type}

theorem good_of {t : Tree d α} (hv : ∀ q ∈ quadsOf t, Valid q) (hg : Gapless (quadsOf t)) :
    ∃ a b, Good a b t.quads.toList := by
  obtain ⟨a, b, h⟩ := hg.path
  exact ⟨a, b, fun x hx => hv _ (List.mem_map_of_mem hx), h⟩

theorem Good.quads {a b : ℕ} {L : List (Leaf d α)} (h : Good a b L) : ∀ q ∈ L.map Leaf.q, Valid q := by
  intro q hq
  obtain ⟨x, hx, rfl⟩ := List.mem_map.mp hq
  exact h.1 x hx

/-- Leaves of a legal gapless list do not overlap. -/
theorem Good.unique (hd : 0 < d) {a b : ℕ} {L : List (Leaf d α)} (h : Good a b L) {q r : Quad d}
    (hq : q ∈ L.map Leaf.q) (hr : r ∈ L.map Leaf.q) (hs : Cells q ⊆ Cells r) : q = r := by
  have hvq := h.quads q hq
  have hvr := h.quads r hr
  rw [subset_iff_interval hd hvr.aligned hvq.aligned hvr.int32 hvq.int32] at hs
  have hpw := (pairwise_stop_iff_chain _).mpr h.2.gapless.chain_le
  have key : ∀ {ls : List (Quad d)}, ls.Pairwise (fun q r => stop q ≤ start r) → q ∈ ls → r ∈ ls → q = r := by
    intro ls hp h1 h2
    induction hp with
    | nil => simp at h1
    | @cons x xs hx _ ih =>
      have b1 := start_lt_stop q
      have b2 := start_lt_stop r
      rcases List.mem_cons.mp h1 with rfl | h1 <;> rcases List.mem_cons.mp h2 with e | h2
      · exact e.symm
      · have := hx r h2; omega
      · rw [e] at b2 hs; have := hx q h1; omega
      · exact ih h1 h2
  exact key hpw hq hr

theorem kid_eq_child {p : Quad d} (h : Valid p) (k : ℕ) : kid p k = child p k :=
  Quad.ext' (fun i => (child_c h.aligned (by have := h.1; omega) k i).symm) rfl

theorem kid_valid {p : Quad d} (h : Valid p) (hl : p.level < 29) (k : ℕ) : Valid (kid p k) := by
  rw [kid_eq_child h]
  exact valid_subset h (child_aligned h.aligned (by omega) k) (by rw [child_level]; omega)
    (child_corner_mem h.aligned (by omega) k)

theorem kid_ssubset (hd : 0 < d) {p : Quad d} (h : Valid p) (k : ℕ) : Cells (kid p k) ⊂ Cells p := by
  have hl : p.level < 30 := by have := h.1; omega
  rw [kid_eq_child h]
  refine Set.ssubset_iff_subset_ne.mpr ⟨child_subset h.aligned hl k, fun hc => ?_⟩
  have := congrArg Quad.level (cells_inj hd (child_aligned h.aligned hl k) h.aligned hc)
  simp at this

theorem kids_eq {p : Quad d} (h : Valid p) : kids p = childrenv p :=
  (childrenv_eq_kids h.aligned (by have := h.1; omega)).symm

theorem mem_kids {p q : Quad d} : q ∈ kids p ↔ ∃ k, k < 2 ^ d ∧ kid p k = q := by
  simp [kids]

theorem same_level_eq (hd : 0 < d) {q r : Quad d} (hq : Valid q) (hr : Valid r) (hl : q.level = r.level)
    (h : Cells q ⊆ Cells r) : q = r := by
  have h8 := (subset_iff_interval hd hr.aligned hq.aligned hr.int32 hq.int32).mp h
  rw [stop_eq, stop_eq, volume_congr hl] at h8
  apply eq_of_interval hd hq.aligned hr.aligned hq.int32 hr.int32 (by omega)
  rw [stop_eq, stop_eq, volume_congr hl]; omega

/-- A quadrant strictly above a child is at or above the parent. -/
theorem above_kid (hd : 0 < d) {p y : Quad d} (hp : Valid p) (hy : Valid y) {k : ℕ} (hpl : p.level < 29)
    (h : Cells (kid p k) ⊆ Cells y) (hne : kid p k ≠ y) : Cells p ⊆ Cells y := by
  have hk := kid_valid hp hpl k
  have h5 := h
  rw [cells_subset_iff hd hy.aligned hk.aligned] at h5
  have h6 : (kid p k).level = p.level + 1 := rfl
  have hlt : y.level ≤ p.level := by
    by_contra hc
    exact hne (same_level_eq hd hk hy (by omega) h)
  rcases laminar hy.aligned hp.aligned ⟨(kid p k).c, h (corner_mem _), (kid_ssubset hd hp k).1 (corner_mem _)⟩
    with h1 | h1
  · exact h1
  · have h2 := (cells_subset_iff hd hp.aligned hy.aligned).mp h1
    rw [same_level_eq hd hy hp (by omega) h1]

/-- A quadrant strictly inside `p` is inside one of its children. -/
theorem below_kid {p q : Quad d} (hp : Valid p) (hq : Valid q) (hl : p.level < q.level)
    (h : Cells q ⊆ Cells p) : ∃ k, k < 2 ^ d ∧ Cells q ⊆ Cells (kid p k) := by
  have hpl : p.level < 30 := by have := hq.1; omega
  have hc : q.c ∈ Cells p := h (corner_mem q)
  refine ⟨ancestorId ⟨q.c, 30⟩ (p.level + 1), ancestorId_lt _ _, ?_⟩
  rw [kid_eq_child hp]
  apply cells_subset (child_aligned hp.aligned hpl _) hq.aligned (by rw [child_level]; omega)
  exact (mem_child_iff hp.aligned hpl hc (ancestorId_lt _ _)).mpr rfl

/-- If all children of `p` are leaves of a legal gapless list, they follow each other in it. -/
theorem family_window (hd : 0 < d) {a b : ℕ} {L : List (Leaf d α)} (h : Good a b L) {p : Quad d}
    (hl : p.level < 29) (hf : HasFamily (L.map Leaf.q) p) : ∃ j, (win d L j).map Leaf.q = childrenv p := by
  have hp := hf.1
  have hc := hf.2
  have hD := two_le_pow hd
  obtain ⟨j, hj, e0⟩ := List.getElem_of_mem (hc 0 (by omega))
  rw [List.length_map] at hj
  have hchain := List.isChain_iff_getElem.mp h.2.gapless
  have hall : ∀ i, i < 2 ^ d → ∃ hi : j + i < L.length, (L[j + i]).q = kid p i := by
    intro i
    induction i with
    | zero => intro _; exact ⟨hj, by simpa using e0⟩
    | succ i ih =>
      intro hi
      obtain ⟨hi', ei⟩ := ih (by omega)
      have hpl : p.level < 30 := by omega
      obtain ⟨m, hm, em⟩ := List.getElem_of_mem (hc (i + 1) hi)
      rw [List.length_map] at hm
      rw [List.getElem_map] at em
      have hst : stop (L[j + i]).q = start (L[m]).q := by
        rw [ei, em, kid_eq_child hp, kid_eq_child hp, stop_eq]
        have e1 := curve_child hp.aligned hp.int32 hpl (show i < 2 ^ d by omega)
        have e2 := curve_child hp.aligned hp.int32 hpl hi
        have ev : volume (child p i) = volume (child p (i + 1)) := volume_congr rfl
        unfold start
        rw [e1, e2, ev]; ring
      have hpw := (pairwise_stop_iff_chain _).mpr h.2.gapless.chain_le
      rw [List.pairwise_iff_getElem] at hpw
      have hlt : j + i < m := by
        rcases Nat.lt_trichotomy m (j + i) with h1 | h1 | h1
        · have := hpw m (j + i) (by simpa using hm) (by simpa using hi') h1
          simp only [List.getElem_map] at this
          have := start_lt_stop (L[m]).q
          have := start_lt_stop (L[j + i]).q
          omega
        · subst h1
          have := start_lt_stop (L[j + i]).q
          omega
        · exact h1
      have hs := hchain (j + i) (by simp; omega)
      simp only [List.getElem_map] at hs
      have hm1 : m = j + i + 1 := by
        by_contra hne
        have := hpw (j + i + 1) m (by simp; omega) (by simpa using hm) (by omega)
        simp only [List.getElem_map] at this
        have := start_lt_stop (L[j + i + 1]'(by omega)).q
        omega
      subst hm1
      exact ⟨hm, em⟩
  have hlen : j + 2 ^ d ≤ L.length := by
    obtain ⟨h1, _⟩ := hall (2 ^ d - 1) (by omega)
    omega
  refine ⟨j, List.ext_getElem (by simp [childrenv, win_length hlen]) fun i h1 h2 => ?_⟩
  have hi : i < 2 ^ d := by simpa [childrenv] using h2
  obtain ⟨h3, h4⟩ := hall i hi
  simp only [List.getElem_map, win, List.getElem_take, List.getElem_drop, childrenv, List.getElem_range]
  rw [h4, kid_eq_child hp]

/-! ## Arbitrary callbacks -/

theorem mem_merge {L : List (Leaf d α)} {w : ℕ} {x y : Leaf d α} :
    y ∈ L.take w ++ x :: L.drop (w + 2 ^ d) → y = x ∨ y ∈ L := by
  intro h
  rw [List.mem_append, List.mem_cons] at h
  rcases h with h | h | h
  · exact Or.inr (List.mem_of_mem_take h)
  · exact Or.inl h
  · exact Or.inr (List.mem_of_mem_drop h)

theorem mem_merge_of {L : List (Leaf d α)} {w : ℕ} {x y : Leaf d α} (h : y ∈ L) :
    y ∈ win d L w ∨ y ∈ L.take w ++ x :: L.drop (w + 2 ^ d) := by
  rw [list_split d L w] at h
  simp only [List.mem_append, List.mem_cons] at h ⊢
  tauto

theorem win_mem {L : List (Leaf d α)} {w : ℕ} {x : Leaf d α} (h : x ∈ win d L w) : x ∈ L :=
  List.mem_of_mem_drop (List.mem_of_mem_take h)

theorem family_cells (hd : 0 < d) {p : Quad d} (hp : Valid p) {fam : List (Leaf d α)}
    (h : fam.map Leaf.q = childrenv p) {y : Leaf d α} (hy : y ∈ fam) : Cells y.q ⊂ Cells p := by
  have := List.mem_map_of_mem (f := Leaf.q) hy
  rw [h, ← kids_eq hp, mem_kids] at this
  obtain ⟨k, _, hk⟩ := this
  rw [← hk]
  exact kid_ssubset hd hp k

/-- C19, C45. Coarsening one tree with arbitrary stateful callbacks, recursive or not, with or
without orphan calls, terminates without an array access out of bounds.  The new leaves are legal,
follow each other without gap or overlap and cover the same cells.  Every old leaf (with its data)
is kept or lies strictly inside a new leaf.  Every new leaf is an old leaf with its data or was
made by the user callbacks from a complete family that the coarsen callback approved. -/
theorem C19_coarsen_invariants (hd : 0 < d) (cb : CoarsenCb d α σ) (recursive orphans : Bool)
    (t : Tree d α) (prevOffset : ℤ) (s : σ) (hv : ∀ q ∈ quadsOf t, Valid q) (hg : Gapless (quadsOf t)) :
    ∃ t' rem off s', coarsenTree cb recursive orphans t prevOffset s = some (t', rem, off, s') ∧
      (∀ r ∈ quadsOf t', Valid r) ∧ Gapless (quadsOf t') ∧ Linear (quadsOf t') ∧
      Cover (quadsOf t') = Cover (quadsOf t) ∧
      (quadsOf t').length + rem = (quadsOf t).length ∧
      (∀ y ∈ t.quads.toList, ∃ x ∈ t'.quads.toList, x = y ∨ Cells y.q ⊂ Cells x.q) ∧
      (∀ x ∈ t'.quads.toList, x ∈ t.quads.toList ∨
        ((∃ y ∈ t.quads.toList, Cells y.q ⊂ Cells x.q) ∧ ∃ (fam : List (Leaf d α)) (s1 s2 : σ), fam.map Leaf.q = kids x.q ∧
          cb.coarsen fam s1 = (true, s2) ∧ (makeParent cb fam x.q s2).1 = [x])) := by
  obtain ⟨a, b, hG⟩ := good_of hv hg
  set L0 := t.quads.toList with hL0
  obtain ⟨t', w, rem, off, s', he, hG', ⟨hP1, hP2⟩, -, -, hrem, -⟩ := coarsenTree_good hd cb recursive orphans t
    prevOffset s hG
    (fun L _ _ => (∀ y ∈ L0, ∃ x ∈ L, x = y ∨ Cells y.q ⊂ Cells x.q) ∧
      (∀ x ∈ L, x ∈ L0 ∨ ((∃ y ∈ L0, Cells y.q ⊂ Cells x.q) ∧ ∃ (fam : List (Leaf d α)) (s1 s2 : σ), fam.map Leaf.q = kids x.q ∧
          cb.coarsen fam s1 = (true, s2) ∧ (makeParent cb fam x.q s2).1 = [x])))
    (by
      rintro L w s p x s' hGL hw hp hpl hf hx hask hmk ⟨h1, h2⟩
      constructor
      · intro y hy
        obtain ⟨z, hz, hzy⟩ := h1 y hy
        rcases mem_merge_of (x := x) (w := w) hz with hz' | hz'
        · refine ⟨x, by simp, Or.inr ?_⟩
          have := family_cells hd hp hf hz'
          rw [← hx] at this
          rcases hzy with rfl | hzy
          · exact this
          · exact hzy.trans this
        · exact ⟨z, hz', hzy⟩
      · intro y hy
        rcases mem_merge hy with rfl | hy
        · right
          constructor
          · obtain ⟨z, hz⟩ : ∃ z, z ∈ win d L w := by
              apply List.exists_mem_of_length_pos
              rw [win_length hw]; positivity
            have hzc := family_cells hd hp hf hz
            rw [← hx] at hzc
            rcases h2 z (win_mem hz) with h3 | ⟨⟨y', hy', h3⟩, _⟩
            · exact ⟨z, h3, hzc⟩
            · exact ⟨y', hy', h3.trans hzc⟩
          · refine ⟨win d L w, s, (cb.coarsen (win d L w) s).2, ?_, ?_, ?_⟩
            · rw [hx, hf, kids_eq hp]
            · rw [← hask]
            · rw [hx, hmk]
        · exact h2 y hy)
    (fun L w s p _ _ _ _ _ _ h => h) (fun L w s x _ _ _ _ h => h)
    ⟨fun y hy => ⟨y, hy, Or.inl rfl⟩, fun x hx => Or.inl hx⟩
  refine ⟨t', rem, off, _, he, hG'.quads, hG'.2.gapless,
    hG'.2.gapless.linear fun q hq => (hG'.quads q hq).extended, ?_, ?_, hP1, hP2⟩
  · exact hG'.2.cover_eq hG.2 (fun q hq => ⟨(hG'.quads q hq).aligned, (hG'.quads q hq).int32⟩)
      (fun q hq => ⟨(hv q hq).aligned, (hv q hq).int32⟩)
  · unfold quadsOf; simpa using hrem

/-- C21. Coarsening keeps the level counters and the maximum level consistent with the leaves,
stores the given offset, and returns the offset of the next tree. -/
theorem C21_coarsen_counters (hd : 0 < d) (cb : CoarsenCb d α σ) (recursive orphans : Bool)
    (t : Tree d α) (prevOffset : ℤ) (s : σ) (hv : ∀ q ∈ quadsOf t, Valid q) (hg : Gapless (quadsOf t))
    (hok : CountersOk t) :
    ∃ t' rem off s', coarsenTree cb recursive orphans t prevOffset s = some (t', rem, off, s') ∧
      CountersOk t' ∧ t'.offset = prevOffset ∧ off = prevOffset + (quadsOf t').length := by
  obtain ⟨a, b, hG⟩ := good_of hv hg
  obtain ⟨t', w, rem, off, s', he, -, -, -, -, -, ho, hc⟩ := coarsenTree_good hd cb recursive orphans t
    prevOffset s hG (fun _ _ _ => True) (fun _ _ _ _ _ _ _ _ _ _ _ _ _ _ _ => trivial)
    (fun _ _ _ _ _ _ _ _ _ _ _ => trivial) (fun _ _ _ _ _ _ _ _ _ => trivial) trivial
  have := hc (funext fun l => by rw [hok.1 l, levelCount_eq]; rfl)
  exact ⟨t', rem, off, _, he, this.1, ho, by rw [this.2]; simp [quadsOf]⟩

/-! ## Callbacks that decide by the quadrants -/

theorem win_short {L : List (Leaf d α)} {w j : ℕ} (hw : ¬ w + 2 ^ d ≤ L.length) (hj : w ≤ j) {p : Quad d} :
    (win d L j).map Leaf.q ≠ childrenv p := by
  intro h
  have := congrArg List.length h
  have hD : 0 < 2 ^ d := by positivity
  simp [win, childrenv] at this
  omega

theorem win_merge_before {L : List (Leaf d α)} {w j : ℕ} {x : Leaf d α} (hw : w + 2 ^ d ≤ L.length)
    (hj : j + 2 ^ d ≤ w) : win d (L.take w ++ x :: L.drop (w + 2 ^ d)) j = win d L j := by
  unfold win
  have hD : 0 < 2 ^ d := by positivity
  have h1 : (L.take w).length = w := by simp; omega
  rw [List.drop_append_of_le_length (by omega), List.take_append_of_le_length (by simp; omega),
    List.drop_take, List.take_take]
  congr 1; omega

theorem win_merge_at {L : List (Leaf d α)} {w j : ℕ} {x : Leaf d α} {p : Quad d} (hw : w + 2 ^ d ≤ L.length)
    (hj : j ≤ w) (hj2 : w < j + 2 ^ d)
    (h : (win d (L.take w ++ x :: L.drop (w + 2 ^ d)) j).map Leaf.q = childrenv p) : x.q = child p (w - j) := by
  have h1 : (L.take w).length = w := by simp; omega
  have h2 : (win d (L.take w ++ x :: L.drop (w + 2 ^ d)) j)[w - j]? = some x := by
    unfold win
    rw [List.getElem?_take_of_lt (by omega), List.getElem?_drop, show j + (w - j) = w by omega,
      List.getElem?_append_right (by omega), h1]
    simp
  have h3 := congrArg (fun l => l[w - j]?) h
  simp only [List.getElem?_map, h2, childrenv, List.getElem?_range (show w - j < 2 ^ d by omega)] at h3
  simpa using h3

theorem ssub_absurd {A B : Set (Fin d → ℤ)} (h1 : A ⊂ B) (h2 : B ⊆ A) : False := h1.2 h2

/-- C19. Non-recursive coarsening with a callback that decides by the quadrants: exactly the
approved complete families of old leaves are replaced by their parents, all other leaves stay. -/
theorem C19_coarsen_once (hd : 0 < d) (cb : CoarsenCb d α σ) (f : Quad d → Bool) (hcb : Decides cb f)
    (orphans : Bool) (t : Tree d α) (prevOffset : ℤ) (s : σ) (hv : ∀ q ∈ quadsOf t, Valid q)
    (hg : Gapless (quadsOf t)) :
    ∃ t' rem off s', coarsenTree cb false orphans t prevOffset s = some (t', rem, off, s') ∧
      (∀ r, r ∈ quadsOf t' ↔ (f r = true ∧ HasFamily (quadsOf t) r) ∨
        (r ∈ quadsOf t ∧ ¬ ∃ p, f p = true ∧ HasFamily (quadsOf t) p ∧ r ∈ kids p)) := by
  obtain ⟨a, b, hG⟩ := good_of hv hg
  set old := quadsOf t with hold
  have hlevel : ∀ {p}, HasFamily old p → p.level < 29 := by
    intro p hp
    have := (hv _ (hp.2 0 (by positivity))).1
    change p.level + 1 ≤ 29 at this; omega
  -- an old leaf and a family of old leaves cannot share cells unless the leaf is a member
  have hconf : ∀ {q p}, q ∈ old → HasFamily old p → ¬ Cells p ⊆ Cells q := by
    intro q p hq hp hs
    have hk := hp.2 0 (by positivity)
    have := hG.unique hd hk hq ((kid_ssubset hd hp.1 0).1.trans hs)
    rw [← this] at hs
    exact (kid_ssubset hd hp.1 0).2 hs
  obtain ⟨t', w, rem, off, s', he, hG', ⟨hP1, hP2, hP3⟩, hw1, hw2, -⟩ := coarsenTree_good hd cb false orphans t
    prevOffset s hG
    (fun L w _ => (∀ y ∈ old, ∃ x ∈ L.map Leaf.q, Cells y ⊆ Cells x) ∧
      (∀ x ∈ L.map Leaf.q, x ∈ old ∨ (f x = true ∧ HasFamily old x)) ∧
      (∀ j, j < w → ∀ p, f p = true → HasFamily old p → (win d L j).map Leaf.q ≠ childrenv p) ∧
      (∀ x ∈ L.drop w, x.q ∈ old))
    (by
      rintro L w s p x s' hGL hw hp hpl hf hx hask hmk ⟨h1, h2, h3, h4⟩
      have hD : 0 < 2 ^ d := by positivity
      have hfam : HasFamily old p := by
        refine ⟨hp, fun k hk => ?_⟩
        have : kid p k ∈ (win d L w).map Leaf.q := by
          rw [hf, ← kids_eq hp, mem_kids]; exact ⟨k, hk, rfl⟩
        obtain ⟨y, hy, hyk⟩ := List.mem_map.mp this
        rw [← hyk]
        exact h4 y (List.mem_of_mem_take hy)
      have hfp : f p = true := by
        rw [← hcb (win d L w) p s (by rw [hf, kids_eq hp])]; exact hask
      simp only [Bool.false_eq_true, and_false, if_false]
      refine ⟨?_, ?_, ?_, ?_⟩
      · intro y hy
        obtain ⟨z, hz, hzy⟩ := h1 y hy
        obtain ⟨z, hzL, rfl⟩ := List.mem_map.mp hz
        replace hz := hzL
        rcases mem_merge_of (x := x) (w := w) hz with hz' | hz'
        · refine ⟨x.q, by simp, hzy.trans ?_⟩
          rw [hx]
          exact (family_cells hd hp hf hz').1
        · exact ⟨z.q, List.mem_map_of_mem hz', hzy⟩
      · intro y hy
        obtain ⟨z, hz, rfl⟩ := List.mem_map.mp hy
        rcases mem_merge hz with rfl | hz
        · rw [hx]; exact Or.inr ⟨hfp, hfam⟩
        · exact h2 _ (List.mem_map_of_mem hz)
      · intro j hj p' hfp' hfam' hwin
        by_cases hjw : j + 2 ^ d ≤ w
        · rw [win_merge_before hw hjw] at hwin
          exact h3 j (by omega) p' hfp' hfam' hwin
        · have := win_merge_at hw (by omega) (by omega) hwin
          rw [hx, ← kid_eq_child hfam'.1] at this
          have hm := hfam'.2 (w - j) (by omega)
          rw [← this] at hm
          exact hconf hm hfam Set.Subset.rfl
      · intro y hy
        apply h4
        have hl : (L.take w).length = w := by simp; omega
        rw [show w + 1 = (L.take w).length + 1 by omega, List.drop_append] at hy
        simp only [List.drop_of_length_le (show (L.take w).length ≤ (L.take w).length + 1 by omega),
          Nat.add_sub_cancel_left, List.drop_succ_cons, List.drop_zero, List.nil_append] at hy
        rw [← List.drop_drop] at hy
        exact List.mem_of_mem_drop hy)
    (by
      rintro L w s p hGL hw hp hpl hf hask ⟨h1, h2, h3, h4⟩
      refine ⟨h1, h2, ?_, fun x hx => h4 x (by rw [← List.drop_drop] at hx; exact List.mem_of_mem_drop hx)⟩
      intro j hj p' hfp' hfam' hwin
      rcases Nat.lt_succ_iff_lt_or_eq.mp hj with hj | rfl
      · exact h3 j hj p' hfp' hfam' hwin
      · rw [hcb _ p' s (by rw [hwin, kids_eq hfam'.1]), hfp'] at hask
        exact absurd hask (by simp))
    (by
      rintro L w s x hGL hw hx hnf ⟨h1, h2, h3, h4⟩
      refine ⟨h1, h2, ?_, fun x hx => h4 x (by rw [← List.drop_drop] at hx; exact List.mem_of_mem_drop hx)⟩
      intro j hj p' hfp' hfam' hwin
      rcases Nat.lt_succ_iff_lt_or_eq.mp hj with hj | rfl
      · exact h3 j hj p' hfp' hfam' hwin
      · exact hnf p' hfam'.1.aligned (by have := hfam'.1.1; omega) hwin)
    ⟨fun y hy => ⟨y, hy, Set.Subset.rfl⟩, fun x hx => Or.inl hx, fun j hj => absurd hj (by omega),
      fun x hx => by simpa [hold, quadsOf] using ⟨x, hx, rfl⟩⟩
  refine ⟨t', rem, off, _, he, ?_⟩
  change ∀ r, r ∈ t'.quads.toList.map Leaf.q ↔ _
  set new := t'.quads.toList.map Leaf.q with hnew
  -- a leaf of an approved family is not kept
  have hgone : ∀ {p k}, f p = true → HasFamily old p → k < 2 ^ d → kid p k ∉ new := by
    intro p k hfp hfam hk hin
    obtain ⟨j, hj⟩ := family_window hd hG' (hlevel hfam) ⟨hfam.1, fun i hi => by
      obtain ⟨y, hy, hys⟩ := hP1 _ (hfam.2 i hi)
      by_cases e : kid p i = y
      · rw [e]; exact hy
      · exfalso
        have h1 := above_kid hd hfam.1 (hG'.quads y hy) (hlevel hfam) hys e
        have h2 := hG'.unique hd hin hy ((kid_ssubset hd hfam.1 k).1.trans h1)
        rw [← h2] at h1
        exact (kid_ssubset hd hfam.1 k).2 h1⟩
    rcases Nat.lt_or_ge j w with h | h
    · exact hP3.1 j h p hfp hfam hj
    · exact win_short hw2 h hj
  intro r
  constructor
  · intro hr
    rcases hP2 r hr with h | h
    · refine Or.inr ⟨h, ?_⟩
      rintro ⟨p, hfp, hfam, hk⟩
      obtain ⟨k, hk2, rfl⟩ := mem_kids.mp hk
      exact hgone hfp hfam hk2 hr
    · exact Or.inl h
  · rintro (⟨hfr, hfam⟩ | ⟨hr, hnk⟩)
    · have hk := hfam.2 0 (by positivity)
      obtain ⟨y, hy, hys⟩ := hP1 _ hk
      have hne : kid r 0 ≠ y := by
        rintro rfl; exact hgone hfr hfam (by positivity) hy
      have habove := above_kid hd hfam.1 (hG'.quads y hy) (hlevel hfam) hys hne
      rcases hP2 y hy with h | ⟨hfy, hfamy⟩
      · exact absurd habove (hconf h hfam)
      · by_cases e : r = y
        · rw [e]; exact hy
        · exfalso
          have hlt : y.level < r.level := by
            have h1 := (cells_subset_iff hd hfamy.1.aligned hfam.1.aligned).mp habove
            rcases Nat.lt_or_eq_of_le h1.1 with h2 | h2
            · exact h2
            · exact absurd (same_level_eq hd hfam.1 hfamy.1 h2.symm habove) e
          obtain ⟨k', hk', hsub⟩ := below_kid hfamy.1 hfam.1 hlt habove
          exact hconf (hfamy.2 k' hk') hfam hsub
    · obtain ⟨y, hy, hys⟩ := hP1 r hr
      by_cases e : r = y
      · rw [e]; exact hy
      · exfalso
        rcases hP2 y hy with h | ⟨hfy, hfamy⟩
        · exact e (hG.unique hd hr h hys)
        · have hlt : y.level < r.level := by
            have h1 := (cells_subset_iff hd hfamy.1.aligned (hv r hr).aligned).mp hys
            rcases Nat.lt_or_eq_of_le h1.1 with h2 | h2
            · exact h2
            · exact absurd (same_level_eq hd (hv r hr) hfamy.1 h2.symm hys) e
          obtain ⟨k', hk', hsub⟩ := below_kid hfamy.1 (hv r hr) hlt hys
          have := hG.unique hd hr (hfamy.2 k' hk') hsub
          exact hnk ⟨y, hfy, hfamy, mem_kids.mpr ⟨k', hk', this.symm⟩⟩

/-- C20. Recursive coarsening with a callback that decides by the quadrants: no approved complete
family is left, and the new leaves are exactly the largest quadrants that can be obtained by
replacing approved families again and again. -/
theorem C20_coarsen_recursive (hd : 0 < d) (cb : CoarsenCb d α σ) (f : Quad d → Bool) (hcb : Decides cb f)
    (orphans : Bool) (t : Tree d α) (prevOffset : ℤ) (s : σ) (hv : ∀ q ∈ quadsOf t, Valid q)
    (hg : Gapless (quadsOf t)) :
    ∃ t' rem off s', coarsenTree cb true orphans t prevOffset s = some (t', rem, off, s') ∧
      (∀ p, f p = true → ¬ HasFamily (quadsOf t') p) ∧
      (∀ r, r ∈ quadsOf t' ↔ Reach f (quadsOf t) r ∧
        ∀ p, Reach f (quadsOf t) p → Cells r ⊆ Cells p → p = r) := by
  obtain ⟨a, b, hG⟩ := good_of hv hg
  set old := quadsOf t with hold
  obtain ⟨t', w, rem, off, s', he, hG', ⟨hP1, hP2, hP3⟩, hw1, hw2, -⟩ := coarsenTree_good hd cb true orphans t
    prevOffset s hG
    (fun L w _ => (∀ y ∈ old, ∃ x ∈ L.map Leaf.q, Cells y ⊆ Cells x) ∧
      (∀ x ∈ L.map Leaf.q, Reach f old x) ∧
      (∀ j, j < w → ∀ p, f p = true → Valid p → (win d L j).map Leaf.q ≠ childrenv p))
    (by
      rintro L w s p x s' hGL hw hp hpl hf hx hask hmk ⟨h1, h2, h3⟩
      have hfp : f p = true := by
        rw [← hcb (win d L w) p s (by rw [hf, kids_eq hp])]; exact hask
      have hreach : Reach f old p := by
        refine Reach.merge hp hfp fun k hk => ?_
        have : kid p k ∈ (win d L w).map Leaf.q := by
          rw [hf, ← kids_eq hp, mem_kids]; exact ⟨k, hk, rfl⟩
        obtain ⟨y, hy, hyk⟩ := List.mem_map.mp this
        rw [← hyk]
        exact h2 _ (List.mem_map_of_mem (win_mem hy))
      refine ⟨?_, ?_, ?_⟩
      · intro y hy
        obtain ⟨z, hz, hzy⟩ := h1 y hy
        obtain ⟨z, hzL, rfl⟩ := List.mem_map.mp hz
        replace hz := hzL
        rcases mem_merge_of (x := x) (w := w) hz with hz' | hz'
        · refine ⟨x.q, by simp, hzy.trans ?_⟩
          rw [hx]
          exact (family_cells hd hp hf hz').1
        · exact ⟨z.q, List.mem_map_of_mem hz', hzy⟩
      · intro y hy
        obtain ⟨z, hz, rfl⟩ := List.mem_map.mp hy
        rcases mem_merge hz with rfl | hz
        · rw [hx]; exact hreach
        · exact h2 _ (List.mem_map_of_mem hz)
      · intro j hj p' hfp' hp' hwin
        have hjw' : j ≤ w ∧ (childId p ≤ w → j < w - childId p) := by
          by_cases hc : childId p ≤ w
          · rw [if_pos ⟨hc, rfl⟩] at hj; omega
          · rw [if_neg (fun h => hc h.1)] at hj; omega
        by_cases hjw : j + 2 ^ d ≤ w
        · rw [win_merge_before hw hjw] at hwin
          exact h3 j (by have := two_le_pow hd; omega) p' hfp' hp' hwin
        · have := win_merge_at hw hjw'.1 (by omega) hwin
          have hlev : p'.level < 30 := by have := hp'.1; omega
          have hid := childId_child hp'.aligned hlev (show w - j < 2 ^ d by omega)
          rw [← this, hx] at hid
          omega)
    (by
      rintro L w s p hGL hw hp hpl hf hask ⟨h1, h2, h3⟩
      refine ⟨h1, h2, ?_⟩
      intro j hj p' hfp' hp' hwin
      rcases Nat.lt_succ_iff_lt_or_eq.mp hj with hj | rfl
      · exact h3 j hj p' hfp' hp' hwin
      · rw [hcb _ p' s (by rw [hwin, kids_eq hp']), hfp'] at hask
        exact absurd hask (by simp))
    (by
      rintro L w s x hGL hw hx hnf ⟨h1, h2, h3⟩
      refine ⟨h1, h2, ?_⟩
      intro j hj p' hfp' hp' hwin
      rcases Nat.lt_succ_iff_lt_or_eq.mp hj with hj | rfl
      · exact h3 j hj p' hfp' hp' hwin
      · exact hnf p' hp'.aligned (by have := hp'.1; omega) hwin)
    ⟨fun y hy => ⟨y, hy, Set.Subset.rfl⟩, fun x hx => Reach.leaf hx, fun j hj => absurd hj (by omega)⟩
  refine ⟨t', rem, off, _, he, ?_⟩
  change (∀ p, f p = true → ¬ HasFamily (t'.quads.toList.map Leaf.q) p) ∧
    ∀ r, r ∈ t'.quads.toList.map Leaf.q ↔ _
  set new := t'.quads.toList.map Leaf.q with hnew
  have hfamlev : ∀ {p}, HasFamily new p → p.level < 29 := by
    intro p hp
    have := (hG'.quads _ (hp.2 0 (by positivity))).1
    change p.level + 1 ≤ 29 at this; omega
  have hnone : ∀ p, f p = true → ¬ HasFamily new p := by
    intro p hfp hfam
    obtain ⟨j, hj⟩ := family_window hd hG' (hfamlev hfam) hfam
    rcases Nat.lt_or_ge j w with h | h
    · exact hP3 j h p hfp hfam.1 hj
    · exact win_short hw2 h hj
  have hRv : ∀ {p}, Reach f old p → Valid p := by
    intro p h
    cases h with
    | leaf h => exact hv _ h
    | merge h => exact h
  have hcov : ∀ {p}, Reach f old p → ∃ y ∈ new, Cells p ⊆ Cells y := by
    intro p h
    induction h with
    | leaf h => exact hP1 _ h
    | @merge p hp hfp hk ih =>
      have hpl : p.level < 29 := by
        have := (hRv (hk 0 (by positivity))).1
        change p.level + 1 ≤ 29 at this; omega
      by_contra hno
      refine hnone p hfp ⟨hp, fun k hk' => ?_⟩
      obtain ⟨y, hy, hys⟩ := ih k hk'
      by_cases e : kid p k = y
      · rw [e]; exact hy
      · exact absurd ⟨y, hy, above_kid hd hp (hG'.quads y hy) hpl hys e⟩ hno
  refine ⟨hnone, fun r => ⟨fun hr => ⟨hP2 r hr, fun p hp hs => ?_⟩, ?_⟩⟩
  · obtain ⟨y, hy, hys⟩ := hcov hp
    have := hG'.unique hd hr hy (hs.trans hys)
    rw [← this] at hys
    exact cells_inj hd (hRv hp).aligned (hG'.quads r hr).aligned (Set.Subset.antisymm hys hs)
  · rintro ⟨hr, hmax⟩
    obtain ⟨y, hy, hys⟩ := hcov hr
    rw [← hmax y (hP2 y hy) hys]; exact hy

theorem path_ext {a b : ℕ} {l1 l2 : List (Quad d)} (h1 : Path a l1 b) (h2 : Path a l2 b)
    (h : ∀ q, q ∈ l1 ↔ q ∈ l2) : l1 = l2 := by
  induction l1 generalizing a l2 with
  | nil =>
    cases l2 with
    | nil => rfl
    | cons r l2 => exact absurd ((h r).mpr (by simp)) (by simp)
  | cons q l1 ih =>
    cases l2 with
    | nil => exact absurd ((h q).mp (by simp)) (by simp)
    | cons r l2 =>
      have e : q = r := by
        by_contra hne
        have hq : q ∈ l2 := by
          rcases List.mem_cons.mp ((h q).mp (by simp)) with h | h
          · exact absurd h hne
          · exact h
        have := h2.2.mem hq
        have := start_lt_stop r
        have := h1.1
        have := h2.1
        omega
      subst e
      congr 1
      refine ih h1.2 h2.2 fun s => ?_
      have hs := h s
      simp only [List.mem_cons] at hs
      have n1 : q ∉ l1 := fun hm => by
        have := h1.2.mem hm; have := start_lt_stop q; omega
      have n2 : q ∉ l2 := fun hm => by
        have := h2.2.mem hm; have := start_lt_stop q; omega
      by_cases e : s = q
      · subst e; exact ⟨fun h => absurd h n1, fun h => absurd h n2⟩
      · simpa [e] using hs


/-- C20. Coarsening undoes refinement: refine once with any decision `f`, then coarsen once with a
callback that approves exactly the quadrants that were refined; the leaves are the old leaves. -/
theorem C20_coarsen_undoes_refine (hd : 0 < d) (rcb : RefineCb d α σ) (f : Quad d → Bool)
    (hf : ∀ x s, (rcb.refine x s).1 = f x.q) (allowed : ℕ) (hal : allowed ≤ 29)
    (ccb : CoarsenCb d α σ) (g : Quad d → Bool) (hg : Decides ccb g) (orphans : Bool) (t : Tree d α) (s : σ)
    (hv : ∀ q ∈ quadsOf t, Valid q) (hgap : Gapless (quadsOf t))
    (hfg : ∀ p, g p = true ↔ p ∈ quadsOf t ∧ f p = true ∧ p.level < allowed) (prevOffset : ℤ) :
    ∃ t1 s1 t2 rem off s2, refineTree rcb false allowed t s = some (t1, s1) ∧
      coarsenTree ccb false orphans t1 prevOffset s1 = some (t2, rem, off, s2) ∧
      quadsOf t2 = quadsOf t := by
  obtain ⟨t1, s1, e1, hq1⟩ := C18_refine_once hd rcb f hf allowed hal t s hv
  obtain ⟨t1', s1', e1', hv1, -, -, hgap1⟩ := C17_refine_invariants hd rcb false allowed hal t s hv
  rw [e1] at e1'
  obtain ⟨rfl, rfl⟩ : t1 = t1' ∧ s1 = s1' := by simpa using e1'
  have hgap1' := hgap1 hgap
  obtain ⟨t2, rem, off, s2, e2, hmem⟩ := C19_coarsen_once hd ccb g hg orphans t1 prevOffset s1 hv1 hgap1'.1
  refine ⟨t1, s1, t2, rem, off, s2, e1, e2, ?_⟩
  -- both lists are paths between the same positions
  obtain ⟨a, b, hG⟩ := good_of hv hgap
  have hG1 : Good a b t1.quads.toList := by
    obtain ⟨t1', he, hl, -⟩ := refineTree_eq hd rcb false allowed t s
    rw [e1] at he
    obtain ⟨rfl, -⟩ : t1 = t1' ∧ _ := by simpa using he
    refine ⟨fun x hx => hv1 _ (List.mem_map_of_mem hx), ?_⟩
    rw [hl]
    refine runAll_path s hG.2 fun x hx s => ?_
    have := (hG.1 x hx).1
    exact (splitLeaf_tiles (makeChildren_quads rcb) false _ x s (hG.1 x hx) (by omega)).1
  obtain ⟨t2', w, rem', off', s', e2', hG2, -⟩ := coarsenTree_good hd ccb false orphans t1
    prevOffset s1 hG1 (fun _ _ _ => True) (fun _ _ _ _ _ _ _ _ _ _ _ _ _ _ _ => trivial)
    (fun _ _ _ _ _ _ _ _ _ _ _ => trivial) (fun _ _ _ _ _ _ _ _ _ => trivial) trivial
  rw [e2] at e2'
  obtain ⟨rfl, -⟩ : t2 = t2' ∧ _ := by simpa using e2'
  refine path_ext hG2.2 hG.2 fun r => ?_
  change r ∈ quadsOf t2 ↔ r ∈ quadsOf t
  have hfam : ∀ p, g p = true → HasFamily (quadsOf t1) p := by
    intro p hp
    obtain ⟨h1, h2, h3⟩ := (hfg p).mp hp
    refine ⟨hv p h1, fun k hk => ?_⟩
    rw [hq1, List.mem_flatMap]
    exact ⟨p, h1, by rw [if_pos ⟨h2, h3⟩, mem_kids]; exact ⟨k, hk, rfl⟩⟩
  rw [hmem]
  constructor
  · rintro (⟨h1, -⟩ | ⟨h1, h2⟩)
    · exact ((hfg r).mp h1).1
    · rw [hq1, List.mem_flatMap] at h1
      obtain ⟨q, hq, hr⟩ := h1
      by_cases hc : f q = true ∧ q.level < allowed
      · rw [if_pos hc] at hr
        have hgq := (hfg q).mpr ⟨hq, hc⟩
        exact absurd ⟨q, hgq, hfam q hgq, hr⟩ h2
      · rw [if_neg hc, List.mem_singleton] at hr
        rw [hr]; exact hq
  · intro hr
    by_cases hc : f r = true ∧ r.level < allowed
    · have hgr := (hfg r).mpr ⟨hr, hc⟩
      exact Or.inl ⟨hgr, hfam r hgr⟩
    · right
      refine ⟨?_, ?_⟩
      · rw [hq1, List.mem_flatMap]
        exact ⟨r, hr, by rw [if_neg hc]; simp⟩
      · rintro ⟨p, hp, -, hk⟩
        obtain ⟨k, -, rfl⟩ := mem_kids.mp hk
        obtain ⟨h1, -, -⟩ := (hfg p).mp hp
        have := hG.unique hd hr h1 (kid_ssubset hd (hv p h1) k).1
        have := congrArg Quad.level this
        change p.level + 1 = p.level at this
        omega

/-! ## C46: which leaves the callback sees -/

/-- A callback that records the quadrants it is given and answers `f`. -/
def Spec.logCoarsen (f : List (Quad d) → Bool) (init : Quad d → α) : CoarsenCb d α (List (Quad d)) :=
  ⟨fun fam s => (f (fam.map Leaf.q), s ++ fam.map Leaf.q), fun q s => (init q, s), none⟩

theorem orphanRun_log (f : List (Quad d) → Bool) (init : Quad d → α) (ls : List (Leaf d α)) (s : List (Quad d)) :
    orphanRun (logCoarsen f init) ls s = s ++ ls.map Leaf.q := by
  unfold orphanRun
  induction ls generalizing s with
  | nil => simp
  | cons x xs ih =>
    simp only [List.foldl_cons, List.map_cons]
    rw [ih]
    simp [logCoarsen]

theorem drop_merge {L : List (Leaf d α)} {w : ℕ} {x : Leaf d α} (hw : w + 2 ^ d ≤ L.length) :
    (L.take w ++ x :: L.drop (w + 2 ^ d)).drop (w + 1) = L.drop (w + 2 ^ d) := by
  have hD : 0 < 2 ^ d := by positivity
  have hl : (L.take w).length = w := by simp; omega
  rw [show w + 1 = (L.take w).length + 1 by omega, List.drop_append]
  simp

/-- C46. With orphan calls and without recursion every old leaf is passed to the callback at least
once, and only old leaves are. -/
theorem C46_coarsen_all_seen (hd : 0 < d) (f : List (Quad d) → Bool) (init : Quad d → α) (t : Tree d α)
    (prevOffset : ℤ) (hv : ∀ q ∈ quadsOf t, Valid q) (hg : Gapless (quadsOf t)) :
    ∃ t' rem off log, coarsenTree (logCoarsen f init) false true t prevOffset [] = some (t', rem, off, log) ∧
      ∀ q, q ∈ log ↔ q ∈ quadsOf t := by
  obtain ⟨a, b, hG⟩ := good_of hv hg
  obtain ⟨t', w, rem, off, s', he, -, hP, -⟩ := coarsenTree_good hd (logCoarsen f init) false true t
    prevOffset [] hG (fun L w log => ∀ q, q ∈ quadsOf t ↔ q ∈ log ∨ q ∈ (L.drop w).map Leaf.q)
    (by
      rintro L w s p x s' hGL hw hp hpl hf hx hask hmk h q
      have hs' : s' = s ++ (win d L w).map Leaf.q := by
        have := congrArg Prod.snd hmk
        simpa [makeParent, callReplace, logCoarsen] using this.symm
      simp only [Bool.false_eq_true, and_false, if_false]
      rw [h q, drop_merge hw, hs', ← List.take_append_drop (2 ^ d) (L.drop w), List.drop_drop]
      simp only [List.map_append, List.mem_append, win]
      tauto)
    (by
      rintro L w s p hGL hw hp hpl hf hask h q
      rw [h q]
      have hs : (Spec.logCoarsen f init).coarsen (win d L w) s = (_, s ++ (win d L w).map Leaf.q) := rfl
      have hwl : w < L.length := by have := two_le_pow hd; omega
      rw [hs, List.drop_eq_getElem_cons hwl]
      have hin : L[w] ∈ win d L w := by
        unfold win
        obtain ⟨n, hn⟩ : ∃ n, 2 ^ d = n + 1 := ⟨2 ^ d - 1, by have := two_le_pow hd; omega⟩
        rw [hn, List.drop_eq_getElem_cons hwl, List.take_succ_cons]; simp
      have hsub : ∀ y ∈ win d L w, y ∈ L.drop w := fun y hy => List.mem_of_mem_take hy
      simp only [List.map_cons, List.mem_append, List.mem_cons]
      constructor
      · rintro (h | rfl | h)
        · exact Or.inl (Or.inl h)
        · exact Or.inl (Or.inr (List.mem_map_of_mem hin))
        · exact Or.inr h
      · rintro ((h | h) | h)
        · exact Or.inl h
        · obtain ⟨y, hy, rfl⟩ := List.mem_map.mp h
          have := hsub y hy
          rw [List.drop_eq_getElem_cons hwl, List.mem_cons] at this
          rcases this with rfl | this
          · exact Or.inr (Or.inl rfl)
          · exact Or.inr (Or.inr (List.mem_map_of_mem this))
        · exact Or.inr (Or.inr h))
    (by
      rintro L w s x hGL hw hx hnf h q
      rw [h q]
      have hwl : w < L.length := by have := two_le_pow hd; omega
      rw [List.getElem?_eq_getElem hwl, Option.some.injEq] at hx
      rw [List.drop_eq_getElem_cons hwl, hx]
      simp [logCoarsen, or_assoc])
    (by intro q; simp [quadsOf])
  refine ⟨t', rem, off, _, he, fun q => ?_⟩
  rw [if_pos rfl, orphanRun_log, hP q]
  simp

/-- C46. If moreover every family is approved, the callback sees every old leaf exactly once, in
order.  Missing from the documented guarantee: leaves of a rejected family, which are passed more
than once, see `C46_rejected_seen_twice`. -/
theorem C46_coarsen_once_each_partial (hd : 0 < d) (f : List (Quad d) → Bool) (init : Quad d → α)
    (t : Tree d α) (prevOffset : ℤ) (hv : ∀ q ∈ quadsOf t, Valid q) (hg : Gapless (quadsOf t))
    (hf : ∀ p, HasFamily (quadsOf t) p → f (kids p) = true) :
    ∃ t' rem off, coarsenTree (logCoarsen f init) false true t prevOffset [] =
      some (t', rem, off, quadsOf t) := by
  obtain ⟨a, b, hG⟩ := good_of hv hg
  obtain ⟨t', w, rem, off, s', he, -, hP, -⟩ := coarsenTree_good hd (logCoarsen f init) false true t
    prevOffset [] hG (fun L w log => quadsOf t = log ++ (L.drop w).map Leaf.q)
    (by
      rintro L w s p x s' hGL hw hp hpl hf hx hask hmk h
      have hs' : s' = s ++ (win d L w).map Leaf.q := by
        have := congrArg Prod.snd hmk
        simpa [makeParent, callReplace, logCoarsen] using this.symm
      simp only [Bool.false_eq_true, and_false, if_false]
      rw [h, drop_merge hw, hs', ← List.take_append_drop (2 ^ d) (L.drop w), List.drop_drop]
      simp [win])
    (by
      rintro L w s p hGL hw hp hpl hfm hask h
      exfalso
      have h1 : f (kids p) = true := by
        refine hf p ⟨hp, fun k hk => ?_⟩
        rw [h, List.mem_append]
        right
        have : kid p k ∈ (win d L w).map Leaf.q := by
          rw [hfm, ← kids_eq hp, mem_kids]; exact ⟨k, hk, rfl⟩
        obtain ⟨y, hy, hyk⟩ := List.mem_map.mp this
        rw [← hyk]
        exact List.mem_map_of_mem (List.mem_of_mem_take hy)
      rw [kids_eq hp, ← hfm] at h1
      simp [logCoarsen, h1] at hask)
    (by
      rintro L w s x hGL hw hx hnf h
      have hwl : w < L.length := by have := two_le_pow hd; omega
      rw [List.getElem?_eq_getElem hwl, Option.some.injEq] at hx
      rw [h, List.drop_eq_getElem_cons hwl, hx]
      simp [logCoarsen])
    (by simp [quadsOf])
  refine ⟨t', rem, off, ?_⟩
  rw [he, if_pos rfl, orphanRun_log, ← hP]

/-- A tree with the four children of the root. -/
def fourTree : Tree 2 Unit :=
  ⟨⟨fun i => ⟨child (root 2) i, ()⟩, 4⟩, fun l => if l = 1 then 4 else 0, 1, 0⟩

theorem fourTree_quads : quadsOf fourTree = childrenv (root 2) := rfl

theorem fourTree_valid : ∀ q ∈ quadsOf fourTree, Valid q := by
  rw [fourTree_quads, show childrenv (root 2) = [child (root 2) 0, child (root 2) 1, child (root 2) 2,
    child (root 2) 3] from rfl]
  simp only [List.mem_cons, List.not_mem_nil, or_false, forall_eq_or_imp, forall_eq, ← isValid_iff]
  decide +kernel

theorem fourTree_gapless : Gapless (quadsOf fourTree) :=
  (children_path root_valid.aligned root_valid.int32 (by decide)).gapless

/-- C46, the documented guarantee fails: without recursion and with orphan calls, the second to
last leaves of a rejected family are passed to the callback twice, once as a family and once as
orphans. -/
theorem C46_rejected_seen_twice :
    ∃ t' rem off log, coarsenTree (logCoarsen (fun _ => false) (fun _ => ())) false true fourTree 0 [] =
        some (t', rem, off, log) ∧ (∀ q ∈ quadsOf fourTree, Valid q) ∧ Gapless (quadsOf fourTree) ∧
      log.count (child (root 2) 1) = 2 := by
  obtain ⟨a, b, hG⟩ := good_of fourTree_valid fourTree_gapless
  obtain ⟨t', w, rem, off, s', he, -, hP, hw, hw2, -⟩ := coarsenTree_good (d := 2) (by norm_num)
    (logCoarsen (fun _ => false) (fun _ => ())) false true fourTree
    0 [] hG (fun L w log => L = fourTree.quads.toList ∧ ((w = 0 ∧ log = []) ∨ (w = 1 ∧ log = childrenv (root 2))))
    (by
      rintro L w s p x s' hGL hw hp hpl hf hx hask hmk h
      simp [logCoarsen] at hask)
    (by
      rintro L w s p hGL hw hp hpl hfm hask ⟨h, hc⟩
      have hlen : L.length = 4 := by rw [h]; rfl
      have hw0 : w = 0 := by omega
      subst hw0
      refine ⟨h, Or.inr ⟨rfl, ?_⟩⟩
      rcases hc with ⟨-, rfl⟩ | ⟨h, -⟩
      · subst h; rfl
      · omega)
    (by
      rintro L w s x hGL hw hx hnf ⟨h, hc⟩
      exfalso
      have hlen : L.length = 4 := by rw [h]; rfl
      have hw0 : w = 0 := by omega
      subst hw0 h
      exact hnf (root 2) root_valid.aligned (by decide) rfl)
    ⟨rfl, Or.inl ⟨rfl, rfl⟩⟩
  have hlen : t'.quads.toList.length = 4 := by rw [hP.1]; rfl
  obtain ⟨h1, h2⟩ : w = 1 ∧ s' = childrenv (root 2) := by
    rcases hP.2 with h | h
    · omega
    · exact h
  refine ⟨t', rem, off, _, he, fourTree_valid, fourTree_gapless, ?_⟩
  rw [if_pos rfl, orphanRun_log, h1, h2, hP.1]
  decide +kernel

/-! ## Examples -/

/-- The hypotheses on the callback are met by the callback that coarsens everything. -/
def coarsenAll : CoarsenCb 2 Unit Unit := ⟨fun _ s => (true, s), fun _ s => ((), s), none⟩

example : Decides coarsenAll (fun _ => true) ∧ (∀ q ∈ quadsOf fourTree, Valid q) ∧
    Gapless (quadsOf fourTree) ∧ HasFamily (quadsOf fourTree) (root 2) ∧ CountersOk fourTree := by
  refine ⟨fun _ _ _ _ => rfl, fourTree_valid, fourTree_gapless, ⟨root_valid, fun k hk => ?_⟩, ?_⟩
  · rw [fourTree_quads, ← kids_eq root_valid, mem_kids]; exact ⟨k, hk, rfl⟩
  · refine ⟨fun l => ?_, ?_, Or.inl ⟨child (root 2) 0, ?_, rfl⟩⟩
    · rw [fourTree_quads]
      by_cases h : l = 1
      · subst h; rfl
      · rw [List.countP_eq_zero.mpr]
        · simp [fourTree, h]
        · intro q hq
          obtain ⟨k, -, rfl⟩ := List.mem_map.mp hq
          simpa [root] using Ne.symm h
    · rw [fourTree_quads]
      intro q hq
      obtain ⟨k, -, rfl⟩ := List.mem_map.mp hq
      exact le_rfl
    · rw [fourTree_quads]; exact List.mem_map_of_mem (by simp)

/-- Coarsening everything replaces the four leaves by the root. -/
example : ∃ t' rem off s', coarsenTree coarsenAll false false fourTree 0 () = some (t', rem, off, s') ∧
    root 2 ∈ quadsOf t' := by
  obtain ⟨t', rem, off, s', he, h⟩ := C19_coarsen_once (by norm_num) coarsenAll (fun _ => true)
    (fun _ _ _ _ => rfl) false fourTree 0 () fourTree_valid fourTree_gapless
  refine ⟨t', rem, off, s', he, (h _).mpr (Or.inl ⟨rfl, root_valid, fun k hk => ?_⟩)⟩
  rw [fourTree_quads, ← kids_eq root_valid, mem_kids]; exact ⟨k, hk, rfl⟩

end P4est
