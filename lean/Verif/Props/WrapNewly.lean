import Verif.Lemmas.WrapNewly
import Verif.Props.WrapReturn

/-! # C82: lists of newly refined and newly coarsened leaves -/

namespace P4est
open Spec

variable {d : ℕ}

theorem Path.last {a b : ℕ} {q : Quad d} {ls : List (Quad d)} (h : Path a (q :: ls) b) : ∃ l ∈ q :: ls, stop l = b := by
  induction ls generalizing a q with
  | nil => exact ⟨q, by simp, h.2⟩
  | cons r ls ih =>
    obtain ⟨l, hl, e⟩ := ih h.2
    exact ⟨l, List.mem_cons_of_mem _ hl, e⟩

theorem same_ends (hd : 0 < d) {old new : List (Quad d)} (hvo : ∀ q ∈ old, Valid q) (hvn : ∀ q ∈ new, Valid q)
    (ho : Gapless old) (hn : Gapless new) (hc : Cover new = Cover old) : ∃ a b, Path a old b ∧ Path a new b := by
  cases old with
  | nil =>
    cases new with
    | nil => exact ⟨0, 0, rfl, rfl⟩
    | cons q new =>
      have : q.c ∈ Cover (q :: new) := ⟨q, by simp, corner_mem q⟩
      rw [hc] at this
      obtain ⟨r, hr, -⟩ := this
      cases hr
  | cons f old =>
    obtain ⟨a, b, hp⟩ := ho.path
    obtain ⟨l, hl, hb⟩ := hp.last
    have hfl : start f ≤ stop l := by
      have := hp.le
      have := hp.1
      omega
    have hp' : Path (start f) (f :: old) (stop l) := by rw [← hp.1, hb]; exact hp
    have hT := (tiles_iff hd (hvo f (by simp)) (hvo l hl) hfl hvo).mpr hp'
    exact ⟨_, _, hp', (tiles_iff hd (hvo f (by simp)) (hvo l hl) hfl hvn).mp
      ⟨hvn, hn.linear fun q hq => (hvn q hq).extended, hc.trans hT.cover⟩⟩

theorem tree_newly (hd : 0 < d) {old new : List (Quad d)} (hvo : ∀ q ∈ old, Valid q) (hvn : ∀ q ∈ new, Valid q)
    (ho : Gapless old) (hn : Gapless new) (hc : Cover new = Cover old) (hf : ∀ q ∈ new, FromOld old q) :
    ∃ segs : List (Seg d), old = segs.flatMap Seg.old ∧ new = segs.flatMap Seg.new ∧
      (∀ z n, n ∈ segRefined d z segs ↔ ∃ (j : ℕ) (p : Quad d), p ∈ old ∧ new[j]? = some (kid p 0) ∧ n = z + j) ∧
      ∀ z n, n ∈ segCoarsened d z segs ↔ ∃ (j : ℕ) (q : Quad d), new[j]? = some q ∧ (∀ k, k < 2 ^ d → kid q k ∈ old) ∧
        n = z + j := by
  obtain ⟨a, b, po, pn⟩ := same_ends hd hvo hvn ho hn hc
  obtain ⟨segs, e1, e2⟩ := segs_exist new.length a b old new le_rfl po pn hvo hvn hf
  have hnd := gapless_nodup hn
  have hinj : ∀ {i j : ℕ} {q : Quad d}, new[i]? = some q → new[j]? = some q → i = j := by
    intro i j q h1 h2
    obtain ⟨hi, -⟩ := List.getElem?_eq_some_iff.mp h1
    exact (List.getElem?_inj hi hnd).mp (h1.trans h2.symm)
  have hat : ∀ (s1 s2 : List (Seg d)) (s : Seg d), segs = s1 ++ s :: s2 → ∀ x t, s.new = x :: t →
      new[(s1.flatMap Seg.new).length]? = some x := by
    intro s1 s2 s e x t hx
    rw [e2, e, List.flatMap_append, List.flatMap_cons, hx, List.getElem?_append_right le_rfl]
    simp
  have hmo : ∀ s ∈ segs, s.old ⊆ old := by
    intro s hs x hx
    rw [e1]; exact List.mem_flatMap.mpr ⟨s, hs, hx⟩
  have hmn : ∀ s ∈ segs, s.new ⊆ new := by
    intro s hs x hx
    rw [e2]; exact List.mem_flatMap.mpr ⟨s, hs, hx⟩
  refine ⟨segs, e1, e2, fun z n => ?_, fun z n => ?_⟩
  · rw [mem_segRefined]
    constructor
    · rintro ⟨s1, p, s2, e, h⟩
      obtain ⟨t, ht⟩ := kids_cons p
      exact ⟨_, p, hmo (.split p) (by rw [e]; simp) (by simp [Seg.old]), hat s1 s2 (.split p) e _ t ht, h⟩
    · rintro ⟨j, p, hp, hj, h⟩
      have hk : kid p 0 ∈ new := List.mem_of_getElem? hj
      obtain ⟨s, hs, hps⟩ := List.mem_flatMap.mp (e1 ▸ hp)
      obtain ⟨s1, s2, e⟩ := List.append_of_mem hs
      cases s with
      | same q =>
        have hpq : p = q := by simpa [Seg.old] using hps
        subst hpq
        exact absurd hk (kid_not_leaf hd hvn hn (hmn _ hs (by simp [Seg.new])) (zero_mem_kids p))
      | split q =>
        have hpq : p = q := by simpa [Seg.old] using hps
        subst hpq
        obtain ⟨t, ht⟩ := kids_cons p
        refine ⟨s1, p, s2, e, ?_⟩
        rw [h, hinj hj (hat s1 s2 (.split p) e _ t ht)]
      | join q =>
        exfalso
        have hq : q ∈ new := hmn _ hs (by simp [Seg.new])
        have hin := (kids_path (hvn q hq)).mem hps
        have h1 := start_lt_stop p
        have h2 := start_kid_zero (hvo p hp)
        have := pn.start_inj hq hk (by omega) (by omega)
        obtain ⟨k, -, rfl⟩ := mem_kids.mp hps
        have := congrArg Quad.level this
        simp only [kid] at this
        omega
  · rw [mem_segCoarsened]
    constructor
    · rintro ⟨s1, q, s2, e, h⟩
      refine ⟨_, q, hat s1 s2 (.join q) e _ [] rfl, fun k hk => ?_, h⟩
      exact hmo (.join q) (by rw [e]; simp) (mem_kids.mpr ⟨k, hk, rfl⟩)
    · rintro ⟨j, q, hj, hk, h⟩
      have hq : q ∈ new := List.mem_of_getElem? hj
      obtain ⟨s, hs, hqs⟩ := List.mem_flatMap.mp (e2 ▸ hq)
      obtain ⟨s1, s2, e⟩ := List.append_of_mem hs
      have h0 := hk 0 (by positivity)
      cases s with
      | same p =>
        have hpq : q = p := by simpa [Seg.new] using hqs
        subst hpq
        exact absurd h0 (kid_not_leaf hd hvo ho (hmo _ hs (by simp [Seg.old])) (zero_mem_kids q))
      | split p =>
        exfalso
        have hp : p ∈ old := hmo _ hs (by simp [Seg.old])
        have hin := (kids_path (hvo p hp)).mem hqs
        have h1 := start_lt_stop q
        have h2 := start_kid_zero (hvn q hq)
        have := po.start_inj hp h0 (by omega) (by omega)
        obtain ⟨k, -, rfl⟩ := mem_kids.mp hqs
        have := congrArg Quad.level this
        simp only [kid] at this
        omega
      | join p =>
        have hpq : q = p := by simpa [Seg.new] using hqs
        subst hpq
        refine ⟨s1, q, s2, e, ?_⟩
        rw [h, hinj hj (hat s1 s2 (.join q) e _ [] rfl)]

theorem newly_trees (hd : 0 < d) (levels : List ℕ) : ∀ (old new : List (Tree d Unit)) (n : ℤ) (qz : ℕ) (R C : List ℤ),
    (∀ t ∈ old, (∀ q ∈ quadsOf t, Valid q) ∧ Gapless (quadsOf t)) → (∀ t ∈ new, (∀ q ∈ quadsOf t, Valid q) ∧ Gapless (quadsOf t)) →
    OffsetsOk n new → List.Forall₂ (fun t t' => Cover (quadsOf t') = Cover (quadsOf t) ∧ ∀ q ∈ quadsOf t', FromOld (quadsOf t) q) old new →
    levels.drop qz = (old.flatMap fun t => (quadsOf t).map Quad.level) → qz ≤ levels.length →
    ∃ R' C', wrapNewlyTrees levels new qz R C = some (R ++ R', C ++ C') ∧ R'.Pairwise (· < ·) ∧ C'.Pairwise (· < ·) ∧
      (∀ m ∈ R', n ≤ m) ∧ (∀ m ∈ C', n ≤ m) ∧
      (∀ m, m ∈ R' ↔ ∃ (i j : ℕ) (t t' : Tree d Unit) (p : Quad d), old[i]? = some t ∧ new[i]? = some t' ∧ p ∈ quadsOf t ∧
        (quadsOf t')[j]? = some (kid p 0) ∧ m = t'.offset + j) ∧
      (∀ m, m ∈ C' ↔ ∃ (i j : ℕ) (t t' : Tree d Unit) (q : Quad d), old[i]? = some t ∧ new[i]? = some t' ∧
        (quadsOf t')[j]? = some q ∧ (∀ k, k < 2 ^ d → kid q k ∈ quadsOf t) ∧ m = t'.offset + j) := by
  intro old
  induction old with
  | nil =>
    intro new n qz R C _ _ _ h2 hl hq
    cases h2
    refine ⟨[], [], ?_, by simp, by simp, by simp, by simp, by simp, by simp⟩
    unfold wrapNewlyTrees
    have : levels.length ≤ qz := by simpa using hl
    rw [if_pos (by omega)]; simp
  | cons t old ih =>
    intro new n qz R C hvo hvn hoff h2 hl hq
    cases h2 with
    | @cons _ t' _ new' h h2 =>
      obtain ⟨hv1, hg1⟩ := hvo t (by simp)
      obtain ⟨hv2, hg2⟩ := hvn t' (by simp)
      obtain ⟨segs, e1, e2, hR, hC⟩ := tree_newly hd hv1 hv2 hg1 hg2 h.1 h.2
      obtain ⟨ho1, ho2⟩ := hoff
      have hnl : (t'.quads.toList.map fun x => x.q.level) = (quadsOf t').map Quad.level := by
        unfold quadsOf; rw [List.map_map]; rfl
      rw [List.flatMap_cons] at hl
      have hrun := wrapNewlyTree_run t'.offset ((quadsOf t').map Quad.level) levels segs 0 qz R C
        (old.flatMap fun t => (quadsOf t).map Quad.level) (by rw [List.drop_zero, e2]) (by simp) (by rw [hl, e1])
      rw [← e1] at hrun
      have hl2 : levels.drop (qz + (quadsOf t).length) = old.flatMap fun t => (quadsOf t).map Quad.level := by
        rw [← List.drop_drop, hl, List.drop_left' (by simp)]
      have hq2 : qz + (quadsOf t).length ≤ levels.length := by
        have := congrArg List.length hl
        simp only [List.length_drop, List.length_append, List.length_map] at this
        omega
      obtain ⟨R', C', k1, k2, k3, k4, k5, k6, k7⟩ := ih new' (n + (quadsOf t').length) (qz + (quadsOf t).length)
        (R ++ segRefined d ((0 : ℕ) + t'.offset) segs) (C ++ segCoarsened d ((0 : ℕ) + t'.offset) segs)
        (fun x hx => hvo x (by simp [hx])) (fun x hx => hvn x (by simp [hx])) ho2 h2 hl2 hq2
      have hz : ((0 : ℕ) : ℤ) + t'.offset = n := by rw [ho1]; simp
      rw [hz] at k1 hrun
      obtain ⟨b1, b2, b3, b4⟩ := seg_bounds segs n
      rw [← e2] at b3 b4
      refine ⟨segRefined d n segs ++ R', segCoarsened d n segs ++ C', ?_, ?_, ?_, ?_, ?_, ?_, ?_⟩
      · unfold wrapNewlyTrees
        rw [hnl, hrun]
        change wrapNewlyTrees levels new' _ _ _ = _
        rw [k1, List.append_assoc, List.append_assoc]
      · exact List.pairwise_append.mpr ⟨b1, k2, fun x hx y hy => by have := b3 x hx; have := k4 y hy; omega⟩
      · exact List.pairwise_append.mpr ⟨b2, k3, fun x hx y hy => by have := b4 x hx; have := k5 y hy; omega⟩
      · intro m hm
        rcases List.mem_append.mp hm with hm | hm
        · exact (b3 m hm).1
        · have := k4 m hm; omega
      · intro m hm
        rcases List.mem_append.mp hm with hm | hm
        · exact (b4 m hm).1
        · have := k5 m hm; omega
      · intro m
        rw [List.mem_append, hR, k6]
        constructor
        · rintro (⟨j, p, h1, h2, h3⟩ | ⟨i, j, u, u', p, h1, h2, h3⟩)
          · exact ⟨0, j, t, t', p, rfl, rfl, h1, h2, by rw [ho1]; exact h3⟩
          · exact ⟨i + 1, j, u, u', p, h1, h2, h3⟩
        · rintro ⟨i, j, u, u', p, h1, h2, h3, h4, h5⟩
          cases i with
          | zero =>
            obtain rfl : t = u := by simpa using h1
            obtain rfl : t' = u' := by simpa using h2
            exact Or.inl ⟨j, p, h3, h4, by rw [← ho1]; exact h5⟩
          | succ i => exact Or.inr ⟨i, j, u, u', p, h1, h2, h3, h4, h5⟩
      · intro m
        rw [List.mem_append, hC, k7]
        constructor
        · rintro (⟨j, p, h1, h2, h3⟩ | ⟨i, j, u, u', p, h1, h2, h3⟩)
          · exact ⟨0, j, t, t', p, rfl, rfl, h1, h2, by rw [ho1]; exact h3⟩
          · exact ⟨i + 1, j, u, u', p, h1, h2, h3⟩
        · rintro ⟨i, j, u, u', p, h1, h2, h3, h4, h5⟩
          cases i with
          | zero =>
            obtain rfl : t = u := by simpa using h1
            obtain rfl : t' = u' := by simpa using h2
            exact Or.inl ⟨j, p, h3, h4, by rw [← ho1]; exact h5⟩
          | succ i => exact Or.inr ⟨i, j, u, u', p, h1, h2, h3, h4, h5⟩

/-- C82. If every leaf of the new forest is an old leaf, a child of an old leaf or the parent of old leaves, the two
lists are made without failed assertions or accesses out of bounds, they ascend, `newly_refined` has exactly the positions
of the first children of the old leaves that were refined, and `newly_coarsened` those of the parents of old leaves. -/
theorem C82_newly (hd : 0 < d) (old new : List (Tree d Unit)) (ho : LegalTrees old) (hn : LegalTrees new)
    (hlen : new.length = old.length)
    (hcov : ∀ (i : ℕ) (t t' : Tree d Unit), old[i]? = some t → new[i]? = some t' → Cover (quadsOf t') = Cover (quadsOf t) ∧
      ∀ q ∈ quadsOf t', q ∈ quadsOf t ∨ (∃ p ∈ quadsOf t, q ∈ kids p) ∨ ∀ k, k < 2 ^ d → kid q k ∈ quadsOf t) :
    ∃ refined coarsened, wrapNewly old new = some (refined, coarsened) ∧
      refined.Pairwise (· < ·) ∧ coarsened.Pairwise (· < ·) ∧
      (∀ m, m ∈ refined ↔ ∃ (i j : ℕ) (t t' : Tree d Unit) (p : Quad d), old[i]? = some t ∧ new[i]? = some t' ∧
        p ∈ quadsOf t ∧ (quadsOf t')[j]? = some (kid p 0) ∧ m = t'.offset + j) ∧
      (∀ m, m ∈ coarsened ↔ ∃ (i j : ℕ) (t t' : Tree d Unit) (q : Quad d), old[i]? = some t ∧ new[i]? = some t' ∧
        (quadsOf t')[j]? = some q ∧ (∀ k, k < 2 ^ d → kid q k ∈ quadsOf t) ∧ m = t'.offset + j) := by
  have hlev : (old.flatMap fun t => t.quads.toList.map fun x => x.q.level) = old.flatMap fun t => (quadsOf t).map Quad.level := by
    congr 1
    funext t
    unfold quadsOf; rw [List.map_map]; rfl
  obtain ⟨R, C, h1, h2, h3, -, -, h4, h5⟩ := newly_trees hd (old.flatMap fun t => (quadsOf t).map Quad.level) old new 0 0 [] []
    (fun t ht => ⟨ho.valid t ht, ho.gapless t ht⟩) (fun t ht => ⟨hn.valid t ht, hn.gapless t ht⟩) hn.offsets
    (by
      rw [List.forall₂_iff_get]
      refine ⟨hlen.symm, fun i hi hi' => ?_⟩
      have ht : old[i]? = some old[i] := List.getElem?_eq_getElem hi
      have ht' : new[i]? = some new[i] := List.getElem?_eq_getElem hi'
      obtain ⟨k1, k2⟩ := hcov i _ _ ht ht'
      refine ⟨k1, fun q hq => ?_⟩
      rcases k2 q hq with h | h | h
      · exact Or.inl h
      · exact Or.inr (Or.inl h)
      · exact Or.inr (Or.inr ⟨hn.valid _ (List.mem_of_getElem? ht') q hq, h⟩))
    (by simp) (by simp)
  refine ⟨R, C, ?_, h2, h3, h4, h5⟩
  unfold wrapNewly
  rw [hlev, h1]
  simp

/-- The hypotheses of C82 hold after every adaptation by marks, before balance. -/
theorem C82_after_adapt (hd : 0 < d) (trees : List (Tree d Unit)) (hT : LegalTrees trees) (calls : List MarkCall)
    (hc : LegalCalls trees calls) :
    ∃ m r refined coarsened,
      markAll trees calls ⟨List.replicate (trees.map fun t => (quadsOf t).length).sum WrapFlag.zero, 0⟩ = some m ∧
      wrapAdaptLocal trees m = some r ∧ wrapNewly trees r.trees = some (refined, coarsened) ∧
      (∀ z, z ∈ refined ↔ ∃ (i j : ℕ) (t t' : Tree d Unit) (p : Quad d), trees[i]? = some t ∧ r.trees[i]? = some t' ∧
        IsMarked calls .refine i (quadsOf t) p ∧ p.level < 29 ∧ (quadsOf t')[j]? = some (kid p 0) ∧ z = t'.offset + j) ∧
      (∀ z, z ∈ coarsened ↔ ∃ (i j : ℕ) (t t' : Tree d Unit) (q : Quad d), trees[i]? = some t ∧ r.trees[i]? = some t' ∧
        (quadsOf t')[j]? = some q ∧ Valid q ∧ (∀ k, k < 2 ^ d → IsMarked calls .coarsen i (quadsOf t) (kid q k)) ∧
        z = t'.offset + j) := by
  obtain ⟨m, r, hm, hr, hlen, hL, -, -, -, -, hmem⟩ := C80_adapt hd trees hT calls hc
  have hold : ∀ {kind i} {old : List (Quad d)} {q}, IsMarked calls kind i old q → q ∈ old := by
    rintro kind i old q ⟨j, hj, -⟩
    exact List.mem_of_getElem? hj
  obtain ⟨R, C, h1, -, -, h4, h5⟩ := C82_newly hd trees r.trees hT hL hlen (fun i t t' ht ht' => by
    obtain ⟨k1, k2⟩ := hmem i t t' ht ht'
    refine ⟨k1, fun q hq => ?_⟩
    rcases (k2 q).mp hq with ⟨p, hp, -, hk⟩ | ⟨-, hk⟩ | ⟨h, -⟩
    · exact Or.inr (Or.inl ⟨p, hold hp, hk⟩)
    · exact Or.inr (Or.inr fun k hk' => hold (hk k hk'))
    · exact Or.inl h)
  refine ⟨m, r, R, C, hm, hr, h1, fun z => ?_, fun z => ?_⟩
  · rw [h4]
    constructor
    · rintro ⟨i, j, t, t', p, ht, ht', hp, hj, hz⟩
      have hv := hT.valid t (List.mem_of_getElem? ht)
      have hg := hT.gapless t (List.mem_of_getElem? ht)
      have hnot := kid_not_leaf hd hv hg hp (zero_mem_kids p)
      refine ⟨i, j, t, t', p, ht, ht', ?_⟩
      rcases ((hmem i t t' ht ht').2 _).mp (List.mem_of_getElem? hj) with ⟨p', hp', hl, hk⟩ | ⟨hvk, hk⟩ | ⟨h, -⟩
      · obtain ⟨a, b, po⟩ := hg.path
        have hin := (kids_path (hv p' (hold hp'))).mem hk
        have h1 := start_kid_zero (hv p hp)
        have h2 := start_lt_stop (kid p 0)
        have h3 := start_lt_stop p
        have : p' = p := po.start_inj (hold hp') hp (by omega) (by omega)
        subst this
        exact ⟨hp', hl, hj, hz⟩
      · exfalso
        obtain ⟨a, b, po⟩ := hg.path
        have h0 := hold (hk 0 (by positivity))
        have h1 := start_kid_zero (hv p hp)
        have h2 := start_kid_zero hvk
        have h3 := start_lt_stop p
        have := congrArg Quad.level (po.start_inj hp h0 (by omega) (by omega))
        simp only [kid] at this
        omega
      · exact absurd h hnot
    · rintro ⟨i, j, t, t', p, ht, ht', hp, -, hj, hz⟩
      exact ⟨i, j, t, t', p, ht, ht', hold hp, hj, hz⟩
  · rw [h5]
    constructor
    · rintro ⟨i, j, t, t', q, ht, ht', hj, hk, hz⟩
      have hv := hT.valid t (List.mem_of_getElem? ht)
      have hg := hT.gapless t (List.mem_of_getElem? ht)
      have hvq := hL.valid t' (List.mem_of_getElem? ht') q (List.mem_of_getElem? hj)
      refine ⟨i, j, t, t', q, ht, ht', hj, hvq, ?_, hz⟩
      rcases ((hmem i t t' ht ht').2 _).mp (List.mem_of_getElem? hj) with ⟨p', hp', hl, hk'⟩ | ⟨-, hk'⟩ | ⟨h, -⟩
      · exfalso
        obtain ⟨a, b, po⟩ := hg.path
        have hin := (kids_path (hv p' (hold hp'))).mem hk'
        have h0 := hk 0 (by positivity)
        have h2 := start_kid_zero hvq
        have h3 := start_lt_stop q
        have := po.start_inj (hold hp') h0 (by omega) (by omega)
        obtain ⟨k, -, rfl⟩ := mem_kids.mp hk'
        have := congrArg Quad.level this
        simp only [kid] at this
        omega
      · exact hk'
      · exact absurd (hk 0 (by positivity)) (kid_not_leaf hd hv hg h (zero_mem_kids q))
    · rintro ⟨i, j, t, t', q, ht, ht', hj, -, hk, hz⟩
      exact ⟨i, j, t, t', q, ht, ht', hj, fun k hk' => hold (hk k hk'), hz⟩

/-- A legal forest with marks that refine and coarsen, for the theorems above. -/
example : LegalTrees [collideTree] ∧ LegalCalls [collideTree] collideCalls :=
  ⟨collide_legal, collide_calls⟩

end P4est
