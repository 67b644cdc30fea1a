import Verif.Props.Wrap
import Verif.Props.Ghost
import Verif.Props.Balance

/-! # C81: the returned value of the adaptation with flags -/

namespace P4est
open Spec

variable {d : ℕ}

theorem wrapChecksum_congr {ts ts' : List (Tree d Unit)} (h : ts'.map quadsOf = ts.map quadsOf) :
    wrapChecksum ts' = wrapChecksum ts := by
  unfold wrapChecksum
  have key : ∀ t : Tree d Unit, (t.quads.toList.map fun x => (x.q, x.data)) = (quadsOf t).map fun q => (q, ()) := by
    intro t; unfold quadsOf; rw [List.map_map]; rfl
  have hcnt : ∀ t : Tree d Unit, t.quads.count = (quadsOf t).length := by
    intro t; unfold quadsOf; simp [LArr.toList]
  have : ∀ (us : List (Tree d Unit)) (c : ℕ), us.foldl (fun crc t => zAdler32Combine crc
      (quadrantChecksum (t.quads.toList.map fun x => (x.q, x.data))).1 (4 * (t.quads.count * (d + 1)))) c =
      (us.map quadsOf).foldl (fun crc L => zAdler32Combine crc
        (quadrantChecksum (L.map fun q => (q, ()))).1 (4 * (L.length * (d + 1)))) c := by
    intro us
    induction us with
    | nil => intro c; rfl
    | cons u us ih => intro c; rw [List.foldl_cons, List.map_cons, List.foldl_cons, key, hcnt, ih]
  rw [this, this, h]

theorem count_sum_eq (ts : List (Tree d Unit)) : (ts.map fun t => t.quads.count).sum = (ts.map fun t => (quadsOf t).length).sum := by
  congr 1
  refine List.map_congr_left fun t _ => ?_
  unfold quadsOf; simp [LArr.toList]

/-- C81 on one process, for any function in the place of the balance function: nothing fails, there is one zero flag per
new leaf, `true` says that the leaves have changed (if there is zlib), and `false` says that they have not, unless they
are as many as before with the same checksum. -/
theorem C81_return_partial (hd : 0 < d) (balance : List (Tree d Unit) → List (Tree d Unit)) (haveZlib : Bool)
    (trees : List (Tree d Unit)) (hT : LegalTrees trees) (calls : List MarkCall) (hc : LegalCalls trees calls) :
    ∃ m ts flags changed,
      markAll trees calls ⟨List.replicate (trees.map fun t => (quadsOf t).length).sum WrapFlag.zero, 0⟩ = some m ∧
      wrapAdapt balance haveZlib trees m = some (ts, flags, changed) ∧
      flags = List.replicate (ts.map fun t => (quadsOf t).length).sum ⟨false, false⟩ ∧
      (changed = true → haveZlib = true → ts.map quadsOf ≠ trees.map quadsOf) ∧
      (changed = false → ts.map quadsOf = trees.map quadsOf ∨ (haveZlib = true ∧
        (ts.map fun t => (quadsOf t).length).sum = (trees.map fun t => (quadsOf t).length).sum ∧
        wrapChecksum ts = wrapChecksum trees)) := by
  obtain ⟨m, r, hm, hr, -, hL', -, hz, h0, -⟩ := C80_adapt hd trees hT calls hc
  obtain ⟨hl1, hl2, hsame⟩ := wrapAdapt_same_iff hd trees hT calls hc hm hr
  have hflen : r.flags.length = (trees.map fun t => (quadsOf t).length).sum := by
    obtain ⟨m', r', hm', hr', -, -, h, -⟩ := C80_adapt hd trees hT calls hc
    rw [hm, Option.some.injEq] at hm'
    subst hm'
    rw [hr, Option.some.injEq] at hr'
    subst hr'
    exact h
  have hch : wrapChanged [r] = false ↔ r.trees.map quadsOf = trees.map quadsOf := by
    rw [← hsame]
    unfold wrapChanged
    simp
  have hn0 : r.num0 = ((trees.map fun t => (quadsOf t).length).sum : ℕ) := by
    rw [h0, leafCount_eq, List.map_map]; rfl
  have hsum : ∀ {ts : List (Tree d Unit)}, ts.map quadsOf = trees.map quadsOf →
      (ts.map fun t => (quadsOf t).length).sum = (trees.map fun t => (quadsOf t).length).sum := by
    intro ts h
    have := congrArg (fun l => (l.map List.length).sum) h
    simpa [Function.comp_def] using this
  by_cases hc0 : wrapChanged [r] = false
  · refine ⟨m, r.trees, r.flags, false, hm, ?_, ?_, by simp, fun _ => Or.inl (hch.mp hc0)⟩
    · unfold wrapAdapt
      rw [hr]
      change (if wrapChanged [r] = true then _ else _) = _
      rw [hc0]
      have : (r.flags.all fun f => f == WrapFlag.zero) = true := by
        rw [List.all_eq_true]; intro f hf; rw [hz f hf]; rfl
      simp [this]
    · rw [hsum (hch.mp hc0), ← hflen]
      exact List.eq_replicate_iff.mpr ⟨rfl, hz⟩
  · have hc1 : wrapChanged [r] = true := by simpa using hc0
    set ts := balance r.trees with hts
    set num : ℕ := (ts.map fun t => t.quads.count).sum with hnum
    have hnum' : num = (ts.map fun t => (quadsOf t).length).sum := count_sum_eq ts
    set ch := (if (haveZlib && (r.num0 == num)) = true then wrapChecksum trees != wrapChecksum ts else true) with hch'
    refine ⟨m, ts, List.replicate num WrapFlag.zero, ch, hm, ?_, by rw [hnum']; rfl, ?_, ?_⟩
    · unfold wrapAdapt
      rw [hr]
      change (if wrapChanged [r] = true then _ else _) = _
      rw [hc1, if_pos rfl]
      change (if ch = true then _ else _) = _
      cases hcc : ch <;> simp [hts, hnum]
    · intro e1 e2 e3
      rw [hch', e2, wrapChecksum_congr e3] at e1
      have : r.num0 = num := by rw [hn0, hnum', hsum e3]
      simp [this] at e1
    · intro e1
      right
      by_cases hcond : (haveZlib && (r.num0 == num)) = true
      · rw [hch', if_pos hcond] at e1
        simp only [Bool.and_eq_true, beq_iff_eq] at hcond
        refine ⟨hcond.1, ?_, ?_⟩
        · have := hcond.2
          rw [hn0, hnum'] at this
          exact_mod_cast this.symm
        · simpa using Eq.symm (by simpa using e1 : wrapChecksum trees = wrapChecksum ts)
      · rw [hch', if_neg hcond] at e1
        cases e1

/-! ## The returned value is wrong if the checksums collide -/

/-- A leaf of a quadtree with coordinates in units of `2 ^ 26`. -/
def gridLeaf (x y : ℤ) (l : ℕ) : Quad 2 := ⟨![x * 2 ^ 26, y * 2 ^ 26], l⟩

/-- The leaves before. -/
def collideOld : List (Quad 2) :=
  [gridLeaf 0 0 4, gridLeaf 1 0 4, gridLeaf 0 1 4, gridLeaf 1 1 4, gridLeaf 2 0 3, gridLeaf 0 2 3, gridLeaf 2 2 3,
    gridLeaf 4 0 3, gridLeaf 6 0 3, gridLeaf 4 2 3, gridLeaf 6 2 3,
    gridLeaf 0 4 4, gridLeaf 1 4 4, gridLeaf 0 5 4, gridLeaf 1 5 4, gridLeaf 2 4 3, gridLeaf 0 6 3, gridLeaf 2 6 3,
    gridLeaf 4 4 2, gridLeaf 8 0 2, gridLeaf 12 0 2, gridLeaf 8 4 2, gridLeaf 12 4 2, gridLeaf 0 8 2, gridLeaf 4 8 2,
    gridLeaf 0 12 2, gridLeaf 4 12 2, gridLeaf 8 8 1]

/-- The leaves after leaf 7 was refined and leaves 11 to 14 were coarsened. -/
def collideNew : List (Quad 2) :=
  [gridLeaf 0 0 4, gridLeaf 1 0 4, gridLeaf 0 1 4, gridLeaf 1 1 4, gridLeaf 2 0 3, gridLeaf 0 2 3, gridLeaf 2 2 3,
    gridLeaf 4 0 4, gridLeaf 5 0 4, gridLeaf 4 1 4, gridLeaf 5 1 4, gridLeaf 6 0 3, gridLeaf 4 2 3, gridLeaf 6 2 3,
    gridLeaf 0 4 3, gridLeaf 2 4 3, gridLeaf 0 6 3, gridLeaf 2 6 3,
    gridLeaf 4 4 2, gridLeaf 8 0 2, gridLeaf 12 0 2, gridLeaf 8 4 2, gridLeaf 12 4 2, gridLeaf 0 8 2, gridLeaf 4 8 2,
    gridLeaf 0 12 2, gridLeaf 4 12 2, gridLeaf 8 8 1]

def collideTree : Tree 2 Unit :=
  ⟨⟨fun i => ⟨collideOld.getD i ⟨![0, 0], 0⟩, ()⟩, 28⟩, fun l => (collideOld.countP fun q => q.level = l : ℕ), 4, 0⟩

def collideCalls : List MarkCall :=
  [⟨.refine, 0, 7⟩, ⟨.coarsen, 0, 11⟩, ⟨.coarsen, 0, 12⟩, ⟨.coarsen, 0, 13⟩, ⟨.coarsen, 0, 14⟩]

theorem collideTree_quads : quadsOf collideTree = collideOld := by decide +kernel

theorem collideOld_valid : ∀ q ∈ collideOld, Valid q := by
  have h : ∀ q ∈ collideOld, isValid q = true := by decide +kernel
  exact fun q hq => isValid_iff.mp (h q hq)

theorem collideNew_valid : ∀ q ∈ collideNew, Valid q := by
  have h : ∀ q ∈ collideNew, isValid q = true := by decide +kernel
  exact fun q hq => isValid_iff.mp (h q hq)

theorem collideOld_path : Path 0 collideOld (2 ^ 60) := by decide +kernel

theorem collideNew_path : Path 0 collideNew (2 ^ 60) := by decide +kernel

theorem collide_legal : LegalTrees [collideTree] := by
  refine ⟨?_, ?_, ?_, ⟨rfl, trivial⟩⟩
  · simp only [List.mem_singleton, forall_eq]
    rw [collideTree_quads]; exact collideOld_valid
  · simp only [List.mem_singleton, forall_eq]
    rw [collideTree_quads]; exact collideOld_path.gapless
  · simp only [List.mem_singleton, forall_eq]
    refine ⟨fun l => by rw [collideTree_quads]; rfl, ?_, ?_⟩
    · rw [collideTree_quads]; decide +kernel
    · left; rw [collideTree_quads]; exact ⟨gridLeaf 0 0 4, by decide +kernel, rfl⟩

theorem collide_calls : LegalCalls [collideTree] collideCalls := by
  intro c hc
  have : c.tree = 0 ∧ c.quad < 28 := by
    revert hc c; decide +kernel
  refine ⟨collideTree, by rw [this.1]; rfl, ?_⟩
  have hl : collideTree.quads.toList.length = 28 := by decide +kernel
  rw [hl]; exact this.2

theorem path_eq_of_subset {a b : ℕ} {l1 l2 : List (Quad d)} (h1 : Path a l1 b) (h2 : Path a l2 b) (hs : l1 ⊆ l2) :
    l1 = l2 := by
  induction l1 generalizing a l2 with
  | nil =>
    cases l2 with
    | nil => rfl
    | cons q l2 =>
      have e : a = b := h1
      have := h2.1
      have := h2.2.le
      have := start_lt_stop q
      omega
  | cons q l1 ih =>
    cases l2 with
    | nil => exact absurd (hs (List.mem_cons_self)) (by simp)
    | cons r l2 =>
      have hqr : q = r := by
        rcases List.mem_cons.mp (hs (List.mem_cons_self (a := q))) with h | h
        · exact h
        · have := h2.2.mem h
          have := h2.1
          have := h1.1
          have := start_lt_stop r
          omega
      subst hqr
      rw [ih h1.2 h2.2]
      intro x hx
      rcases List.mem_cons.mp (hs (List.mem_cons_of_mem _ hx)) with h | h
      · have h3 := h1.2.mem hx
        have h4 := start_lt_stop q
        rw [h] at h3
        omega
      · exact h

theorem collide_refineMark {q : Quad 2} : IsMarked collideCalls .refine 0 collideOld q ↔ q = gridLeaf 4 0 3 := by
  constructor
  · rintro ⟨j, hj, hm⟩
    have hlt : j < 28 := (List.getElem?_eq_some_iff.mp hj).1
    have key : ∀ j < 28, lastMark collideCalls 0 j = some .refine → j = 7 := by decide +kernel
    rw [key j hlt hm] at hj
    exact (Option.some.inj hj).symm
  · rintro rfl
    exact ⟨7, by decide +kernel, by decide +kernel⟩

theorem collide_coarsenMark {q : Quad 2} : IsMarked collideCalls .coarsen 0 collideOld q ↔
    q ∈ [gridLeaf 0 4 4, gridLeaf 1 4 4, gridLeaf 0 5 4, gridLeaf 1 5 4] := by
  constructor
  · rintro ⟨j, hj, hm⟩
    have hlt : j < 28 := (List.getElem?_eq_some_iff.mp hj).1
    have key : ∀ j < 28, lastMark collideCalls 0 j = some .coarsen → ∃ q ∈ [gridLeaf 0 4 4, gridLeaf 1 4 4, gridLeaf 0 5 4,
      gridLeaf 1 5 4], collideOld[j]? = some q := by decide +kernel
    obtain ⟨q', hq', h⟩ := key j hlt hm
    rw [h, Option.some.injEq] at hj
    exact hj ▸ hq'
  · intro h
    have key : ∀ q ∈ [gridLeaf 0 4 4, gridLeaf 1 4 4, gridLeaf 0 5 4, gridLeaf 1 5 4], ∃ j, j < 28 ∧
      collideOld[j]? = some q ∧ lastMark collideCalls 0 j = some .coarsen := by decide +kernel
    obtain ⟨j, -, h1, h2⟩ := key q h
    exact ⟨j, h1, h2⟩

theorem collide_subset (q : Quad 2) (hq : q ∈ collideNew) : AdaptedLeaf collideOld
    (IsMarked collideCalls .refine 0 collideOld) (IsMarked collideCalls .coarsen 0 collideOld) q := by
  have key : ∀ q ∈ collideNew, q ∈ kids (gridLeaf 4 0 3) ∨ (∀ k < 4, kid q k ∈ [gridLeaf 0 4 4, gridLeaf 1 4 4,
      gridLeaf 0 5 4, gridLeaf 1 5 4]) ∨ (q ∈ collideOld ∧ q ≠ gridLeaf 4 0 3 ∧
      q ∉ [gridLeaf 0 4 4, gridLeaf 1 4 4, gridLeaf 0 5 4, gridLeaf 1 5 4]) := by decide +kernel
  rcases key q hq with h | h | ⟨h1, h2, h3⟩
  · exact Or.inl ⟨_, collide_refineMark.mpr rfl, by decide, h⟩
  · exact Or.inr (Or.inl ⟨collideNew_valid q hq, fun k hk => collide_coarsenMark.mpr (h k hk)⟩)
  · refine Or.inr (Or.inr ⟨h1, fun h => h2 (collide_refineMark.mp h.1), ?_⟩)
    rintro ⟨p, -, hp, hk⟩
    obtain ⟨k, hk2, rfl⟩ := mem_kids.mp hk
    exact h3 (collide_coarsenMark.mp (hp k hk2))

instance (q r : Quad d) (i : Fin d) : Decidable (OverlapOn q r i) := by unfold OverlapOn; infer_instance
instance (q r : Quad d) (i : Fin d) : Decidable (MeetOn q r i) := by unfold MeetOn; infer_instance
instance (k : ℕ) (q r : Quad d) : Decidable (Touch k q r) := by unfold Touch; infer_instance
instance (k : ℕ) (l : List (Quad d)) : Decidable (Balanced k l) := by unfold Balanced; infer_instance

theorem collide_checksum {t t' : Tree 2 Unit} (h : quadsOf t = collideOld) (h' : quadsOf t' = collideNew) :
    wrapChecksum [t] = wrapChecksum [t'] := by
  have h1 : (quadrantChecksum (collideOld.map fun q => (q, ()))).1 = 0x987c0362 := by decide +kernel
  have h2 : (quadrantChecksum (collideNew.map fun q => (q, ()))).1 = 0x987c0362 := by decide +kernel
  have key : ∀ t : Tree 2 Unit, wrapChecksum [t] = zAdler32Combine 1
      (quadrantChecksum ((quadsOf t).map fun q => (q, ()))).1 (4 * ((quadsOf t).length * 3)) := by
    intro t
    unfold wrapChecksum quadsOf
    simp only [List.foldl_cons, List.foldl_nil, List.map_map, List.length_map]
    have : t.quads.count = t.quads.toList.length := by simp [LArr.toList]
    rw [this]
    rfl
  rw [key, key, h, h', h1, h2]
  rfl

/-- A legal forest with marks that refine and coarsen, as in the hypotheses of C80 and C81. -/
example : LegalTrees [collideTree] ∧ LegalCalls [collideTree] collideCalls :=
  ⟨collide_legal, collide_calls⟩

/-- C81 fails in general: there are a forest on one process and marks (one leaf for refinement, one family for
coarsening), both the old and the adapted leaves are balanced, so that the balance function has nothing to do,
yet `p4est_wrap_adapt` reports no change although the leaves have changed: there are as many as before, and with the
same checksum. -/
theorem C81_collision (balance : List (Tree 2 Unit) → List (Tree 2 Unit))
    (hb : ∀ ts, (∀ t ∈ ts, Balanced 2 (quadsOf t)) → balance ts = ts) :
    ∃ trees calls m ts flags, LegalTrees trees ∧ LegalCalls trees calls ∧ (∀ t ∈ trees, Balanced 2 (quadsOf t)) ∧
      (∀ t ∈ trees, TreeComplete (quadsOf t)) ∧
      markAll trees calls ⟨List.replicate (trees.map fun t => (quadsOf t).length).sum WrapFlag.zero, 0⟩ = some m ∧
      wrapAdapt balance true trees m = some (ts, flags, false) ∧ (∀ t ∈ ts, Balanced 2 (quadsOf t)) ∧
      ts.map quadsOf ≠ trees.map quadsOf := by
  obtain ⟨m, r, hm, hr, hlen, hL', hflen, hz, h0, h2, hmem⟩ := C80_adapt (by norm_num) [collideTree] collide_legal collideCalls
    collide_calls
  obtain ⟨hl1, hl2, hsame⟩ := wrapAdapt_same_iff (by norm_num) [collideTree] collide_legal collideCalls collide_calls hm hr
  obtain ⟨t', ht'⟩ : ∃ t', r.trees = [t'] := by
    rw [List.length_singleton] at hlen
    exact List.length_eq_one_iff.mp hlen
  have hcomp : TreeComplete (quadsOf collideTree) := by
    rw [collideTree_quads]
    exact treeComplete_of_path collideOld_valid collideOld_path
  obtain ⟨hcov, hmem'⟩ := hmem 0 collideTree t' rfl (by rw [ht']; rfl)
  rw [collideTree_quads] at hmem'
  have hv' : ∀ q ∈ quadsOf t', Valid q := hL'.valid t' (by rw [ht']; simp)
  have hg' : Gapless (quadsOf t') := hL'.gapless t' (by rw [ht']; simp)
  have hcomp' : TreeComplete (quadsOf t') := by
    refine ⟨hv', hg'.linear fun q hq => (hv' q hq).extended, fun p hp => ?_⟩
    have h := hcomp.cover p hp
    change p ∈ Cover _ at h
    rw [← hcov] at h
    exact h
  have hnew : quadsOf t' = collideNew := by
    refine (path_eq_of_subset collideNew_path (hcomp'.path (by norm_num)) ?_).symm
    exact fun q hq => (hmem' q).mpr (collide_subset q hq)
  have hne : [t'].map quadsOf ≠ [collideTree].map quadsOf := by
    simp only [List.map_cons, List.map_nil, ne_eq, List.cons.injEq, and_true]
    rw [hnew, collideTree_quads]
    decide +kernel
  have hbal' : ∀ t ∈ [t'], Balanced 2 (quadsOf t) := by
    simp only [List.mem_singleton, forall_eq]
    rw [hnew]
    decide +kernel
  have hch : wrapChanged [r] = true := by
    rw [← Bool.not_eq_false]
    intro hf
    rw [ht'] at hsame
    refine hne (hsame.mp ?_)
    unfold wrapChanged at hf
    simpa using hf
  have hn0 : r.num0 = 28 := by
    rw [h0, leafCount_eq]
    simp [collideTree_quads, collideOld]
  have hcount : t'.quads.count = 28 := by
    have : t'.quads.count = (quadsOf t').length := by unfold quadsOf; simp [LArr.toList]
    rw [this, hnew]; rfl
  refine ⟨[collideTree], collideCalls, m, [t'], List.replicate 28 WrapFlag.zero, collide_legal, collide_calls, ?_, ?_, hm, ?_,
    hbal', hne⟩
  · simp only [List.mem_singleton, forall_eq]
    rw [collideTree_quads]
    decide +kernel
  · simpa using hcomp
  · unfold wrapAdapt
    rw [hr]
    change (if wrapChanged [r] = true then _ else _) = _
    rw [hch, if_pos rfl, ht', hb [t'] hbal']
    simp [hn0, hcount, collide_checksum collideTree_quads hnew]

end P4est
