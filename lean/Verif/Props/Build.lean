import Verif.Lemmas.BuildRun

/-! # C42: building a forest leaf by leaf -/

namespace P4est

open Spec

variable {d : ℕ} {α β σ : Type}

theorem buildNew_inv {init : Quad d → σ → α × σ} (mem : ℕ → Leaf d α) (from_ : LocalForest d β) (hT : TemplateOk from_)
    (h0 : 0 ≤ from_.firstLocal) (s : σ) : BuildInv init mem from_ s [] (buildNew mem from_) s (fun _ => s) ∧
      (buildNew mem from_).cur = from_.firstLocal.toNat := by
  unfold buildNew
  dsimp only
  rw [if_pos h0]
  have hf := hT.first h0
  obtain ⟨j, hj⟩ : ∃ j : ℕ, from_.firstLocal = j := ⟨from_.firstLocal.toNat, by omega⟩
  have hjn : from_.firstLocal.toNat = j := by omega
  rw [hjn]
  refine ⟨⟨?_, ?_, rfl, rfl, rfl, rfl, rfl, ?_, ?_, rfl, ?_, ?_, ?_, ?_, ?_, ?_, ?_, ?_, by simp, by simp⟩, rfl⟩
  · simp [buildBegin, hj]
  · simp only [buildBegin]; omega
  · simp [buildBegin]
  · intro i hi
    have hne : i ≠ j := by
      simp only [buildBegin] at hi
      omega
    simp [buildBegin, Build.setTree, hne, freshTree]
  · intro i hi hi2
    simp only [buildBegin] at hi2
    omega
  · simp [buildBegin, Build.setTree, LArr.toList, addsTo, newAdds, initEach]
  · intro i hi
    simp only [buildBegin] at hi
    have : ∀ k < i, quadsOf ((buildBegin (⟨⟨from_.numTrees, from_.firstLocal, from_.lastLocal, from_.fdesc, from_.ldesc,
        fun jt => ⟨⟨mem, 0⟩, fun _ => 0, (from_.trees jt).maxlevel, 0⟩, 0⟩, 0, 0, none⟩ : Build d α) j 0).forest.trees k) = [] := by
      intro k hk
      simp [buildBegin, Build.setTree, show k ≠ j by omega, quadsOf, LArr.toList]
    rw [Finset.sum_eq_zero (fun k hk => by rw [this k (Finset.mem_range.mp hk)]; rfl)]
    by_cases h : i = j
    · subst h; simp [buildBegin, Build.setTree]
    · simp [buildBegin, Build.setTree, h]
  all_goals
    have hq : (buildBegin (⟨⟨from_.numTrees, from_.firstLocal, from_.lastLocal, from_.fdesc, from_.ldesc,
        fun jt => ⟨⟨mem, 0⟩, fun _ => 0, (from_.trees jt).maxlevel, 0⟩, 0⟩, 0, 0, none⟩ : Build d α) j 0).forest.trees j =
        ⟨⟨mem, 0⟩, fun _ => 0, 0, 0⟩ := by
      simp [buildBegin, Build.setTree]
    have hc : ∀ b : Build d α, (buildBegin b j 0).cur = j := fun b => rfl
    have hq0 : quadsOf (⟨⟨mem, 0⟩, fun _ => 0, 0, 0⟩ : Tree d α) = [] := rfl
  · rw [hc, hq]
    exact ⟨fun l => rfl, by rw [hq0]; simp, Or.inr ⟨hq0, rfl⟩⟩
  · rw [hc, hq, hq0]; rfl
  · rw [hc, hq, hq0]; simp
  · rw [hc, hq, hq0]; simp
  · rw [hc, hq, hq0]; exact List.Pairwise.nil

/-- C42. Let a rank call `p4est_build_new` with a valid template, then `p4est_build_add` any number of
times and then `p4est_build_complete`.  Let the added quadrants be legal quadrants of the part of the tree
that the rank owns, in the order of trees and of the curve, without overlap except that a quadrant may be
repeated.  Then the result is complete and the coarsest possible.

* Each call returns whether its quadrant is new.
* The trees, their ends and the range of local trees are the template's.
* In each local tree the leaves cover the part between its ends, in order and without overlap.  The added
  quadrants are leaves, initialized by the callback in force when they were added.  The other leaves are
  as few as possible and initialized by the general callback.  The counters are right (`BuiltTree`).  The
  callbacks see one state, passed on through the trees in order (`S`).
* The other trees have no leaves.
* The offset of each tree is the number of leaves in the trees before it, and the local number of
  quadrants is the number of all leaves.
* The result is valid, and in particular can be a template again. -/
theorem C42_build (hd : 0 < d) (hd3 : d ≤ 3) (bs : (Quad d → ℤ) → List (Quad d) → Option ℕ)
    (init : Quad d → σ → α × σ) (mem : ℕ → Leaf d α) (from_ : LocalForest d β) (hT : TemplateOk from_)
    (h0 : 0 ≤ from_.firstLocal) (ops : List (AddOp d α σ)) (s : σ)
    (hops : ∀ o ∈ ops, from_.firstLocal ≤ o.tree ∧ o.tree ≤ from_.lastLocal ∧ Valid o.q ∧
      Cells o.q ⊆ Section (from_.fdesc o.tree) (from_.ldesc o.tree))
    (hord : ops.Pairwise AddOrder) :
    ∃ (p : LocalForest d α) (s' : σ) (S : ℕ → σ),
      buildForest bs init mem from_ ops s = some (p, s', (newAdds [] ops).2) ∧
      (p.numTrees = from_.numTrees ∧ p.firstLocal = from_.firstLocal ∧ p.lastLocal = from_.lastLocal ∧
        p.fdesc = from_.fdesc ∧ p.ldesc = from_.ldesc) ∧
      (∀ jt : ℕ, p.firstLocal ≤ jt → jt ≤ p.lastLocal →
        let added := initEach ((newAdds [] ops).1.filter (fun o => o.tree = jt)) (S jt)
        BuiltTree init (p.fdesc jt) (p.ldesc jt) added.1 added.2 (p.trees jt) (S (jt + 1))) ∧
      (S p.firstLocal.toNat = s ∧ S (p.lastLocal.toNat + 1) = s') ∧
      (∀ jt < p.numTrees, ¬ (p.firstLocal ≤ jt ∧ jt ≤ p.lastLocal) → quadsOf (p.trees jt) = []) ∧
      (∀ jt < p.numTrees, (p.trees jt).offset = ((∑ k ∈ Finset.range jt, (quadsOf (p.trees k)).length : ℕ) : ℤ)) ∧
      p.localNum = ((∑ k ∈ Finset.range p.numTrees, (quadsOf (p.trees k)).length : ℕ) : ℤ) ∧
      TemplateOk p := by
  obtain ⟨i1, i2⟩ := buildNew_inv (init := init) mem from_ hT h0 s
  have hf := hT.first h0
  obtain ⟨b, s1, S1, rs, k1, k2, k3⟩ := buildAdds_spec hd hd3 bs hT ops [] _ s _ i1
    (fun o ho => by rw [i2]; have := (hops o ho).1; omega) (fun o ho => (hops o (by simpa using ho)).2) (by simpa using hord)
  simp only [List.nil_append, newAdds] at k2 k3
  obtain ⟨b2, s2, S2, k4, k5, k6⟩ := buildAdvance_spec hd hd3 bs hT from_.lastLocal.toNat (by omega) b s1 S1 k2
    (by have := k2.high; omega)
  obtain ⟨t', s3, k7, k8, k9⟩ := k5.finish hd hd3 bs hT
  have hrun : buildForest bs init mem from_ ops s = some
      ({ (b2.setTree b2.cur t').forest with
        localNum := (b2.forest.trees b2.cur).offset + (quadsOf t').length
        trees := fun jt => if (b2.setTree b2.cur t').forest.lastLocal < jt ∧ jt < (b2.setTree b2.cur t').forest.numTrees
          then { (b2.setTree b2.cur t').forest.trees jt with offset := (b2.forest.trees b2.cur).offset + (quadsOf t').length }
          else (b2.setTree b2.cur t').forest.trees jt }, s3, (newAdds [] ops).2) := by
    unfold buildForest
    rw [obind k1]
    dsimp only
    have : buildComplete bs init b s1 = some
      ({ (b2.setTree b2.cur t').forest with
        localNum := (b2.forest.trees b2.cur).offset + (quadsOf t').length
        trees := fun jt => if (b2.setTree b2.cur t').forest.lastLocal < jt ∧ jt < (b2.setTree b2.cur t').forest.numTrees
          then { (b2.setTree b2.cur t').forest.trees jt with offset := (b2.forest.trees b2.cur).offset + (quadsOf t').length }
          else (b2.setTree b2.cur t').forest.trees jt }, s3) := by
      unfold buildComplete
      rw [k2.e2, k2.e3, if_pos hf.1, obind k4]
      dsimp only
      rw [obind k7]
    rw [obind this, k3]
  obtain ⟨p, hp⟩ : ∃ p : LocalForest d α, p = { (b2.setTree b2.cur t').forest with
        localNum := (b2.forest.trees b2.cur).offset + (quadsOf t').length
        trees := fun jt => if (b2.setTree b2.cur t').forest.lastLocal < jt ∧ jt < (b2.setTree b2.cur t').forest.numTrees
          then { (b2.setTree b2.cur t').forest.trees jt with offset := (b2.forest.trees b2.cur).offset + (quadsOf t').length }
          else (b2.setTree b2.cur t').forest.trees jt } := ⟨_, rfl⟩
  rw [← hp] at hrun
  have p1 : p.numTrees = from_.numTrees := by rw [hp]; exact k5.e1
  have p2 : p.firstLocal = from_.firstLocal := by rw [hp]; exact k5.e2
  have p3 : p.lastLocal = from_.lastLocal := by rw [hp]; exact k5.e3
  have p4 : p.fdesc = from_.fdesc := by rw [hp]; exact k5.e4
  have p5 : p.ldesc = from_.ldesc := by rw [hp]; exact k5.e5
  have p6 : p.localNum = (b2.forest.trees b2.cur).offset + (quadsOf t').length := by rw [hp]
  have hcl : (b2.cur : ℤ) = from_.lastLocal := by omega
  have tlow : ∀ jt < b2.cur, p.trees jt = b2.forest.trees jt := by
    intro jt hj
    rw [hp]
    dsimp only
    rw [if_neg (by change ¬ (b2.forest.lastLocal < jt ∧ _); rw [k5.e3]; omega), setTree_ne _ _ (by omega)]
  have tcur : p.trees b2.cur = t' := by
    rw [hp]
    dsimp only
    rw [if_neg (by change ¬ (b2.forest.lastLocal < b2.cur ∧ _); rw [k5.e3]; omega), setTree_cur]
  have thigh : ∀ jt, b2.cur < jt → jt < from_.numTrees →
      p.trees jt = { freshTree mem from_ jt with offset := (b2.forest.trees b2.cur).offset + (quadsOf t').length } := by
    intro jt hj hj2
    rw [hp]
    dsimp only
    rw [if_pos (by
      change b2.forest.lastLocal < jt ∧ jt < b2.forest.numTrees
      rw [k5.e3, k5.e1]; omega), setTree_ne _ _ (by omega), k5.fresh jt (Or.inr hj)]
  have hne : ∀ jt < p.numTrees, ¬ (p.firstLocal ≤ jt ∧ jt ≤ p.lastLocal) → quadsOf (p.trees jt) = [] ∧
      (p.trees jt).maxlevel = (from_.trees jt).maxlevel ∧ ∀ l, (p.trees jt).perLevel l = 0 := by
    intro jt hj hj2
    rw [p1] at hj
    rw [p2, p3] at hj2
    rcases Nat.lt_or_ge b2.cur jt with g | g
    · rw [thigh jt g hj]
      exact ⟨rfl, rfl, fun _ => rfl⟩
    · have : jt ≠ b2.cur := by rintro rfl; exact hj2 ⟨k5.low, k5.high⟩
      rw [tlow jt (by omega), k5.fresh jt (Or.inl (by omega))]
      exact ⟨rfl, rfl, fun _ => rfl⟩
  have hbuilt : ∀ jt : ℕ, p.firstLocal ≤ jt → jt ≤ p.lastLocal →
        BuiltTree init (p.fdesc jt) (p.ldesc jt) (initEach (addsTo ops jt) (S2 jt)).1 (initEach (addsTo ops jt) (S2 jt)).2
          (p.trees jt) (Function.update S2 (b2.cur + 1) s3 (jt + 1)) := by
    intro jt hj hj2
    rw [p2] at hj
    rw [p3] at hj2
    rw [p4, p5]
    rcases Nat.lt_or_ge jt b2.cur with g | g
    · rw [tlow jt g, Function.update_of_ne (by omega)]
      exact k5.built jt hj g
    · have : jt = b2.cur := by omega
      subst this
      rw [tcur, Function.update_self]
      exact k8
  have hoff : ∀ jt ≤ b2.cur, (p.trees jt).offset = ((∑ k ∈ Finset.range jt, (quadsOf (p.trees k)).length : ℕ) : ℤ) := by
    intro jt hj
    rw [sum_length_congr (fun k hk => tlow k (by omega)), ← k5.offset jt hj]
    rcases Nat.lt_or_ge jt b2.cur with g | g
    · rw [tlow jt g]
    · have : jt = b2.cur := by omega
      subst this
      rw [tcur, k9]
  have htotal : p.localNum = ((∑ k ∈ Finset.range (b2.cur + 1), (quadsOf (p.trees k)).length : ℕ) : ℤ) := by
    rw [p6, Finset.sum_range_succ, tcur]
    push_cast
    rw [← k9, ← tcur, hoff _ le_rfl]
    push_cast
    rfl
  have hsum : ∀ n, b2.cur + 1 ≤ n → n ≤ p.numTrees → ∑ k ∈ Finset.range n, (quadsOf (p.trees k)).length =
      ∑ k ∈ Finset.range (b2.cur + 1), (quadsOf (p.trees k)).length := by
    intro n hn hn2
    symm
    apply Finset.sum_subset
    · intro k hk
      rw [Finset.mem_range] at hk ⊢
      omega
    · intro k hk hk2
      rw [Finset.mem_range] at hk hk2
      rw [(hne k (by omega) (by rw [p3]; omega)).1]
      rfl
  have hcnt : ∀ jt < p.numTrees, ¬ (p.firstLocal ≤ jt ∧ jt ≤ p.lastLocal) → CountersOk (p.trees jt) := by
    intro jt hj hj2
    obtain ⟨g1, g2, g3⟩ := hne jt hj hj2
    obtain ⟨o1, o2⟩ := hT.others jt (by rw [← p1]; exact hj) (by rw [← p2, ← p3]; exact hj2)
    refine ⟨fun l => by rw [g1, g3]; rfl, by rw [g1]; simp, Or.inr ⟨g1, ?_⟩⟩
    rw [g2]
    rcases o2.2.2 with ⟨q, hq, -⟩ | h
    · rw [o1] at hq; simp at hq
    · exact h.2
  refine ⟨p, s3, Function.update S2 (b2.cur + 1) s3, hrun, ⟨p1, p2, p3, p4, p5⟩, ?_, ⟨?_, ?_⟩, fun jt h1 h2 => (hne jt h1 h2).1,
    ?_, ?_, ?_⟩
  · intro jt hj hj2
    dsimp only
    have := hbuilt jt hj hj2
    have hne : Function.update S2 (b2.cur + 1) s3 jt = S2 jt := Function.update_of_ne (by rw [p3] at hj2; omega) _ _
    rw [hne]
    exact this
  · rw [Function.update_of_ne (by rw [p2]; omega), p2]; exact k5.s0
  · rw [p3, ← k6, Function.update_self]
  · intro jt hj
    rcases Nat.lt_or_ge b2.cur jt with g | g
    · rw [hsum jt (by omega) (by omega), ← htotal, thigh jt g (by rw [← p1]; exact hj), p6]
    · exact hoff jt g
  · rw [hsum _ (by rw [p1]; omega) le_rfl]; exact htotal
  · refine ⟨by rw [p1, p2, p3]; exact hT.first, by rw [p2, p3]; exact hT.empty, ?_, ?_, ?_, ?_⟩
    · rw [p2, p3, p4]; exact hT.fdesc
    · rw [p2, p3, p5]; exact hT.ldesc
    · intro jt hj hj2
      have hb := hbuilt jt hj hj2
      refine ⟨?_, hb.tiles, hb.counters⟩
      intro hnil
      obtain ⟨l1, l2, -⟩ := hT.leaves jt (by rw [← p2]; exact hj) (by rw [← p3]; exact hj2)
      obtain ⟨q, hq⟩ := List.exists_mem_of_ne_nil _ l1
      have h1 : q.c ∈ Cover (quadsOf (from_.trees jt)) := ⟨q, hq, corner_mem q⟩
      rw [l2.cover, ← p4, ← p5, ← hb.tiles.cover, hnil] at h1
      obtain ⟨r, hr, -⟩ := h1
      simp at hr
    · intro jt hj hj2
      exact ⟨(hne jt hj hj2).1, hcnt jt hj hj2⟩

/-- C42 on a rank without trees: `p4est_build_complete` after `p4est_build_new` yields a forest without
leaves on this rank. -/
theorem C42_build_empty_rank (bs : (Quad d → ℤ) → List (Quad d) → Option ℕ)
    (init : Quad d → σ → α × σ) (mem : ℕ → Leaf d α) (from_ : LocalForest d β) (hT : TemplateOk from_)
    (h0 : from_.firstLocal < 0) (s : σ) :
    ∃ p : LocalForest d α, buildForest bs init mem from_ [] s = some (p, s, []) ∧
      (p.numTrees = from_.numTrees ∧ p.firstLocal = from_.firstLocal ∧ p.lastLocal = from_.lastLocal) ∧
      (∀ jt < p.numTrees, quadsOf (p.trees jt) = [] ∧ CountersOk (p.trees jt) ∧ (p.trees jt).offset = 0) ∧
      p.localNum = 0 := by
  have he := hT.empty h0
  refine ⟨(buildNew mem from_).forest, ?_, ?_, ?_, ?_⟩
  · unfold buildForest buildAdds buildComplete
    simp only [buildNew, if_neg (not_le.mpr h0), if_neg (not_le.mpr he), Option.bind_eq_bind, Option.bind_some]
  · simp only [buildNew, if_neg (not_le.mpr h0)]; exact ⟨trivial, trivial, trivial⟩
  · intro jt hj
    simp only [buildNew, if_neg (not_le.mpr h0)] at hj ⊢
    obtain ⟨o1, o2⟩ := hT.others jt hj (by omega)
    refine ⟨rfl, ⟨fun l => rfl, by intro q hq; simp [quadsOf, LArr.toList] at hq, Or.inr ⟨rfl, ?_⟩⟩, trivial⟩
    rcases o2.2.2 with ⟨q, hq, -⟩ | h
    · rw [o1] at hq; simp at hq
    · exact h.2
  · simp only [buildNew, if_neg (not_le.mpr h0)]

/-- A template for the examples: the rank owns the last three quarters of tree 0 and all of tree 1, out of
three trees. -/
def exampleTemplate : LocalForest 2 Unit where
  numTrees := 3
  firstLocal := 0
  lastLocal := 1
  fdesc := fun jt => if jt = 0 then firstDesc (child (root 2) 1) 29 else firstDesc (root 2) 29
  ldesc := fun _ => lastDesc (root 2) 29
  trees := fun jt =>
    if jt = 0 then ⟨⟨fun i => ⟨child (root 2) (i + 1), ()⟩, 3⟩, fun l => if l = 1 then 3 else 0, 1, 0⟩
    else if jt = 1 then ⟨⟨fun _ => ⟨root 2, ()⟩, 1⟩, fun l => if l = 0 then 1 else 0, 0, 3⟩
    else ⟨⟨fun _ => ⟨root 2, ()⟩, 0⟩, fun _ => 0, 0, 4⟩
  localNum := 4

/-- The example's added quadrants: a quadrant of level 2 of tree 0, twice, and the last quadrant of level 1
of tree 1. -/
def exampleAdds : List (AddOp 2 Unit Unit) :=
  [⟨fun _ s => ((), s), 0, child (child (root 2) 2) 1⟩, ⟨fun _ s => ((), s), 0, child (child (root 2) 2) 1⟩,
   ⟨fun _ s => ((), s), 1, child (root 2) 3⟩]

theorem exampleTemplate_ok : TemplateOk exampleTemplate := by
  have v1 : Valid (firstDesc (child (root 2) 1) 29) := by rw [← isValid_iff]; decide +kernel
  have v2 : Valid (firstDesc (root 2) 29) := by rw [← isValid_iff]; decide +kernel
  have v3 : Valid (lastDesc (root 2) 29) := by rw [← isValid_iff]; decide +kernel
  have w : ∀ k < 4, Valid (child (root 2) k) := by
    intro k hk
    rw [← isValid_iff]
    have : k = 0 ∨ k = 1 ∨ k = 2 ∨ k = 3 := by omega
    rcases this with rfl | rfl | rfl | rfl <;> decide +kernel
  have wr : Valid (root 2) := by rw [← isValid_iff]; decide +kernel
  have q0 : quadsOf (exampleTemplate.trees 0) = [child (root 2) 1, child (root 2) 2, child (root 2) 3] := rfl
  have q1 : quadsOf (exampleTemplate.trees 1) = [root 2] := rfl
  have cases : ∀ jt : ℕ, exampleTemplate.firstLocal ≤ jt → jt ≤ exampleTemplate.lastLocal → jt = 0 ∨ jt = 1 := by
    intro jt _ h
    have : (jt : ℤ) ≤ 1 := h
    omega
  refine ⟨fun _ => by decide, fun h => absurd h (by decide), ?_, ?_, ?_, ?_⟩
  · intro jt h1 h2
    rcases cases jt h1 h2 with rfl | rfl
    · exact ⟨v1, rfl⟩
    · exact ⟨v2, rfl⟩
  · intro jt h1 h2
    exact ⟨v3, rfl⟩
  · intro jt h1 h2
    rcases cases jt h1 h2 with rfl | rfl
    · refine ⟨by rw [q0]; simp, ?_, ?_, ?_, ?_⟩
      · rw [q0]
        change Tiles (firstDesc (child (root 2) 1) 29) (lastDesc (root 2) 29) _
        rw [tiles_iff (by decide) v1 v3 (by decide +kernel) (by simp [w])]
        unfold Path Path Path Path
        decide +kernel
      · intro l
        rw [q0]
        by_cases hl : l = 1
        · subst hl; rfl
        · have : ¬ (root 2).level + 1 = l := fun h => hl (h ▸ rfl)
          simp [exampleTemplate, List.countP_cons, hl, this]
      · rw [q0]; simp [exampleTemplate, root]
      · left; rw [q0]; exact ⟨child (root 2) 1, by simp, rfl⟩
    · refine ⟨by rw [q1]; simp, ?_, ?_, ?_, ?_⟩
      · rw [q1]
        change Tiles (firstDesc (root 2) 29) (lastDesc (root 2) 29) _
        rw [tiles_iff (by decide) v2 v3 (by decide +kernel) (by simp [wr])]
        unfold Path Path
        decide +kernel
      · intro l
        rw [q1]
        by_cases hl : l = 0
        · subst hl; rfl
        · have : ¬ (root 2).level = l := fun h => hl (h ▸ rfl)
          simp [exampleTemplate, List.countP_cons, hl, this]
      · rw [q1]; simp [exampleTemplate, root]
      · left; rw [q1]; exact ⟨root 2, by simp, rfl⟩
  · intro jt hj hn
    have hj : jt < 3 := hj
    have : jt = 2 := by
      have : ¬ ((0 : ℤ) ≤ jt ∧ (jt : ℤ) ≤ 1) := hn
      omega
    subst this
    exact ⟨rfl, fun l => rfl, by intro q hq; simp [exampleTemplate, quadsOf, LArr.toList] at hq, Or.inr ⟨rfl, rfl⟩⟩

/-- The hypotheses of C42 hold of the example; the second call returns false. -/
theorem C42_example : TemplateOk exampleTemplate ∧ 0 ≤ exampleTemplate.firstLocal ∧
    (∀ o ∈ exampleAdds, exampleTemplate.firstLocal ≤ o.tree ∧ o.tree ≤ exampleTemplate.lastLocal ∧ Valid o.q ∧
      Cells o.q ⊆ Section (exampleTemplate.fdesc o.tree) (exampleTemplate.ldesc o.tree)) ∧
    exampleAdds.Pairwise AddOrder ∧ (newAdds [] exampleAdds).2 = [true, false, true] := by
  have w1 : Valid (child (child (root 2) 2) 1) := by rw [← isValid_iff]; decide +kernel
  have w2 : Valid (child (root 2) 3) := by rw [← isValid_iff]; decide +kernel
  have s1 : Cells (child (child (root 2) 2) 1) ⊆ Section (exampleTemplate.fdesc 0) (exampleTemplate.ldesc 0) := by
    rw [section_iff (by decide) w1]; decide +kernel
  have s2 : Cells (child (root 2) 3) ⊆ Section (exampleTemplate.fdesc 1) (exampleTemplate.ldesc 1) := by
    rw [section_iff (by decide) w2]; decide +kernel
  refine ⟨exampleTemplate_ok, by decide, ?_, ?_, ?_⟩
  · intro o ho
    simp only [exampleAdds, List.mem_cons, List.not_mem_nil, or_false] at ho
    rcases ho with rfl | rfl | rfl
    · exact ⟨by decide, by decide, w1, s1⟩
    · exact ⟨by decide, by decide, w1, s1⟩
    · exact ⟨by decide, by decide, w2, s2⟩
  · simp [exampleAdds, AddOrder]
  · simp [exampleAdds, newAdds]

end P4est
