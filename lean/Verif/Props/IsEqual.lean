import Verif.Props.IsValid
import Verif.Props.Partition
import Verif.Props.ConnPermute
import Mathlib.Tactic.IntervalCases

/-! # C89: the comparison of two forests

Members of forests are built for any distribution of leaves, so that legal forests exist; then the comparison. -/

namespace P4est
open Spec

variable {d : ℕ} {α : Type}

/-! ### Legal forests for any distribution -/

/-- The members of a tree with given leaves. -/
def describeTree (before : ℕ) (qs : List (Quad d × α)) : TreeMembers d α :=
  ⟨qs, fun l => if l = 30 then -1 else ((qs.filter fun q => q.1.level = l).length : ℤ), ((qs.map fun q => q.1.level).foldr max 0 : ℕ),
    before, qs.head?.map fun q => ⟨q.1.c, 29⟩, qs.getLast?.map fun q => ⟨fun i => q.1.c i + 2 ^ (30 - q.1.level) - 2, 29⟩⟩

/-- The members of all trees of a rank. -/
def describeTrees : ℕ → List (List (Quad d × α)) → List (TreeMembers d α)
  | _, [] => []
  | before, qs :: rest => describeTree before qs :: describeTrees (before + qs.length) rest

/-- The members of a rank, from the leaves of the trees of all ranks. -/
def describeForest (conn : FaceConn) (dataSize P : ℕ) (lists : ℕ → List (List (Quad d × α))) (r : ℕ) : ForestMembers d α :=
  let leaves := fun r => forestLeaves ((lists r).map fun l => l.map Prod.fst)
  ⟨P, r, false, 0, conn, dataSize, describeTrees 0 (lists r), ((leaves r).head?.map fun x => (x.1 : ℤ)).getD (-1),
    ((leaves r).getLast?.map fun x => (x.1 : ℤ)).getD (-2), (leaves r).length, ((List.range P).flatMap leaves).length,
    (List.range (P + 1)).map fun p => (((List.range p).flatMap leaves).length : ℤ),
    (List.range (P + 1)).map fun p => (29, firstPosition P conn.numTrees leaves p)⟩

theorem foldr_max_mem (l : List ℕ) (h : l ≠ []) : l.foldr max 0 ∈ l ∧ ∀ x ∈ l, x ≤ l.foldr max 0 := by
  induction l with
  | nil => exact absurd rfl h
  | cons a l ih =>
    by_cases hl : l = []
    · subst hl; simp
    · obtain ⟨h1, h2⟩ := ih hl
      rw [List.foldr_cons]
      refine ⟨?_, ?_⟩
      · rcases le_total a (l.foldr max 0) with k | k
        · rw [max_eq_right k]; simp [h1]
        · rw [max_eq_left k]; simp
      · intro x hx
        rcases List.mem_cons.mp hx with rfl | hx
        · exact le_max_left _ _
        · exact le_max_of_le_right (h2 x hx)

theorem describeTree_legal (before : ℕ) (qs : List (Quad d × α)) : TreeLegal before (describeTree before qs) where
  offset := rfl
  perLevel := by
    intro l hl
    show (if l = 30 then (-1 : ℤ) else _) = _
    rw [if_neg (by omega)]
    rfl
  unused := rfl
  maxlevel := by
    refine ⟨fun h => ?_, fun h => ?_⟩
    · have : qs = [] := h
      subst this
      rfl
    · have hne : qs.map (fun q => q.1.level) ≠ [] := fun k => h (List.map_eq_nil_iff.mp k)
      obtain ⟨h1, h2⟩ := foldr_max_mem _ hne
      obtain ⟨q, hq, hq'⟩ := List.mem_map.mp h1
      refine ⟨⟨q, hq, congrArg Nat.cast hq'⟩, fun q hq => ?_⟩
      exact Int.ofNat_le.mpr (h2 _ (List.mem_map.mpr ⟨q, hq, rfl⟩))
  firstDesc := rfl
  lastDesc := rfl

theorem describeTrees_quads : ∀ (ls : List (List (Quad d × α))) (b : ℕ), (describeTrees b ls).map (·.quads) = ls := by
  intro ls
  induction ls with
  | nil => intro b; rfl
  | cons a l ih => intro b; rw [describeTrees, List.map_cons, ih]; rfl

theorem describeTrees_legal : ∀ (ls : List (List (Quad d × α))) (b t : ℕ) (tr : TreeMembers d α), (describeTrees b ls)[t]? = some tr →
    TreeLegal (b + (((describeTrees b ls).take t).flatMap (·.quads)).length) tr := by
  intro ls
  induction ls with
  | nil => intro b t tr h; simp [describeTrees] at h
  | cons a l ih =>
    intro b t tr h
    rw [describeTrees] at h ⊢
    cases t with
    | zero =>
      simp only [List.getElem?_cons_zero, Option.some.injEq] at h
      subst h
      exact describeTree_legal b a
    | succ t =>
      rw [List.take_succ_cons, List.flatMap_cons, List.length_append, ← Nat.add_assoc]
      exact ih (b + a.length) t tr (by simpa using h)

/-- Whatever the distribution of the leaves is, there is a legal forest with it. -/
theorem describe_legal (conn : FaceConn) (dataSize P : ℕ) (lists : ℕ → List (List (Quad d × α))) (trees : List (List (Quad d)))
    (hconn : conn.numTrees = trees.length) (hlen : ∀ r < P, (lists r).length = trees.length)
    (h : Distributed trees P fun r => forestLeaves ((lists r).map fun l => l.map Prod.fst)) : LegalForest P (describeForest conn dataSize P lists) trees := by
  have hr : ∀ r, rankLeaves (describeForest conn dataSize P lists r) = forestLeaves ((lists r).map fun l => l.map Prod.fst) := by
    intro r
    unfold rankLeaves
    congr 1
    show (describeTrees 0 (lists r)).map _ = _
    conv_rhs => rw [← describeTrees_quads (lists r) 0]
    rw [List.map_map]
    rfl
  have hr' : (fun r => rankLeaves (describeForest conn dataSize P lists r)) = fun r => forestLeaves ((lists r).map fun l => l.map Prod.fst) := funext hr
  have htl : ∀ r, (describeForest conn dataSize P lists r).trees.length = (lists r).length := by
    intro r
    show (describeTrees 0 (lists r)).length = _
    rw [← List.length_map (f := (·.quads)), describeTrees_quads]
  refine ⟨by rw [hr']; exact h, ?_, ?_, ?_, ?_⟩
  · intro r hrP
    refine ⟨rfl, rfl, by rw [htl, hlen r hrP], rfl, le_rfl, ?_, ?_, ?_, ?_, ?_, ?_⟩
    · rw [htl, hlen r hrP]; exact hconn
    · intro t tr ht
      have := describeTrees_legal (lists r) 0 t tr ht
      rwa [Nat.zero_add] at this
    · intro he
      rw [hr] at he
      have h1 : (describeForest conn dataSize P lists r).first = ((forestLeaves ((lists r).map fun l => l.map Prod.fst)).head?.map fun x => (x.1 : ℤ)).getD (-1) := rfl
      have h2 : (describeForest conn dataSize P lists r).last = ((forestLeaves ((lists r).map fun l => l.map Prod.fst)).getLast?.map fun x => (x.1 : ℤ)).getD (-2) := rfl
      rw [h1, h2, he]
      exact ⟨rfl, rfl⟩
    · intro x hx
      rw [hr] at hx
      have h1 : (describeForest conn dataSize P lists r).first = ((forestLeaves ((lists r).map fun l => l.map Prod.fst)).head?.map fun x => (x.1 : ℤ)).getD (-1) := rfl
      rw [h1, hx]; rfl
    · intro x hx
      rw [hr] at hx
      have h2 : (describeForest conn dataSize P lists r).last = ((forestLeaves ((lists r).map fun l => l.map Prod.fst)).getLast?.map fun x => (x.1 : ℤ)).getD (-2) := rfl
      rw [h2, hx]; rfl
    · rw [hr]; rfl
  · intro r hrP
    show ((((List.range P).flatMap fun r => forestLeaves ((lists r).map fun l => l.map Prod.fst)).length : ℕ) : ℤ) = _
    rw [h.split]
  · intro r hrP
    rw [hr']; rfl
  · intro r hrP
    rw [hr', ← hconn]; rfl

/-! ### The comparison -/

/-- The leaves of the trees of a rank. -/
def leavesByTree (f : ForestMembers d α) : List (List (Quad d)) := f.trees.map fun t => t.quads.map Prod.fst

/-- The leaves of the trees of a rank with their data. -/
def dataByTree (f : ForestMembers d α) : List (List (Quad d × α)) := f.trees.map fun t => t.quads

theorem legal_valid (hd : 0 < d) {P : ℕ} {fs : ℕ → ForestMembers d α} {trees : List (List (Quad d))} (h : LegalForest P fs trees) {r : ℕ} (hr : r < P) :
    ∀ t ∈ (fs r).trees, ∀ q ∈ t.quads, Valid q.1 := by
  obtain ⟨s, hs⟩ := h.distributed.segments hd
  intro tr ht q hq
  obtain ⟨k, hk⟩ := List.mem_iff_getElem?.mp ht
  have hm : (0 + k, q.1) ∈ rankLeaves (fs r) := tagFrom_mem (l := tr.quads.map Prod.fst) (by rw [List.getElem?_map, hk]; rfl) (List.mem_map.mpr ⟨q, hq, rfl⟩)
  exact (hs.leaf r hr _ hm).2

/-- A legal rank is empty, or its first and last trees are trees of the forest. -/
theorem legal_range {f : ForestMembers d α} (h : RankLegal f) : (f.first = -1 ∧ f.last = -2) ∨ (0 ≤ f.first ∧ f.first ≤ f.last ∧ f.last < f.trees.length) := by
  cases hh : (rankLeaves f).head? with
  | none => exact Or.inl (h.empty (List.head?_eq_none_iff.mp hh))
  | some x =>
    cases hg : (rankLeaves f).getLast? with
    | none => rw [List.getLast?_eq_none_iff] at hg; rw [hg] at hh; simp at hh
    | some y =>
      right
      rw [h.first x hh, h.last y hg]
      obtain ⟨-, l, hy1, -⟩ := tagFrom_last (t := y.1) (q := y.2) hg
      have := (List.getElem?_eq_some_iff.mp hy1).1
      rw [List.length_map] at this
      have h2 : x.1 ≤ y.1 := le_last (r := fun x y : ℕ × Quad d => x.1 ≤ y.1) (fun _ => le_rfl) (tagFrom_sorted (n := 0)) hg (List.mem_of_head? hh)
      refine ⟨by omega, by omega, by omega⟩

theorem treeLegal_congr {b : ℕ} {t1 t2 : TreeMembers d α} (h1 : TreeLegal b t1) (h2 : TreeLegal b t2) (hq : t1.quads.map Prod.fst = t2.quads.map Prod.fst) :
    t1.firstDesc = t2.firstDesc ∧ t1.lastDesc = t2.lastDesc ∧ t1.offset = t2.offset ∧ (∀ i < QMAXLEVEL + 2, t1.perLevel i = t2.perLevel i) ∧
      t1.maxlevel = t2.maxlevel := by
  have hhead : ∀ t : TreeMembers d α, (t.quads.head?.map fun q => (⟨q.1.c, 29⟩ : Quad d)) = ((t.quads.map Prod.fst).head?.map fun q => ⟨q.c, 29⟩) := by
    intro t; rw [List.head?_map, Option.map_map]; rfl
  have hlast : ∀ t : TreeMembers d α, (t.quads.getLast?.map fun q => (⟨fun i => q.1.c i + 2 ^ (30 - q.1.level) - 2, 29⟩ : Quad d)) =
      ((t.quads.map Prod.fst).getLast?.map fun q => ⟨fun i => q.c i + 2 ^ (30 - q.level) - 2, 29⟩) := by
    intro t; rw [List.getLast?_map, Option.map_map]; rfl
  have hcount : ∀ (t : TreeMembers d α) (l : ℕ), (t.quads.filter fun q => q.1.level = l).length = ((t.quads.map Prod.fst).filter fun q => q.level = l).length := by
    intro t l; rw [List.filter_map, List.length_map]; rfl
  refine ⟨by rw [h1.firstDesc, h2.firstDesc, hhead, hhead, hq], by rw [h1.lastDesc, h2.lastDesc, hlast, hlast, hq], by rw [h1.offset, h2.offset], ?_, ?_⟩
  · intro i hi
    have hi' : i < 29 + 2 := hi
    rcases Nat.lt_or_ge i 30 with k | k
    · rw [h1.perLevel i (by omega), h2.perLevel i (by omega), hcount, hcount, hq]
    · rw [show i = 30 by omega, h1.unused, h2.unused]
  · by_cases hne : t1.quads = []
    · rw [h1.maxlevel.1 hne]
      rw [hne, List.map_nil] at hq
      rw [h2.maxlevel.1 (List.map_eq_nil_iff.mp hq.symm)]
    · have hne2 : t2.quads ≠ [] := by
        intro k
        rw [k, List.map_nil] at hq
        exact hne (List.map_eq_nil_iff.mp hq)
      obtain ⟨⟨q, hq1, e1⟩, b1⟩ := h1.maxlevel.2 hne
      obtain ⟨⟨q', hq2, e2⟩, b2⟩ := h2.maxlevel.2 hne2
      have m1 : q.1 ∈ t2.quads.map Prod.fst := hq ▸ List.mem_map.mpr ⟨q, hq1, rfl⟩
      have m2 : q'.1 ∈ t1.quads.map Prod.fst := hq ▸ List.mem_map.mpr ⟨q', hq2, rfl⟩
      obtain ⟨p, hp, ep⟩ := List.mem_map.mp m1
      obtain ⟨p', hp', ep'⟩ := List.mem_map.mp m2
      have k1 := b2 p hp
      have k2 := b1 p' hp'
      rw [ep] at k1
      rw [ep'] at k2
      omega

theorem zip_all_iff [DecidableEq α] (cmp : Bool) : ∀ l1 l2 : List (Quad d × α), l1.length = l2.length →
    (((l1.zip l2).all fun x => isEqual x.1.1 x.2.1 && (!cmp || decide (x.1.2 = x.2.2))) = true ↔
      l1.map Prod.fst = l2.map Prod.fst ∧ (cmp = true → l1 = l2)) := by
  intro l1
  induction l1 with
  | nil =>
    intro l2 h
    cases l2 with
    | nil => simp
    | cons b l2 => simp at h
  | cons a l1 ih =>
    intro l2 h
    cases l2 with
    | nil => simp at h
    | cons b l2 =>
      rw [List.zip_cons_cons, List.all_cons, Bool.and_eq_true, ih l2 (by simpa using h), Bool.and_eq_true, isEqual_iff]
      simp only [List.map_cons, List.cons.injEq, Bool.or_eq_true, Bool.not_eq_true', decide_eq_true_eq]
      constructor
      · rintro ⟨⟨h1, h2⟩, h3, h4⟩
        refine ⟨⟨h1, h3⟩, fun hc => ⟨?_, h4 hc⟩⟩
        rcases h2 with k | k
        · rw [hc] at k; simp at k
        · exact Prod.ext h1 k
      · rintro ⟨⟨h1, h2⟩, h3⟩
        refine ⟨⟨h1, ?_⟩, h2, fun hc => (h3 hc).2⟩
        cases cmp with
        | false => simp
        | true => right; rw [(h3 rfl).1]

theorem treesEqual_sound [DecidableEq α] {cmp : Bool} {t1 t2 : TreeMembers d α} (h : treesEqual cmp t1 t2 = true) :
    t1.quads.map Prod.fst = t2.quads.map Prod.fst ∧ (cmp = true → t1.quads = t2.quads) := by
  unfold treesEqual at h
  simp only [Bool.and_eq_true, decide_eq_true_eq] at h
  exact (zip_all_iff cmp _ _ h.1.2).mp h.2

theorem treesEqual_complete [DecidableEq α] {cmp : Bool} {b : ℕ} {t1 t2 : TreeMembers d α} (h1 : TreeLegal b t1) (h2 : TreeLegal b t2)
    (hq : t1.quads.map Prod.fst = t2.quads.map Prod.fst) (hc : cmp = true → t1.quads = t2.quads) : treesEqual cmp t1 t2 = true := by
  obtain ⟨e1, e2, e3, e4, e5⟩ := treeLegal_congr h1 h2 hq
  have hl : t1.quads.length = t2.quads.length := by simpa using congrArg List.length hq
  unfold treesEqual
  simp only [Bool.and_eq_true, decide_eq_true_eq]
  exact ⟨⟨⟨⟨⟨⟨e1, e2⟩, e3⟩, e4⟩, e5⟩, hl⟩, (zip_all_iff cmp _ _ hl).mpr ⟨hq, hc⟩⟩

theorem mapM_total {β γ : Type} {f : β → Option γ} {g : β → γ} : ∀ {l : List β}, (∀ x ∈ l, f x = some (g x)) → l.mapM f = some (l.map g) := by
  intro l
  induction l with
  | nil => intro _; rfl
  | cons a l ih =>
    intro h
    rw [List.mapM_cons, h a (by simp), ih fun x hx => h x (by simp [hx])]
    rfl

/-- The leaves of a rank are equal in two lists of trees if they are the same in each tree, and the leaves before a tree as well. -/
theorem before_congr {l1 l2 : List (TreeMembers d α)} (h : l1.map (fun t => t.quads.map Prod.fst) = l2.map fun t => t.quads.map Prod.fst) (t : ℕ) :
    ((l1.take t).flatMap (·.quads)).length = ((l2.take t).flatMap (·.quads)).length := by
  have key : ∀ l : List (TreeMembers d α), ((l.take t).flatMap (·.quads)).length = (((l.map fun t => t.quads.map Prod.fst).take t).map List.length).sum := by
    intro l
    rw [List.length_flatMap, ← List.map_take, List.map_map]
    congr 1
    apply List.map_congr_left
    intro a _
    simp
  rw [key, key, h]

/-- **C89.**  `p4est_is_equal` compares legal forests: it always has a result, without access out of bounds; if the result is true
on a rank, the leaves of this rank are the same in all trees, and if data is compared also its size and, unless this is
zero, the data itself; and if all this is the same on all ranks then the result is true on all of them. -/
theorem C89_is_equal [DecidableEq α] (hd : 0 < d) (hd3 : d ≤ 3) (P : ℕ) (fs gs : ℕ → ForestMembers d α) (trees trees' : List (List (Quad d)))
    (hf : LegalForest P fs trees) (hg : LegalForest P gs trees') (cmp : Bool) :
    (∀ r < P, ∃ b, isEqualLocal (fs r) (gs r) cmp = some b ∧ (b = true → leavesByTree (fs r) = leavesByTree (gs r) ∧
      (cmp = true → (fs r).dataSize = (gs r).dataSize ∧ ((fs r).dataSize ≠ 0 → dataByTree (fs r) = dataByTree (gs r))))) ∧
    ((∀ r < P, leavesByTree (fs r) = leavesByTree (gs r) ∧
      (cmp = true → (fs r).dataSize = (gs r).dataSize ∧ ((fs r).dataSize ≠ 0 → dataByTree (fs r) = dataByTree (gs r)))) →
      ∀ r < P, isEqualLocal (fs r) (gs r) cmp = some true) := by
  have hvf := C88_accepts hd hd3 P fs trees hf
  have hvg := C88_accepts hd hd3 P gs trees' hg
  refine ⟨?_, ?_⟩
  · intro r hr
    obtain ⟨fsize, frank, flen, fl⟩ := hf.ranks r hr
    obtain ⟨gsize, grank, glen, gl⟩ := hg.ranks r hr
    unfold isEqualLocal
    by_cases c1 : (fs r).mpisize ≠ (gs r).mpisize ∨ (fs r).mpirank ≠ (gs r).mpirank
    · exact ⟨false, by rw [if_pos c1], by simp⟩
    rw [if_neg c1]
    by_cases c2 : cmp = true ∧ (fs r).dataSize ≠ (gs r).dataSize
    · exact ⟨false, by rw [if_pos c2], by simp⟩
    rw [if_neg c2]
    by_cases c3 : (fs r).first ≠ (gs r).first ∨ (fs r).last ≠ (gs r).last ∨ (fs r).localNum ≠ (gs r).localNum ∨ (fs r).globalNum ≠ (gs r).globalNum
    · exact ⟨false, by rw [if_pos c3], by simp⟩
    rw [if_neg c3]
    by_cases c4 : (fs r).gfq ≠ (gs r).gfq ∨ (fs r).gfp ≠ (gs r).gfp
    · exact ⟨false, by rw [if_pos c4], by simp⟩
    rw [if_neg c4]
    push Not at c2 c3 c4
    -- the number of trees is in the last position
    have hT : trees.length = trees'.length := by
      have h1 := c4.2
      rw [hf.gfp r hr, hg.gfp r hr] at h1
      have h2 := congrArg (·[P]?) h1
      simp only [List.getElem?_map, List.getElem?_range (Nat.lt_succ_self P), Option.map_some, Option.some.injEq, Prod.mk.injEq, firstPosition,
        Nat.sub_self, List.range'_zero, List.flatMap_nil, GPos.mk.injEq] at h2
      exact_mod_cast h2.2.1
    have htot : ∀ jt ∈ List.range' (fs r).first.toNat ((fs r).last + 1 - (fs r).first).toNat, ∃ t1 t2, (fs r).trees[jt]? = some t1 ∧ (gs r).trees[jt]? = some t2 := by
      intro jt hjt
      rw [List.mem_range'_1] at hjt
      have : jt < (fs r).trees.length := by
        rcases legal_range fl with k | k <;> omega
      exact ⟨_, _, List.getElem?_eq_getElem this, List.getElem?_eq_getElem (by omega)⟩
    have hm := mapM_total (l := List.range' (fs r).first.toNat ((fs r).last + 1 - (fs r).first).toNat)
      (f := fun jt => do
        let t1 ← (fs r).trees[jt]?
        let t2 ← (gs r).trees[jt]?
        some (treesEqual (cmp && decide ((fs r).dataSize ≠ 0)) t1 t2))
      (g := fun jt => match (fs r).trees[jt]?, (gs r).trees[jt]? with
        | some t1, some t2 => treesEqual (cmp && decide ((fs r).dataSize ≠ 0)) t1 t2
        | _, _ => false) (by
          intro jt hjt
          obtain ⟨t1, t2, e1, e2⟩ := htot jt hjt
          simp [e1, e2])
    refine ⟨_, by rw [hm]; rfl, ?_⟩
    intro hall
    have hlen : (fs r).trees.length = (gs r).trees.length := by omega
    have htree : ∀ (jt : ℕ) (t1 t2 : TreeMembers d α), (fs r).trees[jt]? = some t1 → (gs r).trees[jt]? = some t2 →
        t1.quads.map Prod.fst = t2.quads.map Prod.fst ∧ (cmp = true → (fs r).dataSize ≠ 0 → t1.quads = t2.quads) := by
      intro jt t1 t2 e1 e2
      by_cases hin : (fs r).first ≤ jt ∧ (jt : ℤ) ≤ (fs r).last
      · have hmem : jt ∈ List.range' (fs r).first.toNat ((fs r).last + 1 - (fs r).first).toNat := by
          rw [List.mem_range'_1]; omega
        have := List.all_eq_true.mp hall _ (List.mem_map.mpr ⟨jt, hmem, rfl⟩)
        simp only [e1, e2, id] at this
        obtain ⟨k1, k2⟩ := treesEqual_sound this
        exact ⟨k1, fun hc hn => k2 (by simp [hc, hn])⟩
      · have n1 : t1.quads = [] := by
          by_contra k
          exact hin (((C88_sound_partial hd hd3 P fs hvf r hr fun t ht q hq => (legal_valid hd hf hr t ht q hq).extended).2.2 jt t1 e1).1 k)
        have n2 : t2.quads = [] := by
          by_contra k
          have := ((C88_sound_partial hd hd3 P gs hvg r hr fun t ht q hq => (legal_valid hd hg hr t ht q hq).extended).2.2 jt t2 e2).1 k
          rw [← c3.1, ← c3.2.1] at this
          exact hin this
        rw [n1, n2]
        exact ⟨rfl, fun _ _ => rfl⟩
    refine ⟨?_, fun hc => ⟨c2 hc, fun hn => ?_⟩⟩
    · unfold leavesByTree
      refine List.ext_getElem (by rw [List.length_map, List.length_map, hlen]) ?_
      intro i h1 h2
      rw [List.getElem_map, List.getElem_map]
      rw [List.length_map] at h1 h2
      exact (htree i _ _ (List.getElem?_eq_getElem h1) (List.getElem?_eq_getElem h2)).1
    · unfold dataByTree
      refine List.ext_getElem (by rw [List.length_map, List.length_map, hlen]) ?_
      intro i h1 h2
      rw [List.getElem_map, List.getElem_map]
      rw [List.length_map] at h1 h2
      exact (htree i _ _ (List.getElem?_eq_getElem h1) (List.getElem?_eq_getElem h2)).2 hc hn
  · intro hall r hr
    obtain ⟨fsize, frank, flen, fl⟩ := hf.ranks r hr
    obtain ⟨gsize, grank, glen, gl⟩ := hg.ranks r hr
    obtain ⟨hr1, hr2⟩ := hall r hr
    have hlen : (fs r).trees.length = (gs r).trees.length := by simpa [leavesByTree] using congrArg List.length hr1
    have hT : trees.length = trees'.length := by omega
    have hrl : ∀ p < P, rankLeaves (fs p) = rankLeaves (gs p) := fun p hp => congrArg forestLeaves (hall p hp).1
    have hflat : ∀ l : List ℕ, (∀ p ∈ l, p < P) → l.flatMap (fun p => rankLeaves (fs p)) = l.flatMap fun p => rankLeaves (gs p) := by
      intro l hl
      induction l with
      | nil => rfl
      | cons a l ih => rw [List.flatMap_cons, List.flatMap_cons, hrl a (hl a (by simp)), ih fun p hp => hl p (by simp [hp])]
    have hsp : forestLeaves trees = forestLeaves trees' := by
      rw [← hf.distributed.split, ← hg.distributed.split]
      exact hflat _ fun p hp => List.mem_range.mp hp
    have e1 : (fs r).first = (gs r).first := by
      cases hh : (rankLeaves (fs r)).head? with
      | none =>
        have := List.head?_eq_none_iff.mp hh
        rw [(fl.empty this).1, (gl.empty (by rw [← hrl r hr]; exact this)).1]
      | some x => rw [fl.first x hh, gl.first x (by rw [← hrl r hr]; exact hh)]
    have e2 : (fs r).last = (gs r).last := by
      cases hh : (rankLeaves (fs r)).getLast? with
      | none =>
        have := List.getLast?_eq_none_iff.mp hh
        rw [(fl.empty this).2, (gl.empty (by rw [← hrl r hr]; exact this)).2]
      | some x => rw [fl.last x hh, gl.last x (by rw [← hrl r hr]; exact hh)]
    have e3 : (fs r).localNum = (gs r).localNum := by rw [fl.localNum, gl.localNum, hrl r hr]
    have e4 : (fs r).globalNum = (gs r).globalNum := by rw [hf.globalNum r hr, hg.globalNum r hr, hsp]
    have e5 : (fs r).gfq = (gs r).gfq := by
      rw [hf.gfq r hr, hg.gfq r hr]
      apply List.map_congr_left
      intro p hp
      rw [List.mem_range] at hp
      rw [hflat _ fun q hq => by rw [List.mem_range] at hq; omega]
    have e6 : (fs r).gfp = (gs r).gfp := by
      rw [hf.gfp r hr, hg.gfp r hr]
      apply List.map_congr_left
      intro p hp
      rw [List.mem_range] at hp
      unfold firstPosition
      rw [hflat _ fun q hq => by rw [List.mem_range'_1] at hq; omega, hT]
    unfold isEqualLocal
    rw [if_neg (by rw [fsize, frank, gsize, grank]; simp), if_neg (fun k => k.2 (hr2 k.1).1), if_neg (by rw [e1, e2, e3, e4]; simp),
      if_neg (by rw [e5, e6]; simp)]
    have hm := mapM_total (l := List.range' (fs r).first.toNat ((fs r).last + 1 - (fs r).first).toNat)
      (f := fun jt => do
        let t1 ← (fs r).trees[jt]?
        let t2 ← (gs r).trees[jt]?
        some (treesEqual (cmp && decide ((fs r).dataSize ≠ 0)) t1 t2))
      (g := fun _ => true) (by
          intro jt hjt
          rw [List.mem_range'_1] at hjt
          have h1 : jt < (fs r).trees.length := by
            rcases legal_range fl with k | k <;> omega
          have h2 : jt < (gs r).trees.length := by omega
          have t1 := fl.trees jt _ (List.getElem?_eq_getElem h1)
          have t2 := gl.trees jt _ (List.getElem?_eq_getElem h2)
          rw [before_congr hr1] at t1
          rw [List.getElem?_eq_getElem h1, List.getElem?_eq_getElem h2]
          show some _ = some true
          rw [Option.some.injEq]
          refine treesEqual_complete t1 t2 ?_ ?_
          · have := congrArg (·[jt]?) hr1
            simpa [leavesByTree, List.getElem?_eq_getElem h1, List.getElem?_eq_getElem h2] using this
          · intro hc
            rw [Bool.and_eq_true, decide_eq_true_eq] at hc
            have := congrArg (·[jt]?) ((hr2 hc.1).2 hc.2)
            simpa [dataByTree, List.getElem?_eq_getElem h1, List.getElem?_eq_getElem h2] using this)
    rw [hm]
    simp

/-! ### Examples -/

/-- The leaves of `twoTrees` on the ranks of `twoTreesLeaves`, each with a number. -/
def numberedLists (n : ℕ) : ℕ → List (List (Quad 2 × ℕ))
  | 0 => [((childrenv (root 2)).take 3).map fun q => (q, n), []]
  | 2 => [((childrenv (root 2)).drop 3).map fun q => (q, 7), [(root 2, 8)]]
  | _ => [[], []]

theorem numberedLists_legal (conn : FaceConn) (hc : conn.numTrees = 2) (n : ℕ) : LegalForest 4 (describeForest conn 4 4 (numberedLists n)) twoTrees := by
  refine describe_legal conn 4 4 (numberedLists n) twoTrees (by rw [hc]; rfl) ?_ ?_
  · intro r hr
    interval_cases r <;> rfl
  · have : (fun r => forestLeaves ((numberedLists n r).map fun l => l.map Prod.fst)) = twoTreesLeaves := by
      funext r
      match r with
      | 0 => rfl
      | 1 => rfl
      | 2 => rfl
      | r + 3 => rfl
    rw [this]
    exact twoTrees_distributed

/-- A legal forest on four ranks, two of them empty: the hypotheses of C88 and C89 are met. -/
example : LegalForest 4 (describeForest looseSquares 4 4 (numberedLists 5)) twoTrees ∧ isValidForest 4 (describeForest looseSquares 4 4 (numberedLists 5)) = some true :=
  ⟨numberedLists_legal _ rfl 5, C88_accepts (by norm_num) (by norm_num) _ _ _ (numberedLists_legal _ rfl 5)⟩

/-- Forests that differ in the data of the first rank only are the same without the data; with the data, the first rank
and no other one finds the difference. -/
example : (∀ r < 4, isEqualLocal (describeForest looseSquares 4 4 (numberedLists 5) r) (describeForest looseSquares 4 4 (numberedLists 6) r) false = some true) ∧
    isEqualLocal (describeForest looseSquares 4 4 (numberedLists 5) 0) (describeForest looseSquares 4 4 (numberedLists 6) 0) true = some false ∧
    isEqualLocal (describeForest looseSquares 4 4 (numberedLists 5) 2) (describeForest looseSquares 4 4 (numberedLists 6) 2) true = some true := by
  decide +kernel

/-- Two trees, each connected to itself from left to right. -/
def closedSquares : FaceConn := ⟨2, [0, 0, 0, 0, 1, 1, 1, 1], [1, 0, 2, 3, 1, 0, 2, 3]⟩

/-- **C89 (connectivities).**  The documentation says that the result is true if the forests and their connectivities are
equal, but connectivities are not compared: two legal forests with different consistent connectivities are equal
on all ranks, with their data. -/
theorem C89_connectivity_ignored : ∃ (fs gs : ℕ → ForestMembers 2 ℕ) (trees : List (List (Quad 2))), LegalForest 4 fs trees ∧ LegalForest 4 gs trees ∧
    (∀ r < 4, FaceConsistent 2 (fs r).conn ∧ FaceConsistent 2 (gs r).conn ∧ (fs r).conn ≠ (gs r).conn) ∧
    ∀ r < 4, isEqualLocal (fs r) (gs r) true = some true := by
  refine ⟨describeForest looseSquares 4 4 (numberedLists 5), describeForest closedSquares 4 4 (numberedLists 5), twoTrees,
    numberedLists_legal _ rfl 5, numberedLists_legal _ rfl 5, ?_, by decide +kernel⟩
  intro r _
  refine ⟨?_, ?_, ?_⟩
  · show FaceConsistent 2 looseSquares
    exact consistent_of rfl rfl (by decide +kernel)
  · show FaceConsistent 2 closedSquares
    exact consistent_of rfl rfl (by decide +kernel)
  · show looseSquares ≠ closedSquares
    intro h
    exact absurd (congrArg FaceConn.treeToFace h) (by decide)

end P4est
