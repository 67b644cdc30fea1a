import Verif.Model.Uniqify
import Verif.Props.Overlap

/-! # C94: the removal of superfluous seeds -/

namespace P4est
open Spec

variable {d : ℕ} {k : ℕ} {ι : Type}

/-- The entry `b` does not come before `a`: first by tree, then along the curve. -/
def PiggyLe (a b : ℕ × Quad d) : Prop := a.1 < b.1 ∨ (a.1 = b.1 ∧ ¬ Before b.2 a.2)

theorem comparePiggy_le (hd : 0 < d) {a b : ℕ × Quad d} (ha : Int32 a.2.c) (hb : Int32 b.2.c) :
    comparePiggy a b ≤ 0 ↔ PiggyLe a b := by
  unfold comparePiggy PiggyLe
  split_ifs with h1 h2
  · rw [compare_nonpos_iff hd ha hb]
    constructor
    · exact fun h => Or.inr ⟨h1, h⟩
    · rintro (h | h)
      · omega
      · exact h.2
  · simp [h2]
  · constructor
    · intro h; omega
    · rintro (h | h)
      · exact absurd h h2
      · exact absurd h.1 h1

theorem PiggyLe.trans {a b c : ℕ × Quad d} (h1 : PiggyLe a b) (h2 : PiggyLe b c) : PiggyLe a c := by
  unfold PiggyLe at *
  rcases h1 with h1 | ⟨h1, h1'⟩ <;> rcases h2 with h2 | ⟨h2, h2'⟩
  · left; omega
  · left; omega
  · left; omega
  · right
    refine ⟨h1.trans h2, fun h => ?_⟩
    exact h2' (h.trans' h1')

theorem PiggyLe.total {a b : ℕ × Quad d} (h : ¬ PiggyLe a b) : PiggyLe b a := by
  unfold PiggyLe at *
  push Not at h
  by_cases h1 : a.1 = b.1
  · exact Or.inr ⟨h1.symm, (h.2 h1).asymm⟩
  · left; omega

theorem mem_insertPiggy {a x : ℕ × Quad d} {l : List (ℕ × Quad d)} : x ∈ insertPiggy a l ↔ x = a ∨ x ∈ l := by
  induction l with
  | nil => simp [insertPiggy]
  | cons b bs ih =>
    unfold insertPiggy
    split_ifs
    · simp
    · simp only [List.mem_cons, ih]; tauto

theorem mem_sortPiggy {x : ℕ × Quad d} {l : List (ℕ × Quad d)} : x ∈ sortPiggy l ↔ x ∈ l := by
  induction l with
  | nil => simp [sortPiggy]
  | cons a l ih =>
    show x ∈ insertPiggy a (sortPiggy l) ↔ _
    rw [mem_insertPiggy, ih, List.mem_cons]

theorem insertPiggy_sorted (hd : 0 < d) {a : ℕ × Quad d} {l : List (ℕ × Quad d)} (ha : Int32 a.2.c)
    (hl : ∀ x ∈ l, Int32 x.2.c) (h : l.Pairwise PiggyLe) : (insertPiggy a l).Pairwise PiggyLe := by
  induction l with
  | nil => exact List.pairwise_singleton _ _
  | cons b bs ih =>
    obtain ⟨h1, h2⟩ := List.pairwise_cons.mp h
    have hb := hl b List.mem_cons_self
    unfold insertPiggy
    split_ifs with hc
    · rw [comparePiggy_le hd ha hb] at hc
      refine List.pairwise_cons.mpr ⟨fun x hx => ?_, h⟩
      rcases List.mem_cons.mp hx with rfl | hx
      · exact hc
      · exact hc.trans (h1 x hx)
    · rw [comparePiggy_le hd ha hb] at hc
      refine List.pairwise_cons.mpr ⟨fun x hx => ?_, ih (fun x hx => hl x (List.mem_cons_of_mem _ hx)) h2⟩
      rcases mem_insertPiggy.mp hx with rfl | hx
      · exact PiggyLe.total hc
      · exact h1 x hx

theorem sortPiggy_sorted (hd : 0 < d) {l : List (ℕ × Quad d)} (hl : ∀ x ∈ l, Int32 x.2.c) :
    (sortPiggy l).Pairwise PiggyLe := by
  induction l with
  | nil => exact List.Pairwise.nil
  | cons a l ih =>
    show (insertPiggy a (sortPiggy l)).Pairwise PiggyLe
    exact insertPiggy_sorted hd (hl a List.mem_cons_self)
      (fun x hx => hl x (List.mem_cons_of_mem _ (mem_sortPiggy.mp hx))) (ih fun x hx => hl x (List.mem_cons_of_mem _ hx))

/-- The parents of two quadrants when one is in the parent of the other. -/
theorem parents_nested (hd : 0 < d) {a b : Quad d} (ha : Valid a) (hb : Valid b) (ha0 : 0 < a.level) (hb0 : 0 < b.level)
    (h1 : start (parent a) ≤ start b ∧ stop b ≤ stop (parent a)) (hle : a.level ≤ b.level) :
    Cells (parent b) ⊆ Cells (parent a) := by
  have hap := parent_valid ha ha0
  have hbp := parent_valid hb hb0
  have hbi := parent_interval hd hb hb0
  have la : (parent a).level = a.level - 1 := rfl
  have lb : (parent b).level = b.level - 1 := rfl
  have hb1 := start_lt_stop b
  rw [valid_subset_iff hd hap hbp]
  rcases valid_cases hd hap hbp with h | h | h | h | h
  · omega
  · omega
  · rw [h]; exact ⟨le_rfl, le_rfl⟩
  · omega
  · have := h.2.2.1; omega

/-- The loop keeps entries, and for each one an entry inside of its parent. -/
theorem uniqifyLoop_spec (hd : 0 < d) (ps : List (ℕ × Quad d)) {q : ℕ × Quad d}
    (hv : ∀ x ∈ q :: ps, Valid x.2 ∧ 0 < x.2.level) :
    (uniqifyLoop q ps).Sublist (q :: ps) ∧
      ∀ x ∈ q :: ps, ∃ y ∈ uniqifyLoop q ps, y.1 = x.1 ∧ Cells y.2 ⊂ Cells (parent x.2) := by
  have hpar : ∀ x : Quad d, Valid x → 0 < x.level → Cells x ⊂ Cells (parent x) := by
    intro x hx h0
    have := isAncestor_parent hd hx h0
    rwa [isAncestor_iff hd (parent_valid hx h0).aligned hx.aligned] at this
  induction ps generalizing q with
  | nil =>
    refine ⟨List.Sublist.refl _, fun x hx => ?_⟩
    rw [List.mem_singleton] at hx
    subst hx
    obtain ⟨a, b⟩ := hv x List.mem_cons_self
    exact ⟨x, List.mem_cons_self, rfl, hpar _ a b⟩
  | cons p ps ih =>
    obtain ⟨q1, q2⟩ := hv q List.mem_cons_self
    obtain ⟨p1, p2⟩ := hv p (by simp)
    unfold uniqifyLoop
    split_ifs with hc hlv
    · obtain ⟨a1, a2⟩ := ih (fun x hx => hv x (List.mem_cons_of_mem _ hx))
      refine ⟨a1.trans (List.sublist_cons_self _ _), fun x hx => ?_⟩
      rcases List.mem_cons.mp hx with rfl | hx
      · obtain ⟨y, y1, y2, y3⟩ := a2 p List.mem_cons_self
        have hw := nca_comm_within hd p1 q1 q2 (by omega)
        exact ⟨y, y1, y2.trans hc.1.symm, lt_of_lt_of_le y3 (parents_nested hd q1 p1 q2 p2 hw (by omega))⟩
      · exact a2 x hx
    · obtain ⟨a1, a2⟩ := ih (q := q) (fun x hx => hv x (by
        rcases List.mem_cons.mp hx with h | h
        · simp [h]
        · simp [h]))
      refine ⟨a1.trans ((List.sublist_cons_self p ps).cons_cons q), fun x hx => ?_⟩
      rcases List.mem_cons.mp hx with rfl | hx
      · exact a2 x List.mem_cons_self
      · rcases List.mem_cons.mp hx with rfl | hx
        · obtain ⟨y, y1, y2, y3⟩ := a2 q List.mem_cons_self
          have hw := nca_within hd p1 q1 p2 (by omega)
          exact ⟨y, y1, y2.trans hc.1, lt_of_lt_of_le y3 (parents_nested hd p1 q1 p2 q2 hw (by omega))⟩
        · exact a2 x (List.mem_cons_of_mem _ hx)
    · obtain ⟨a1, a2⟩ := ih (fun x hx => hv x (List.mem_cons_of_mem _ hx))
      refine ⟨a1.cons_cons q, fun x hx => ?_⟩
      rcases List.mem_cons.mp hx with rfl | hx
      · exact ⟨x, List.mem_cons_self, rfl, hpar _ q1 q2⟩
      · obtain ⟨y, y1, y2⟩ := a2 x hx
        exact ⟨y, List.mem_cons_of_mem _ y1, y2⟩

/-- Two entries of the same tree of which none is in the parent of the other. -/
def Unrelated (a b : ℕ × Quad d) : Prop :=
  a.1 = b.1 → ¬ Cells a.2 ⊆ Cells (parent b.2) ∧ ¬ Cells b.2 ⊆ Cells (parent a.2)

theorem first_start {q : Quad d} (hq : Valid q) (h0 : 0 < q.level) (hc : childId q = 0) :
    start (parent q) = start q := by
  have h := child_parent hq.aligned h0
  rw [hc] at h
  conv_rhs => rw [← h]
  show curve _ = curve _
  congr 1
  funext i
  simp [child]

theorem uniqifyLoop_unrelated (hd : 0 < d) (ps : List (ℕ × Quad d)) {q : ℕ × Quad d}
    (hv : ∀ x ∈ q :: ps, Valid x.2 ∧ 0 < x.2.level ∧ childId x.2 = 0) (hs : (q :: ps).Pairwise PiggyLe) :
    (uniqifyLoop q ps).Pairwise Unrelated := by
  induction ps generalizing q with
  | nil => exact List.pairwise_singleton _ _
  | cons p ps ih =>
    obtain ⟨hq, hs1⟩ := List.pairwise_cons.mp hs
    obtain ⟨hp, hs2⟩ := List.pairwise_cons.mp hs1
    obtain ⟨q1, q2, q3⟩ := hv q List.mem_cons_self
    obtain ⟨p1, p2, p3⟩ := hv p (by simp)
    unfold uniqifyLoop
    split_ifs with hc hlv
    · exact ih (fun x hx => hv x (List.mem_cons_of_mem _ hx)) hs1
    · refine ih (fun x hx => hv x (by
        rcases List.mem_cons.mp hx with h | h
        · simp [h]
        · simp [h])) (List.pairwise_cons.mpr ⟨fun x hx => hq x (List.mem_cons_of_mem _ hx), hs2⟩)
    · refine List.pairwise_cons.mpr ⟨fun y hy => ?_, ih (fun x hx => hv x (List.mem_cons_of_mem _ hx)) hs1⟩
      have hy' := (uniqifyLoop_spec hd ps (fun x hx => ⟨(hv x (List.mem_cons_of_mem _ hx)).1,
        (hv x (List.mem_cons_of_mem _ hx)).2.1⟩)).1.subset hy
      obtain ⟨y1, y2, y3⟩ := hv y (List.mem_cons_of_mem _ hy')
      intro ht
      have hqp := parent_valid q1 q2
      have hyp := parent_valid y1 y2
      have sq := first_start q1 q2 q3
      have sy := first_start y1 y2 y3
      have hqi := parent_interval hd q1 q2
      have hyi := parent_interval hd y1 y2
      have lq : (parent q.2).level = q.2.level - 1 := rfl
      have ly := start_lt_stop y.2
      have lp := start_lt_stop p.2
      have lq1 := start_lt_stop q.2
      -- the order of `q`, `p`, `y`
      have hqy : ¬ Before y.2 q.2 := by
        rcases hq y hy' with h | h
        · omega
        · exact h.2
      have hpt : p.1 = q.1 ∧ ¬ Before p.2 q.2 ∧ ¬ Before y.2 p.2 := by
        have h1 := hq p List.mem_cons_self
        rcases List.mem_cons.mp hy' with rfl | hy''
        · exact ⟨ht.symm, hqy, Before.irrefl⟩
        · have h2 := hp y hy''
          unfold PiggyLe at h1 h2
          refine ⟨by omega, ?_, ?_⟩
          · rcases h1 with h | h
            · omega
            · exact h.2
          · rcases h2 with h | h
            · omega
            · exact h.2
      obtain ⟨hp1, hp2, hp3⟩ := hpt
      have bdef : ∀ a b : Quad d, Before a b ↔ start a < start b ∨ (start a = start b ∧ a.level < b.level) := fun a b => Iff.rfl
      rw [bdef] at hqy hp2 hp3
      push Not at hqy hp2 hp3
      -- `p` is not in the parent of `q`
      have hnp : ¬ Cells p.2 ⊆ Cells (parent q.2) := by
        intro h
        apply hc
        refine ⟨hp1.symm, ?_⟩
        have h1 := nca_level hd p1 q1 hqp h (by rw [valid_subset_iff hd hqp q1]; exact hqi)
        omega
      have hmain : ¬ Cells y.2 ⊆ Cells (parent q.2) := by
        intro h
        rw [valid_subset_iff hd hqp y1] at h
        apply hnp
        rw [valid_subset_iff hd hqp p1]
        have h1 := hp2.1
        have h2 := hp3.1
        rcases valid_cases hd hqp p1 with g | g | g | g | g
        · omega
        · omega
        · rw [g]; exact ⟨le_rfl, le_rfl⟩
        · exact ⟨g.1, g.2.1⟩
        · exfalso
          have h3 := g.2.2.1
          have h4 : start p.2 = start q.2 := by omega
          have := hp2.2 h4
          omega
      refine ⟨fun h => ?_, hmain⟩
      rw [valid_subset_iff hd hyp q1] at h
      apply hmain
      rw [valid_subset_iff hd hqp y1]
      have h5 : start y.2 = start q.2 := by have := hqy.1; omega
      rcases valid_cases hd hqp y1 with g | g | g | g | g
      · omega
      · omega
      · rw [g]; exact ⟨le_rfl, le_rfl⟩
      · exact ⟨g.1, g.2.1⟩
      · exfalso
        have h3 := g.2.2.1
        have := hqy.2 h5
        omega

/-- **C94.** `p4est_tree_uniqify_overlap` keeps only entries of the array, in order of the trees and the curve, and
drops what is superfluous: of two entries that are left in a tree none is inside of the parent of the other.  Nothing
is lost: for each entry there is one left that is as fine, inside of its parent, and in every tree the entries that are
left divide, in every domain and for every balance condition, exactly
what the given entries divide. -/
theorem C94_uniqify (hd : 0 < d) (ins : List (ℕ × Quad d))
    (hv : ∀ x ∈ ins, Valid x.2 ∧ 0 < x.2.level ∧ childId x.2 = 0) :
    (∀ x ∈ uniqifyOverlap ins, x ∈ ins) ∧ (uniqifyOverlap ins).Pairwise PiggyLe ∧
    (uniqifyOverlap ins).Pairwise Unrelated ∧
    (∀ x ∈ ins, ∃ y ∈ uniqifyOverlap ins, y.1 = x.1 ∧ Cells y.2 ⊂ Cells (parent x.2)) ∧
    ∀ t (D : Set (Fin d → ℤ)) k r,
      (Divides D k {b | (t, b) ∈ uniqifyOverlap ins} r ↔ Divides D k {b | (t, b) ∈ ins} r) := by
  have hsort := sortPiggy_sorted hd (fun x hx => (hv x hx).1.int32)
  have hmem := fun x => mem_sortPiggy (x := x) (l := ins)
  unfold uniqifyOverlap
  cases hS : sortPiggy ins with
  | nil =>
    rw [hS] at hmem
    have : ins = [] := List.eq_nil_iff_forall_not_mem.mpr fun x hx => by simpa using (hmem x).mpr hx
    subst this
    simp
  | cons q ps =>
    rw [hS] at hmem hsort
    have hv' : ∀ x ∈ q :: ps, Valid x.2 ∧ 0 < x.2.level ∧ childId x.2 = 0 := fun x hx => hv x ((hmem x).mp hx)
    obtain ⟨a1, a2⟩ := uniqifyLoop_spec hd ps (fun x hx => ⟨(hv' x hx).1, (hv' x hx).2.1⟩)
    refine ⟨fun x hx => (hmem x).mp (a1.subset hx), hsort.sublist a1, uniqifyLoop_unrelated hd ps hv' hsort,
      fun x hx => a2 x ((hmem x).mpr hx), ?_⟩
    intro t D k r
    unfold Divides
    refine forall_congr' fun U => forall_congr' fun hU => forall_congr' fun hg => ?_
    refine imp_congr_left ⟨fun h s hs u hu hc => ?_, fun h s hs u hu hc => ?_⟩
    · have hs' : (t, s) ∈ q :: ps := (hmem _).mpr hs
      obtain ⟨y, y1, y2, y3⟩ := a2 _ hs'
      obtain ⟨v1, v2, -⟩ := hv' _ hs'
      have hua := (hU.legal u hu).1
      refine h y.2 ?_ u hu (lt_of_lt_of_le y3 ((inside_iff_parent hd v1.aligned v2 hua).mp hc))
      show (t, y.2) ∈ uniqifyLoop q ps
      have : y = (t, y.2) := Prod.ext y2 rfl
      rw [← this]; exact y1
    · exact h s ((hmem _).mp (a1.subset hs)) u hu hc

/-- Beside C94: five seeds in two trees.  In tree 1 the coarser one is superfluous, in tree 0 one is there
twice. -/
def fiveSeeds : List (ℕ × Quad 2) :=
  let a := child (child (root 2) 3) 0
  [(1, child a 0), (0, child (child (root 2) 1) 0), (1, a), (0, child a 0), (0, child a 0)]

example : (∀ x ∈ fiveSeeds, Valid x.2 ∧ 0 < x.2.level ∧ childId x.2 = 0) ∧
    uniqifyOverlap fiveSeeds = [(0, child (child (root 2) 1) 0), (0, child (child (child (root 2) 3) 0) 0),
      (1, child (child (child (root 2) 3) 0) 0)] := by
  constructor
  · intro x hx
    rw [← isValid_iff]
    revert x
    decide +kernel
  · decide +kernel

end P4est
