import Verif.Lemmas.WrapAdapt

/-! # C80: adaptation with flags -/

namespace P4est
open Spec

variable {d : ℕ}

/-- C80. The last call for a leaf decides on its flag, and the number of refine flags is counted. -/
theorem C80_marks (trees : List (Tree d Unit)) (ho : OffsetsOk 0 trees) (calls : List MarkCall) (hc : LegalCalls trees calls) :
    ∃ m, markAll trees calls ⟨List.replicate (trees.map fun t => (quadsOf t).length).sum WrapFlag.zero, 0⟩ = some m ∧
      m.flags.length = (trees.map fun t => (quadsOf t).length).sum ∧
      (∀ i t j, trees[i]? = some t → j < (quadsOf t).length →
        m.flags[(t.offset + j).toNat]? = some (flagOf (lastMark calls i j))) ∧
      m.numRefine = m.flags.countP (fun f => f.refine) := by
  refine ⟨_, by rw [← flagTable_nil]; exact markAll_eq trees ho calls hc, ?_, ?_, rfl⟩
  · unfold flagTable; rw [rowTable_length]
  · intro i t j ht hj
    have hoff := offset_eq trees 0 i t ho ht
    rw [show (t.offset + j).toNat = ((trees.map fun t => (quadsOf t).length).take i).sum + j by omega]
    exact rowTable_get _ _ _ _ (quadsOf t).length (by rw [List.getElem?_map, ht]; rfl) hj

/-- C80. Refinement and coarsening by flags, before the forest is balanced: for any legal local trees and any sequence of
calls nothing fails, the new trees are legal and cover the same domain, their leaves are exactly those that the marks
ask for, and all flags are zero. -/
theorem C80_adapt (hd : 0 < d) (trees : List (Tree d Unit)) (hT : LegalTrees trees) (calls : List MarkCall)
    (hc : LegalCalls trees calls) :
    ∃ m r, markAll trees calls ⟨List.replicate (trees.map fun t => (quadsOf t).length).sum WrapFlag.zero, 0⟩ = some m ∧
      wrapAdaptLocal trees m = some r ∧ r.trees.length = trees.length ∧ LegalTrees r.trees ∧
      r.flags.length = (trees.map fun t => (quadsOf t).length).sum ∧ (∀ f ∈ r.flags, f = ⟨false, false⟩) ∧
      r.num0 = leafCount trees ∧ r.num2 = leafCount r.trees ∧
      ∀ i t t', trees[i]? = some t → r.trees[i]? = some t' →
        Cover (quadsOf t') = Cover (quadsOf t) ∧
        ∀ q, q ∈ quadsOf t' ↔ AdaptedLeaf (quadsOf t) (IsMarked calls .refine i (quadsOf t))
          (IsMarked calls .coarsen i (quadsOf t)) q := by
  obtain ⟨r, h1, h2, h3, h4, h5, h6, -, -, -, -, h7⟩ := wrapAdapt_main hd trees hT calls
  refine ⟨_, r, by rw [← flagTable_nil]; exact markAll_eq trees hT.offsets calls hc, h1, h2, h3, ?_, ?_, h5, h6, h7⟩
  · rw [h4, List.length_replicate]; simp [Function.comp_def]
  · intro f hf
    rw [h4] at hf
    exact (List.mem_replicate.mp hf).2

theorem wrapAdapt_same_iff (hd : 0 < d) (trees : List (Tree d Unit)) (hT : LegalTrees trees) (calls : List MarkCall)
    (hc : LegalCalls trees calls) {m : WrapMarks} {r : WrapAdapted d}
    (hm : markAll trees calls ⟨List.replicate (trees.map fun t => (quadsOf t).length).sum WrapFlag.zero, 0⟩ = some m)
    (hr : wrapAdaptLocal trees m = some r) :
    r.num0 ≤ r.num1 ∧ r.num2 ≤ r.num1 ∧
      ((r.num0 = r.num1 ∧ r.num1 = r.num2) ↔ r.trees.map quadsOf = trees.map quadsOf) := by
  obtain ⟨r', h1, h2, h3, h4, h5, h6, h7, h8, h9, h10, h11⟩ := wrapAdapt_main hd trees hT calls
  rw [← flagTable_nil, markAll_eq trees hT.offsets calls hc, Option.some.injEq] at hm
  subst hm
  rw [hr, Option.some.injEq] at h1
  subst h1
  refine ⟨h7, h8, fun h => h9 h.1 h.2, fun h => ?_⟩
  have hsum : r.num0 = r.num2 := by
    rw [h5, h6, leafCount_eq, leafCount_eq, h]
  have h01 : r.num0 = r.num1 := by
    by_contra hne
    obtain ⟨i, t, q, ht, hq, hl, hmk⟩ := h10 hne
    have hlt : i < r.trees.length := by rw [h2]; exact (List.getElem?_eq_some_iff.mp ht).1
    obtain ⟨-, hmem⟩ := h11 i t r.trees[i] ht (List.getElem?_eq_getElem hlt)
    have hsame : quadsOf r.trees[i] = quadsOf t := by
      have := congrArg (fun l => l[i]?) h
      simp only [List.getElem?_map, List.getElem?_eq_getElem hlt, ht, Option.map_some, Option.some.injEq] at this
      exact this
    have hk : kid q 0 ∈ kids q := mem_kids.mpr ⟨0, by positivity, rfl⟩
    have := (hmem (kid q 0)).mpr (Or.inl ⟨q, hmk, hl, hk⟩)
    rw [hsame] at this
    exact kid_not_leaf hd (hT.valid t (List.mem_of_getElem? ht)) (hT.gapless t (List.mem_of_getElem? ht)) hq hk this
  exact ⟨h01, by omega⟩

theorem sum_le_of_forall₂ {β : Type} (f g : β → ℤ) : ∀ l : List β, (∀ x ∈ l, f x ≤ g x) →
    (l.map f).sum ≤ (l.map g).sum ∧ ((l.map f).sum = (l.map g).sum → ∀ x ∈ l, f x = g x) := by
  intro l
  induction l with
  | nil => intro _; simp
  | cons x xs ih =>
    intro h
    obtain ⟨h1, h2⟩ := ih (fun y hy => h y (by simp [hy]))
    have hx := h x (by simp)
    simp only [List.map_cons, List.sum_cons]
    refine ⟨by omega, fun e y hy => ?_⟩
    rcases List.mem_cons.mp hy with rfl | hy
    · omega
    · exact h2 (by omega) y hy

/-- C80. For any number of processes: before the forest is balanced, every process has found out by the global number
of leaves whether there was a change on any process, in which case balance is called. -/
theorem C80_changed (hd : 0 < d) (ranks : List (List (Tree d Unit) × List MarkCall))
    (hT : ∀ x ∈ ranks, LegalTrees x.1 ∧ LegalCalls x.1 x.2) (rs : List (WrapAdapted d))
    (hrs : List.Forall₂ (fun x r => ∃ m, markAll x.1 x.2
      ⟨List.replicate (x.1.map fun t => (quadsOf t).length).sum WrapFlag.zero, 0⟩ = some m ∧ wrapAdaptLocal x.1 m = some r) ranks rs) :
    wrapChanged rs = false ↔ List.Forall₂ (fun x r => r.trees.map quadsOf = x.1.map quadsOf) ranks rs := by
  have key : List.Forall₂ (fun x r => r.num0 ≤ r.num1 ∧ r.num2 ≤ r.num1 ∧
      ((r.num0 = r.num1 ∧ r.num1 = r.num2) ↔ r.trees.map quadsOf = x.1.map quadsOf)) ranks rs := by
    clear * - hd hT hrs
    induction hrs with
    | nil => exact List.Forall₂.nil
    | @cons x r xs rs h _ ih =>
      obtain ⟨m, h1, h2⟩ := h
      refine List.Forall₂.cons ?_ (ih fun y hy => hT y (by simp [hy]))
      obtain ⟨h3, h4⟩ := hT x (by simp)
      exact wrapAdapt_same_iff hd x.1 h3 x.2 h4 h1 h2
  have hle : ∀ r ∈ rs, r.num0 ≤ r.num1 ∧ r.num2 ≤ r.num1 := by
    clear * - key
    induction key with
    | nil => simp
    | cons h _ ih =>
      intro y hy
      rcases List.mem_cons.mp hy with rfl | hy
      · exact ⟨h.1, h.2.1⟩
      · exact ih y hy
  have hch : wrapChanged rs = false ↔ ∀ r ∈ rs, r.num0 = r.num1 ∧ r.num1 = r.num2 := by
    unfold wrapChanged
    rw [Bool.or_eq_false_iff, bne_eq_false_iff_eq, bne_eq_false_iff_eq]
    constructor
    · rintro ⟨h1, h2⟩ r hr
      exact ⟨(sum_le_of_forall₂ WrapAdapted.num0 WrapAdapted.num1 rs fun x hx => (hle x hx).1).2 h1 r hr,
        ((sum_le_of_forall₂ WrapAdapted.num2 WrapAdapted.num1 rs fun x hx => (hle x hx).2).2 h2.symm r hr).symm⟩
    · intro h
      exact ⟨congrArg List.sum (List.map_congr_left fun r hr => (h r hr).1),
        congrArg List.sum (List.map_congr_left fun r hr => (h r hr).2)⟩
  rw [hch]
  clear * - key
  induction key with
  | nil => simp
  | cons h _ ih =>
    rw [List.forall₂_cons, List.forall_mem_cons, h.2.2]
    exact and_congr_right fun _ => ih

end P4est
