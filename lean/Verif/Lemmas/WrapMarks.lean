import Verif.Spec.Wrap
import Verif.Lemmas.WrapTrees

/-! # The flags after a sequence of calls -/

namespace P4est
open Spec

variable {d : ℕ} {β : Type}

/-- Table with rows of the given lengths, written one after the other. -/
def rowTable (F : ℕ → ℕ → β) : List ℕ → List β
  | [] => []
  | n :: ns => (List.range n).map (F 0) ++ rowTable (fun i => F (i + 1)) ns

theorem rowTable_length (F : ℕ → ℕ → β) (ns : List ℕ) : (rowTable F ns).length = ns.sum := by
  induction ns generalizing F with
  | nil => rfl
  | cons n ns ih => simp [rowTable, ih]

theorem rowTable_get (F : ℕ → ℕ → β) (ns : List ℕ) (a b n : ℕ) (ha : ns[a]? = some n) (hb : b < n) :
    (rowTable F ns)[(ns.take a).sum + b]? = some (F a b) := by
  induction ns generalizing F a with
  | nil => simp at ha
  | cons m ns ih =>
    cases a with
    | zero =>
      simp only [List.getElem?_cons_zero, Option.some.injEq] at ha
      subst ha
      simp only [rowTable, List.take_zero, List.sum_nil, Nat.zero_add]
      rw [List.getElem?_append_left (by simpa using hb)]
      simp [hb]
    | succ a =>
      simp only [List.getElem?_cons_succ] at ha
      simp only [rowTable, List.take_succ_cons, List.sum_cons]
      rw [List.getElem?_append_right (by simp; omega)]
      simp only [List.length_map, List.length_range]
      rw [show m + (ns.take a).sum + b - m = (ns.take a).sum + b by omega]
      exact ih (fun i => F (i + 1)) a ha

theorem rowTable_congr {F G : ℕ → ℕ → β} (ns : List ℕ) (h : ∀ i j, F i j = G i j) : rowTable F ns = rowTable G ns := by
  have : F = G := by funext i j; exact h i j
  rw [this]

theorem rowTable_set (F : ℕ → ℕ → β) (ns : List ℕ) (a b n : ℕ) (v : β) (ha : ns[a]? = some n) (hb : b < n) :
    (rowTable F ns).set ((ns.take a).sum + b) v = rowTable (fun i j => if a = i ∧ b = j then v else F i j) ns := by
  induction ns generalizing F a with
  | nil => simp at ha
  | cons m ns ih =>
    cases a with
    | zero =>
      simp only [List.getElem?_cons_zero, Option.some.injEq] at ha
      subst ha
      simp only [rowTable, List.take_zero, List.sum_nil, Nat.zero_add]
      rw [List.set_append_left _ _ (by simpa using hb)]
      congr 1
      apply List.ext_getElem?
      intro j
      simp only [List.getElem?_set, List.length_map, List.length_range, List.getElem?_map]
      by_cases hj : j < m
      · simp only [hb, if_true, List.getElem?_range hj, Option.map_some]
        by_cases e : b = j <;> simp [e]
      · rw [if_neg (by omega)]
        simp [hj]
    | succ a =>
      simp only [List.getElem?_cons_succ] at ha
      simp only [rowTable, List.take_succ_cons, List.sum_cons]
      rw [List.set_append_right _ _ (by simp; omega)]
      simp only [List.length_map, List.length_range]
      rw [show m + (ns.take a).sum + b - m = (ns.take a).sum + b by omega, ih (fun i => F (i + 1)) a ha]
      congr 1
      apply rowTable_congr
      intro i j
      simp

theorem lastMark_append (calls : List MarkCall) (c : MarkCall) (i j : ℕ) :
    lastMark (calls ++ [c]) i j = if c.tree = i ∧ c.quad = j then some c.kind else lastMark calls i j := by
  unfold lastMark
  rw [List.reverse_append]
  simp only [List.reverse_cons, List.reverse_nil, List.nil_append, List.singleton_append, List.find?_cons]
  by_cases h : c.tree = i ∧ c.quad = j <;> simp [h]

theorem offset_eq : ∀ (ts : List (Tree d Unit)) (n : ℤ) (i : ℕ) (t : Tree d Unit), OffsetsOk n ts → ts[i]? = some t →
    t.offset = n + (((ts.map fun t => (quadsOf t).length).take i).sum : ℕ) := by
  intro ts
  induction ts with
  | nil => intro n i t _ h; simp at h
  | cons x xs ih =>
    intro n i t ho h
    cases i with
    | zero =>
      simp only [List.getElem?_cons_zero, Option.some.injEq] at h
      subst h
      simpa using ho.1
    | succ i =>
      simp only [List.getElem?_cons_succ] at h
      rw [ih _ i t ho.2 h]
      simp [List.take_succ_cons]; ring

theorem markAll_append (trees : List (Tree d Unit)) (a b : List MarkCall) (m : WrapMarks) :
    markAll trees (a ++ b) m = (markAll trees a m).bind (markAll trees b) := by
  induction a generalizing m with
  | nil => rfl
  | cons c cs ih =>
    simp only [List.cons_append, markAll, Option.bind_eq_bind]
    cases c.kind with
    | refine =>
      simp only
      cases wrapMarkRefine trees m c.tree c.quad with
      | none => rfl
      | some x => simp only [Option.bind_some]; exact ih x
    | coarsen =>
      simp only
      cases wrapMarkCoarsen trees m c.tree c.quad with
      | none => rfl
      | some x => simp only [Option.bind_some]; exact ih x

/-- The flags after the calls. -/
def flagTable (trees : List (Tree d Unit)) (calls : List MarkCall) : List WrapFlag :=
  rowTable (fun i j => flagOf (lastMark calls i j)) (trees.map fun t => (quadsOf t).length)

theorem markOne (trees : List (Tree d Unit)) (ho : OffsetsOk 0 trees) (calls : List MarkCall) (c : MarkCall)
    (hc : ∃ t, trees[c.tree]? = some t ∧ c.quad < (quadsOf t).length) :
    markAll trees [c] ⟨flagTable trees calls, (flagTable trees calls).countP WrapFlag.refine⟩ =
      some ⟨flagTable trees (calls ++ [c]), (flagTable trees (calls ++ [c])).countP WrapFlag.refine⟩ := by
  obtain ⟨t, ht, hq⟩ := hc
  set ns := trees.map fun t => (quadsOf t).length with hns
  have hna : ns[c.tree]? = some (quadsOf t).length := by rw [hns, List.getElem?_map, ht]; rfl
  set pos := (ns.take c.tree).sum + c.quad with hpos
  have hget : (flagTable trees calls)[pos]? = some (flagOf (lastMark calls c.tree c.quad)) := by
    unfold flagTable
    exact rowTable_get (fun i j => flagOf (lastMark calls i j)) ns _ _ _ hna hq
  have hlt : pos < (flagTable trees calls).length := by
    by_contra h
    rw [List.getElem?_eq_none (by omega)] at hget
    simp at hget
  have hoff := offset_eq trees 0 c.tree t ho ht
  rw [← hns] at hoff
  have hposeq : wrapPos trees ⟨flagTable trees calls, (flagTable trees calls).countP WrapFlag.refine⟩ c.tree c.quad = some pos := by
    unfold wrapPos
    rw [ht]
    have hcnt : t.quads.count = (quadsOf t).length := by simp [quadsOf, LArr.toList_length]
    simp only [Option.bind_eq_bind, Option.bind_some]
    rw [if_pos (by omega), if_pos (by rw [hoff]; constructor <;> omega), hoff]
    congr 1
    omega
  have hset : ∀ v, (flagTable trees calls).set pos v =
      rowTable (fun i j => if c.tree = i ∧ c.quad = j then v else flagOf (lastMark calls i j)) ns := by
    intro v
    exact rowTable_set _ ns _ _ _ v hna hq
  have hnew : flagTable trees (calls ++ [c]) = (flagTable trees calls).set pos (flagOf (some c.kind)) := by
    rw [hset]
    unfold flagTable
    apply rowTable_congr
    intro i j
    rw [lastMark_append]
    split_ifs <;> rfl
  have hcount : ((flagTable trees (calls ++ [c])).countP WrapFlag.refine : ℤ) =
      (flagTable trees calls).countP WrapFlag.refine - (if (flagOf (lastMark calls c.tree c.quad)).refine then 1 else 0) +
        (if (flagOf (some c.kind)).refine then 1 else 0) := by
    have hg' : (flagTable trees calls)[pos] = flagOf (lastMark calls c.tree c.quad) := by
      rw [List.getElem?_eq_getElem hlt] at hget; simpa using hget
    rw [hnew, List.countP_set hlt, hg']
    by_cases h : (flagOf (lastMark calls c.tree c.quad)).refine = true
    · have : 0 < (flagTable trees calls).countP WrapFlag.refine :=
        List.countP_pos_iff.mpr ⟨_, List.mem_of_getElem? hget, h⟩
      rw [if_pos h, if_pos h]
      push_cast
      split_ifs <;> omega
    · rw [if_neg h, if_neg h]
      push_cast
      split_ifs <;> omega
  have hself : ∀ v, ((flagTable trees calls).set pos v)[pos]? = some v := by
    intro v; rw [List.getElem?_set_self hlt]
  simp only [markAll]
  cases hk : c.kind with
  | refine =>
    rw [hk] at hnew hcount
    simp only [wrapMarkRefine, hposeq, hget, Option.bind_eq_bind, Option.bind_some]
    cases hl : lastMark calls c.tree c.quad with
    | none =>
      rw [hl] at hcount
      simp only [flagOf] at hcount hnew ⊢
      simp only [Bool.not_false, if_true, hself, Option.bind_some, List.set_set, Option.some.injEq, WrapMarks.mk.injEq]
      exact ⟨hnew.symm, by rw [hcount]; simp⟩
    | some k =>
      rw [hl] at hcount hget
      cases k with
      | refine =>
        simp only [flagOf] at hcount hnew hget ⊢
        simp only [Bool.not_true, Bool.false_eq_true, if_false, hget, Option.bind_some, Option.some.injEq, WrapMarks.mk.injEq]
        exact ⟨hnew.symm, by rw [hcount]; simp⟩
      | coarsen =>
        simp only [flagOf] at hcount hnew ⊢
        simp only [Bool.not_false, if_true, hself, Option.bind_some, List.set_set, Option.some.injEq, WrapMarks.mk.injEq]
        exact ⟨hnew.symm, by rw [hcount]; simp⟩
  | coarsen =>
    rw [hk] at hnew hcount
    simp only [wrapMarkCoarsen, hposeq, hget, Option.bind_eq_bind, Option.bind_some]
    cases hl : lastMark calls c.tree c.quad with
    | none =>
      rw [hl] at hcount hget
      simp only [flagOf] at hcount hnew hget ⊢
      simp only [Bool.false_eq_true, if_false, hget, Option.bind_some, Option.some.injEq, WrapMarks.mk.injEq]
      exact ⟨hnew.symm, by rw [hcount]; simp⟩
    | some k =>
      rw [hl] at hcount hget
      cases k with
      | refine =>
        simp only [flagOf] at hcount hnew ⊢
        simp only [if_true, hself, Option.bind_some, List.set_set, Option.some.injEq, WrapMarks.mk.injEq]
        exact ⟨hnew.symm, by rw [hcount]; simp⟩
      | coarsen =>
        simp only [flagOf] at hcount hnew hget ⊢
        simp only [Bool.false_eq_true, if_false, hget, Option.bind_some, Option.some.injEq, WrapMarks.mk.injEq]
        exact ⟨hnew.symm, by rw [hcount]; simp⟩

theorem markAll_eq (trees : List (Tree d Unit)) (ho : OffsetsOk 0 trees) (calls : List MarkCall)
    (hc : LegalCalls trees calls) :
    markAll trees calls ⟨flagTable trees [], 0⟩ =
      some ⟨flagTable trees calls, (flagTable trees calls).countP WrapFlag.refine⟩ := by
  induction calls using List.reverseRecOn with
  | nil =>
    have : (flagTable trees []).countP WrapFlag.refine = 0 := by
      rw [List.countP_eq_zero]
      intro f hf
      have key : ∀ ns : List ℕ, ∀ f ∈ rowTable (fun _ _ => WrapFlag.zero) ns, f = WrapFlag.zero := by
        intro ns
        induction ns with
        | nil => simp [rowTable]
        | cons n ns ih =>
          intro f hf
          simp only [rowTable, List.mem_append, List.mem_map] at hf
          rcases hf with ⟨_, _, rfl⟩ | hf
          · rfl
          · exact ih f hf
      have : f = WrapFlag.zero := key _ f hf
      rw [this]; simp [WrapFlag.zero]
    simp [markAll, this]
  | append_singleton cs c ih =>
    rw [markAll_append, ih (fun x hx => hc x (by simp [hx]))]
    obtain ⟨t, h1, h2⟩ := hc c (by simp)
    exact markOne trees ho cs c ⟨t, h1, by simpa [quadsOf] using h2⟩

theorem flagTable_nil (trees : List (Tree d Unit)) :
    flagTable trees [] = List.replicate (trees.map fun t => (quadsOf t).length).sum WrapFlag.zero := by
  unfold flagTable
  generalize trees.map (fun t => (quadsOf t).length) = ns
  change rowTable (fun _ _ => WrapFlag.zero) ns = _
  induction ns with
  | nil => rfl
  | cons n ns ih => simp only [rowTable, List.sum_cons]; rw [ih, ← List.replicate_append_replicate]; simp

end P4est
