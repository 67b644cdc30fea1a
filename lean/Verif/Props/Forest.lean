import Verif.Props.Coarsen

/-! # C21: offsets and leaf counts over all local trees -/

namespace P4est
open Spec

variable {d : ℕ} {α σ : Type}

/-- The offset of each tree is the number of leaves in the trees before it, beginning with `n`. -/
def Spec.OffsetsOk : ℤ → List (Tree d α) → Prop
  | _, [] => True
  | n, t :: ts => t.offset = n ∧ OffsetsOk (n + (quadsOf t).length) ts

/-- Number of leaves in a list of trees. -/
def Spec.leafCount (ts : List (Tree d α)) : ℤ := (ts.map fun t => ((quadsOf t).length : ℤ)).sum

/-- C21. Refinement of all local trees: it always succeeds, counters stay consistent, every offset
is the number of local leaves in earlier trees, and the returned local leaf count is the number of
leaves. -/
theorem C21_refine_offsets (hd : 0 < d) (cb : RefineCb d α σ) (recursive : Bool) (allowed : ℕ)
    (ts : List (Tree d α)) (n : ℤ) (s : σ) (hok : ∀ t ∈ ts, CountersOk t) :
    ∃ ts' n' s', refineTrees cb recursive allowed ts n s = some (ts', n', s') ∧
      ts'.length = ts.length ∧ (∀ t ∈ ts', CountersOk t) ∧ OffsetsOk n ts' ∧ n' = n + leafCount ts' := by
  induction ts generalizing n s with
  | nil => exact ⟨[], n, s, rfl, rfl, by simp, trivial, by simp [leafCount]⟩
  | cons t ts ih =>
    obtain ⟨t', s', he, hc, ho⟩ := C21_refine_counters hd cb recursive allowed { t with offset := n } s
      (hok t (by simp))
    obtain ⟨ts', n', s'', he', hlen, hc', ho', hn'⟩ := ih (n + t'.quads.count) s' fun t ht => hok t (by simp [ht])
    have hcount : (t'.quads.count : ℤ) = (quadsOf t').length := by simp [quadsOf, LArr.toList_length]
    refine ⟨t' :: ts', n', s'', ?_, by simp [hlen], ?_, ⟨ho, by rw [← hcount]; exact ho'⟩, ?_⟩
    · rw [refineTrees, he]
      simp only [Option.bind_eq_bind, Option.bind_some]
      rw [he']
      rfl
    · intro x hx
      rcases List.mem_cons.mp hx with rfl | hx
      · exact hc
      · exact hc' x hx
    · rw [hn', hcount]; simp [leafCount]; ring

/-- C21. The same for coarsening; the second component of the result is the change of the local
leaf count. -/
theorem C21_coarsen_offsets (hd : 0 < d) (cb : CoarsenCb d α σ) (recursive orphans : Bool)
    (ts : List (Tree d α)) (n : ℤ) (s : σ) (hok : ∀ t ∈ ts, CountersOk t)
    (hv : ∀ t ∈ ts, ∀ q ∈ quadsOf t, Valid q) (hg : ∀ t ∈ ts, Gapless (quadsOf t)) :
    ∃ ts' change n' s', coarsenTrees cb recursive orphans ts n s = some (ts', change, n', s') ∧
      ts'.length = ts.length ∧ (∀ t ∈ ts', CountersOk t) ∧ OffsetsOk n ts' ∧ n' = n + leafCount ts' ∧
      leafCount ts' = leafCount ts + change := by
  induction ts generalizing n s with
  | nil => exact ⟨[], 0, n, s, rfl, rfl, by simp, trivial, by simp [leafCount], by simp [leafCount]⟩
  | cons t ts ih =>
    obtain ⟨t', rem, off, s', he, hc, ho, hoff⟩ := C21_coarsen_counters hd cb recursive orphans t n s
      (hv t (by simp)) (hg t (by simp)) (hok t (by simp))
    obtain ⟨t1, rem1, off1, s1, he1, -, -, -, -, hrem, -⟩ := C19_coarsen_invariants hd cb recursive orphans t n s
      (hv t (by simp)) (hg t (by simp))
    rw [he] at he1
    simp only [Option.some.injEq, Prod.mk.injEq] at he1
    obtain ⟨rfl, rfl, -, -⟩ := he1
    obtain ⟨ts', ch, n', s'', he', hlen, hc', ho', hn', hch⟩ := ih off s' (fun t ht => hok t (by simp [ht]))
      (fun t ht => hv t (by simp [ht])) (fun t ht => hg t (by simp [ht]))
    refine ⟨t' :: ts', ch - rem, n', s'', ?_, by simp [hlen], ?_, ⟨ho, by rw [← hoff]; exact ho'⟩, ?_, ?_⟩
    · rw [coarsenTrees, he]
      simp only [Option.bind_eq_bind, Option.bind_some]
      rw [he']
      rfl
    · intro x hx
      rcases List.mem_cons.mp hx with rfl | hx
      · exact hc
      · exact hc' x hx
    · rw [hn', hoff]; simp [leafCount]; ring
    · unfold leafCount at *
      simp only [List.map_cons, List.sum_cons]
      rw [hch]; push_cast [← hrem]; ring

example : (∀ t ∈ [fourTree, exampleTree], ∀ q ∈ quadsOf t, Valid q) := by
  intro t ht
  simp only [List.mem_cons, List.not_mem_nil, or_false] at ht
  rcases ht with rfl | rfl
  · exact fourTree_valid
  · rw [exampleTree_quads]
    simp only [List.mem_cons, List.not_mem_nil, or_false, forall_eq_or_imp, forall_eq, ← isValid_iff]
    decide +kernel

end P4est
