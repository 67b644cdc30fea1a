import Verif.Spec.IsValid
import Verif.Lemmas.Partition
import Verif.Props.TreeChecks
import Verif.Props.Curve

/-! # Lemmas for the validity check of a forest -/

namespace P4est
open Spec

variable {d : ℕ} {α β : Type}

theorem tagFrom_head {n t : ℕ} {q : β} {ls : List (List β)} (h : (tagFrom n ls).head? = some (t, q)) :
    n ≤ t ∧ ∃ l, ls[t - n]? = some l ∧ l.head? = some q := by
  induction ls generalizing n with
  | nil => simp [tagFrom] at h
  | cons l ls ih =>
    cases l with
    | nil =>
      simp only [tagFrom, List.map_nil, List.nil_append] at h
      obtain ⟨h1, l', h2, h3⟩ := ih h
      refine ⟨by omega, l', ?_, h3⟩
      rw [show t - n = (t - (n + 1)) + 1 by omega, List.getElem?_cons_succ]
      exact h2
    | cons a l =>
      simp only [tagFrom, List.map_cons, List.cons_append, List.head?_cons, Option.some.injEq, Prod.mk.injEq] at h
      obtain ⟨rfl, rfl⟩ := h
      exact ⟨le_rfl, a :: l, by simp, rfl⟩

theorem tagFrom_last {n t : ℕ} {q : β} {ls : List (List β)} (h : (tagFrom n ls).getLast? = some (t, q)) :
    n ≤ t ∧ ∃ l, ls[t - n]? = some l ∧ l.getLast? = some q := by
  induction ls generalizing n with
  | nil => simp [tagFrom] at h
  | cons l ls ih =>
    rw [tagFrom, List.getLast?_append] at h
    cases hr : (tagFrom (n + 1) ls).getLast? with
    | none =>
      rw [hr, Option.none_or, List.getLast?_map] at h
      cases hl : l.getLast? with
      | none => rw [hl] at h; simp at h
      | some q' =>
        rw [hl] at h
        simp only [Option.map_some, Option.some.injEq, Prod.mk.injEq] at h
        obtain ⟨rfl, rfl⟩ := h
        exact ⟨le_rfl, l, by simp, hl⟩
    | some y =>
      rw [hr, Option.some_or, Option.some.injEq] at h
      subst h
      obtain ⟨h1, l', h2, h3⟩ := ih hr
      refine ⟨by omega, l', ?_, h3⟩
      rw [show t - n = (t - (n + 1)) + 1 by omega, List.getElem?_cons_succ]
      exact h2

theorem tagFrom_mem {n k : ℕ} {q : β} {l : List β} {ls : List (List β)} (hl : ls[k]? = some l) (hq : q ∈ l) : (n + k, q) ∈ tagFrom n ls := by
  induction ls generalizing n k with
  | nil => simp at hl
  | cons l' ls ih =>
    rw [tagFrom, List.mem_append]
    cases k with
    | zero =>
      simp only [List.getElem?_cons_zero, Option.some.injEq] at hl
      subst hl
      exact Or.inl (List.mem_map.mpr ⟨q, hq, rfl⟩)
    | succ k =>
      rw [List.getElem?_cons_succ] at hl
      right
      have := ih (n := n + 1) hl
      rw [show n + (k + 1) = n + 1 + k by omega]
      exact this

theorem tagFrom_ge {n : ℕ} {ls : List (List β)} : ∀ x ∈ tagFrom n ls, n ≤ x.1 := by
  induction ls generalizing n with
  | nil => intro x hx; simp [tagFrom] at hx
  | cons l ls ih =>
    intro x hx
    rw [tagFrom, List.mem_append] at hx
    rcases hx with hx | hx
    · obtain ⟨q, -, rfl⟩ := List.mem_map.mp hx; exact le_rfl
    · have := ih x hx; omega

theorem tagFrom_sorted {n : ℕ} {ls : List (List β)} : (tagFrom n ls).Pairwise fun x y => x.1 ≤ y.1 := by
  induction ls generalizing n with
  | nil => simp [tagFrom]
  | cons l ls ih =>
    rw [tagFrom, List.pairwise_append]
    refine ⟨List.pairwise_of_forall_mem_list ?_, ih, ?_⟩
    · intro x hx y hy
      obtain ⟨q, -, rfl⟩ := List.mem_map.mp hx
      obtain ⟨q', -, rfl⟩ := List.mem_map.mp hy
      exact le_rfl
    · intro x hx y hy
      obtain ⟨q, -, rfl⟩ := List.mem_map.mp hx
      have := tagFrom_ge y hy
      show n ≤ y.1
      omega

theorem tagFrom_length {n : ℕ} {ls : List (List β)} : (tagFrom n ls).length = (ls.flatMap id).length := by
  induction ls generalizing n with
  | nil => rfl
  | cons l ls ih => rw [tagFrom, List.length_append, List.length_map, ih, List.flatMap_cons, List.length_append]; rfl

theorem head_le {γ : Type} {r : γ → γ → Prop} (hr : ∀ a, r a a) {l : List γ} (h : l.Pairwise r) {x y : γ} (hx : l.head? = some x) (hy : y ∈ l) : r x y := by
  cases l with
  | nil => simp at hx
  | cons a l =>
    simp only [List.head?_cons, Option.some.injEq] at hx
    subst hx
    rcases List.mem_cons.mp hy with rfl | hy
    · exact hr _
    · exact (List.pairwise_cons.mp h).1 y hy

theorem le_last {γ : Type} {r : γ → γ → Prop} (hr : ∀ a, r a a) {l : List γ} (h : l.Pairwise r) {x y : γ} (hx : l.getLast? = some x) (hy : y ∈ l) : r y x := by
  have hp : l.reverse.Pairwise fun a b => r b a := List.pairwise_reverse.mpr h
  exact head_le (r := fun a b => r b a) hr hp (by rw [List.head?_reverse]; exact hx) (List.mem_reverse.mpr hy)

/-- The leaves of one tree in a path. -/
theorem path_of_gpath {n a c : ℕ} {l : List (Quad d)} (h : GPath a (l.map fun q => (n, q)) c) (hne : l ≠ []) :
    ∃ a' c', a = n * 2 ^ (d * 30) + a' ∧ c = n * 2 ^ (d * 30) + c' ∧ Path a' l c' := by
  induction l generalizing a with
  | nil => exact absurd rfl hne
  | cons q l ih =>
    obtain ⟨h1, h2⟩ := h
    cases l with
    | nil => exact ⟨start q, stop q, h1, (Eq.symm h2 : c = _), rfl, rfl⟩
    | cons r l =>
      obtain ⟨a', c', e1, e2, e3⟩ := ih h2 (by simp)
      refine ⟨start q, c', h1, e2, rfl, ?_⟩
      have : stop q = a' := by
        have : n * 2 ^ (d * 30) + stop q = n * 2 ^ (d * 30) + a' := e1
        omega
      rw [this]
      exact e3

theorem tag_path {n : ℕ} {ls : List (List (Quad d))} {a b : ℕ} (h : GPath a (tagFrom n ls) b) : ∀ l ∈ ls, ∃ a' b', Path a' l b' := by
  induction ls generalizing n a with
  | nil => intro l hl; simp at hl
  | cons l ls ih =>
    rw [tagFrom, gpath_append] at h
    obtain ⟨c, h1, h2⟩ := h
    intro l' hl'
    rcases List.mem_cons.mp hl' with rfl | hl'
    · cases hl : l' with
      | nil => exact ⟨0, 0, rfl⟩
      | cons q rest =>
        obtain ⟨a', c', -, -, e⟩ := path_of_gpath h1 (by rw [hl]; simp)
        exact ⟨a', c', hl ▸ e⟩
    · exact ih h2 l' hl'

theorem gpath_last {a b : ℕ} {ls : List (ℕ × Quad d)} (h : GPath a ls b) {x : ℕ × Quad d} (hx : ls.getLast? = some x) : gstop x = b := by
  induction ls generalizing a with
  | nil => simp at hx
  | cons y ls ih =>
    cases ls with
    | nil =>
      simp only [List.getLast?_singleton, Option.some.injEq] at hx
      subst hx
      exact h.2
    | cons z ls =>
      rw [List.getLast?_cons_cons] at hx
      exact ih h.2 hx

/-! ### Levels -/

theorem filter_level_step (l : ℕ) (qs : List (Quad d × α)) :
    ((qs.filter fun q => decide (l ≤ q.1.level)).length : ℤ) =
      (qs.filter fun q => decide (q.1.level = l)).length + (qs.filter fun q => decide (l + 1 ≤ q.1.level)).length := by
  induction qs with
  | nil => simp
  | cons q qs ih =>
    simp only [List.filter_cons]
    by_cases h1 : q.1.level = l
    · simp only [h1, le_refl, decide_true, ↓reduceIte, List.length_cons, Nat.not_succ_le_self, decide_false, Bool.false_eq_true]
      push_cast; omega
    · by_cases h2 : l + 1 ≤ q.1.level
      · simp only [h1, h2, (show l ≤ q.1.level by omega), decide_true, ↓reduceIte, List.length_cons, decide_false, Bool.false_eq_true]
        push_cast; omega
      · simp only [h1, h2, (show ¬ l ≤ q.1.level by omega), decide_false, Bool.false_eq_true, ↓reduceIte]
        exact ih

theorem levelScan_spec (qs : List (Quad d × α)) (perLevel : ℕ → ℤ) (h29 : ∀ q ∈ qs, q.1.level ≤ 29)
    (hp : ∀ l ≤ 29, perLevel l = ((qs.filter fun q => decide (q.1.level = l)).length : ℤ)) :
    ∀ (n l : ℕ) (m c : ℤ), l + n = 30 → ∃ M, levelScan l m c ((List.range' l n).map perLevel) =
        some (M, c + ((qs.filter fun q => decide (l ≤ q.1.level)).length : ℤ)) ∧
      ((∃ q ∈ qs, l ≤ q.1.level) → (∃ q ∈ qs, (q.1.level : ℤ) = M) ∧ ∀ q ∈ qs, (q.1.level : ℤ) ≤ M) ∧
      ((∀ q ∈ qs, q.1.level < l) → M = m) := by
  intro n
  induction n with
  | zero =>
    intro l m c hl
    have : qs.filter (fun q => decide (l ≤ q.1.level)) = [] := by
      rw [List.filter_eq_nil_iff]
      intro q hq
      have := h29 q hq
      simp; omega
    rw [this]
    refine ⟨m, by simp [levelScan], ?_, fun _ => rfl⟩
    rintro ⟨q, hq, hql⟩
    have := h29 q hq
    omega
  | succ n ih =>
    intro l m c hl
    rw [List.range'_succ, List.map_cons, levelScan, if_neg (by rw [hp l (by omega)]; omega)]
    obtain ⟨M, h1, h2, h3⟩ := ih (l + 1) (if perLevel l > 0 then (l : ℤ) else m) (c + perLevel l) (by omega)
    refine ⟨M, ?_, ?_, ?_⟩
    · rw [h1, filter_level_step l qs, hp l (by omega)]
      congr 2
      ring
    · rintro ⟨q, hq, hql⟩
      by_cases hex : ∃ q ∈ qs, l + 1 ≤ q.1.level
      · exact h2 hex
      · have hall : ∀ q ∈ qs, q.1.level < l + 1 := fun q hq => by
          by_contra hc
          exact hex ⟨q, hq, by omega⟩
        have hM := h3 hall
        have hql' : q.1.level = l := by have := hall q hq; omega
        have hpos : perLevel l > 0 := by
          rw [hp l (by omega)]
          have : q ∈ qs.filter fun q => decide (q.1.level = l) := List.mem_filter.mpr ⟨hq, by simpa using hql'⟩
          have := List.length_pos_of_mem this
          omega
        rw [if_pos hpos] at hM
        subst hM
        exact ⟨⟨q, hq, by rw [hql']⟩, fun q' hq' => by have := hall q' hq'; omega⟩
    · intro hall
      rw [h3 fun q hq => by have := hall q hq; omega]
      have : perLevel l = 0 := by
        rw [hp l (by omega)]
        have : qs.filter (fun q => decide (q.1.level = l)) = [] := by
          rw [List.filter_eq_nil_iff]
          intro q hq
          have := hall q hq
          simp; omega
        rw [this]; rfl
      rw [this]; simp

/-! ### Trees -/

theorem lastDesc_eq (q : Quad d) :
    lastDesc q QMAXLEVEL = ⟨fun i => q.c i + 2 ^ (30 - q.level) - 2, 29⟩ := by
  unfold lastDesc
  congr 1
  funext i
  show q.c i + (qlen q.level - qlen 29) = _
  rw [qlen_def, qlen_def]
  norm_num
  ring

theorem checkTrees_ok {first last : ℤ} : ∀ (rest : List (TreeMembers d α)) (jt : ℕ) (lq : ℤ),
    (∀ k tr, rest[k]? = some tr → checkTree first last (jt + k) tr (lq + ((rest.take k).flatMap (·.quads)).length) =
      some (lq + ((rest.take k).flatMap (·.quads)).length + tr.quads.length)) →
    checkTrees first last jt rest lq = some (lq + (rest.flatMap (·.quads)).length) := by
  intro rest
  induction rest with
  | nil => intro jt lq _; simp [checkTrees]
  | cons t rest ih =>
    intro jt lq h
    have h0 := h 0 t (by simp)
    simp only [List.take_zero, List.flatMap_nil, List.length_nil, Nat.cast_zero, add_zero] at h0
    rw [checkTrees, h0, Option.bind_some, ih]
    · rw [List.flatMap_cons, List.length_append]; push_cast; congr 1; ring
    · intro k tr hk
      have := h (k + 1) tr (by simpa using hk)
      rw [List.take_succ_cons, List.flatMap_cons, List.length_append] at this
      push_cast at this ⊢
      rw [show jt + (k + 1) = jt + 1 + k by omega, ← add_assoc] at this
      exact this

end P4est
