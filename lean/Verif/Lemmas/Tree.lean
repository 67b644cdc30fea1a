import Verif.Spec.Tree
import Verif.Model.Tree
import Verif.Lemmas.Nca

/-! # Lists of leaves as chains of intervals -/

namespace P4est
open Spec

variable {d : ℕ}

theorem before_disjoint_iff {q r : Quad d} (hq : Aligned q) (hr : Aligned r)
    (hqi : Int32 q.c) (hri : Int32 r.c) :
    (Before q r ∧ Cells q ∩ Cells r = ∅) ↔ stop q ≤ start r := by
  have h := disjoint_iff_interval hq hr hqi hri
  rw [Set.not_nonempty_iff_eq_empty] at h
  have h1 := start_lt_stop q
  have h2 := start_lt_stop r
  rw [h]
  unfold Before
  change (start q < start r ∨ start q = start r ∧ q.level < r.level) ∧ _ ↔ _
  omega

theorem pairwise_stop_iff_chain (ls : List (Quad d)) :
    ls.Pairwise (fun q r => stop q ≤ start r) ↔ ls.IsChain (fun q r => stop q ≤ start r) := by
  have : IsTrans (Quad d) (fun q r => stop q ≤ start r) :=
    ⟨fun a b c h1 h2 => by have := start_lt_stop b; change stop a ≤ start c; omega⟩
  exact List.isChain_iff_pairwise.symm

theorem linear_iff_chain {ls : List (Quad d)} (h : ∀ q ∈ ls, Extended q) :
    Linear ls ↔ ls.IsChain (fun q r => stop q ≤ start r) := by
  rw [← pairwise_stop_iff_chain]
  unfold Linear
  refine List.Pairwise.iff_of_mem fun {q} {r} hq hr => ?_
  exact before_disjoint_iff (h q hq).aligned (h r hr).aligned (h q hq).int32 (h r hr).int32

theorem Spec.Linear.sorted {ls : List (Quad d)} (h : Linear ls) : Sorted ls :=
  h.imp fun h => h.1

theorem Spec.Gapless.chain_le {ls : List (Quad d)} (h : Gapless ls) :
    ls.IsChain (fun q r => stop q ≤ start r) := h.imp fun _ _ h => h.le

theorem Spec.Gapless.linear {ls : List (Quad d)} (h : Gapless ls) (he : ∀ q ∈ ls, Extended q) :
    Linear ls := (linear_iff_chain he).mpr h.chain_le

/-- The cells covered by a gapless list are one contiguous range of the curve. -/
theorem gapless_cover (q : Quad d) (ls : List (Quad d)) (he : ∀ r ∈ q :: ls, Extended r)
    (h : Gapless (q :: ls)) (p : Fin d → ℤ) (hp : Int32 p) :
    p ∈ Cover (q :: ls) ↔
      start q ≤ curve p ∧ curve p < stop ((q :: ls).getLast (List.cons_ne_nil _ _)) := by
  induction ls generalizing q with
  | nil =>
    have hq := he q (by simp)
    unfold Cover
    simp only [List.mem_singleton, exists_eq_left, Set.mem_ofPred_eq, List.getLast_singleton]
    exact mem_iff_pos hq.aligned hq.int32 hp
  | cons r ls ih =>
    have hq := he q (by simp)
    have hch := List.isChain_cons_cons.mp h
    have ihr := ih r (fun x hx => he x (List.mem_cons_of_mem _ hx)) hch.2
    have hm := mem_iff_pos hq.aligned hq.int32 hp
    have hc : p ∈ Cover (q :: r :: ls) ↔ p ∈ Cells q ∨ p ∈ Cover (r :: ls) := by
      unfold Cover; simp [List.mem_cons]
    rw [hc, ihr, hm, List.getLast_cons_cons]
    have h1 := start_lt_stop q
    have h2 := start_lt_stop r
    have h3 : start r < stop ((r :: ls).getLast (List.cons_ne_nil _ _)) := by
      rcases List.mem_cons.mp (List.getLast_mem (List.cons_ne_nil r ls)) with h | h
      · rw [h]; exact h2
      · have hpw := (pairwise_stop_iff_chain _).mpr (Spec.Gapless.chain_le hch.2)
        have := (List.pairwise_cons.mp hpw).1 _ h
        have := start_lt_stop ((r :: ls).getLast (List.cons_ne_nil _ _))
        omega
    have h4 := hch.1
    unfold stop start at *
    omega

/-- The list starts at position `a` of the curve, ends at `b` and has no gaps. -/
def Path : ℕ → List (Quad d) → ℕ → Prop
  | a, [], b => a = b
  | a, q :: ls, b => a = start q ∧ Path (stop q) ls b

theorem Path.le {a b : ℕ} {ls : List (Quad d)} (h : Path a ls b) : a ≤ b := by
  induction ls generalizing a with
  | nil => exact Nat.le_of_eq h
  | cons q ls ih =>
    have := ih h.2
    have := start_lt_stop q
    have := h.1
    omega

theorem path_append {a c : ℕ} {l1 l2 : List (Quad d)} :
    Path a (l1 ++ l2) c ↔ ∃ b, Path a l1 b ∧ Path b l2 c := by
  induction l1 generalizing a with
  | nil => simp [Path]
  | cons q ls ih =>
    simp only [List.cons_append, Path, ih]
    constructor
    · rintro ⟨h, b, h1, h2⟩; exact ⟨b, ⟨h, h1⟩, h2⟩
    · rintro ⟨b, ⟨h, h1⟩, h2⟩; exact ⟨h, b, h1, h2⟩

theorem Path.gapless {a b : ℕ} {ls : List (Quad d)} (h : Path a ls b) : Gapless ls := by
  induction ls generalizing a with
  | nil => exact List.IsChain.nil
  | cons q ls ih =>
    cases ls with
    | nil => exact List.IsChain.singleton q
    | cons r ls => exact List.isChain_cons_cons.mpr ⟨h.2.1, ih h.2⟩

theorem Spec.Gapless.path {ls : List (Quad d)} (h : Gapless ls) : ∃ a b, Path a ls b := by
  cases ls with
  | nil => exact ⟨0, 0, rfl⟩
  | cons q ls =>
    refine ⟨start q, ?_⟩
    induction ls generalizing q with
    | nil => exact ⟨stop q, rfl, rfl⟩
    | cons r ls ih =>
      have hc := List.isChain_cons_cons.mp h
      obtain ⟨b, hb⟩ := ih r hc.2
      refine ⟨b, rfl, ?_⟩
      rw [hc.1]; exact hb

theorem Path.cover {a b : ℕ} {ls : List (Quad d)} (h : Path a ls b)
    (he : ∀ q ∈ ls, Aligned q ∧ Int32 q.c) {p : Fin d → ℤ} (hp : Int32 p) :
    p ∈ Cover ls ↔ a ≤ curve p ∧ curve p < b := by
  induction ls generalizing a with
  | nil =>
    have : a = b := h
    have hn : p ∉ Cover ([] : List (Quad d)) := by rintro ⟨q, hq, _⟩; simp at hq
    constructor
    · intro h'; exact absurd h' hn
    · rintro ⟨h1, h2⟩; omega
  | cons q ls ih =>
    have hq := he q (by simp)
    have := ih h.2 (fun r hr => he r (List.mem_cons_of_mem _ hr))
    have hc : p ∈ Cover (q :: ls) ↔ p ∈ Cells q ∨ p ∈ Cover ls := by
      unfold Cover; simp [List.mem_cons]
    rw [hc, this, mem_iff_pos hq.1 hq.2 hp]
    have h1 := start_lt_stop q
    have h2 := h.1
    have h3 := h.2.le
    unfold stop start at *
    omega

theorem Path.cover_eq {a b : ℕ} {l1 l2 : List (Quad d)} (h1 : Path a l1 b) (h2 : Path a l2 b)
    (e1 : ∀ q ∈ l1, Aligned q ∧ Int32 q.c) (e2 : ∀ q ∈ l2, Aligned q ∧ Int32 q.c) :
    Cover l1 = Cover l2 := by
  ext p
  by_cases hp : Int32 p
  · rw [h1.cover e1 hp, h2.cover e2 hp]
  · constructor
    · rintro ⟨q, hq, hm⟩
      exact absurd (aligned_int32_cells (e1 q hq).1 (e1 q hq).2 hm) hp
    · rintro ⟨q, hq, hm⟩
      exact absurd (aligned_int32_cells (e2 q hq).1 (e2 q hq).2 hm) hp

/-- All quadrants of a path lie between its ends. -/
theorem Path.mem {a b : ℕ} {ls : List (Quad d)} (h : Path a ls b) {q : Quad d} (hq : q ∈ ls) :
    a ≤ start q ∧ stop q ≤ b := by
  induction ls generalizing a with
  | nil => simp at hq
  | cons r ls ih =>
    have h1 := start_lt_stop r
    have h2 := h.1
    have h3 := h.2.le
    rcases List.mem_cons.mp hq with rfl | hq
    · omega
    · have := ih h.2 hq; omega

theorem Path.inj {a b c : ℕ} {ls : List (Quad d)} (h1 : Path a ls b) (h2 : Path a ls c) : b = c := by
  induction ls generalizing a with
  | nil => exact (h1 : a = b).symm.trans h2
  | cons q ls ih => exact ih h1.2 h2.2

theorem children_path_aux {q : Quad d} (hq : Aligned q) (hi : Int32 q.c) (hl : q.level < 30) (n : ℕ)
    (hn : n ≤ 2 ^ d) :
    Path (start q) ((List.range n).map (child q)) (start q + n * volume (child q 0)) := by
  induction n with
  | zero => simp [Path]
  | succ n ih =>
    rw [List.range_succ, List.map_append, path_append]
    refine ⟨_, ih (by omega), ?_⟩
    have hv : volume (child q n) = volume (child q 0) := volume_congr rfl
    have := curve_child hq hi hl (k := n) (by omega)
    rw [hv] at this
    simp only [List.map_cons, List.map_nil, Path]
    unfold stop start
    rw [hv, this]
    constructor
    · rfl
    · ring

theorem children_path {q : Quad d} (hq : Aligned q) (hi : Int32 q.c) (hl : q.level < 30) :
    Path (start q) (childrenv q) (stop q) := by
  have := children_path_aux hq hi hl (2 ^ d) le_rfl
  rw [← volume_child hl 0] at this
  exact this

end P4est
