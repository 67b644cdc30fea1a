import Verif.Model.Iterate
import Verif.Lemmas.SearchLocal
import Verif.Lemmas.GhostOwner

/-! # Search areas of the iteration -/

namespace P4est
open Spec

variable {d : ℕ}

/-! ### Coordinates -/

theorem subset_coords {q a : Quad d} (h : Cells q ⊆ Cells a) (i : Fin d) :
    a.c i ≤ q.c i ∧ q.c i + side q ≤ a.c i + side a := by
  have hs := side_pos q
  have h0 := h (corner_mem q) i
  have h1 := h (show (fun i => q.c i + side q - 1) ∈ Cells q from fun i => ⟨by dsimp only; omega, by dsimp only; omega⟩) i
  try dsimp only at h1
  omega

theorem kid_c {p : Quad d} (k : ℕ) (i : Fin d) : (kid p k).c i = p.c i + if k.testBit i then side (kid p k) else 0 := rfl

/-- A part of the quadrant `q` lies at face `f` of `a`, for `q` inside `a`. -/
def OnSide (f : ℕ) (q a : Quad d) : Prop :=
  ∀ i : Fin d, (i : ℕ) = f / 2 → if f % 2 = 1 then q.c i + side q = a.c i + side a else q.c i = a.c i

instance (f : ℕ) (q a : Quad d) : Decidable (OnSide f q a) := by unfold OnSide; infer_instance

/-- Corner `k` lies on face `f`. -/
def OnFaceBit (f k : ℕ) : Prop := k.testBit (f / 2) = decide (f % 2 = 1)

instance (f k : ℕ) : Decidable (OnFaceBit f k) := by unfold OnFaceBit; infer_instance

theorem onSide_self (f : ℕ) (a : Quad d) : OnSide f a a := by
  intro i _
  split <;> rfl

theorem onSide_kid {f : ℕ} (hf : f < 2 * d) {q a : Quad d} (hl : a.level < 29) {k : ℕ} (h : Cells q ⊆ Cells (kid a k)) :
    OnSide f q a ↔ OnSide f q (kid a k) ∧ OnFaceBit f k := by
  have hs := side_kid hl k
  have hk := side_pos (kid a k)
  have hq := side_pos q
  set i : Fin d := ⟨f / 2, by omega⟩ with hi
  have hx : ∀ a : Quad d, OnSide f q a ↔ if f % 2 = 1 then q.c i + side q = a.c i + side a else q.c i = a.c i := by
    intro a
    constructor
    · intro h; exact h i rfl
    · intro h j hj
      obtain rfl : j = i := Fin.ext hj
      exact h
  rw [hx, hx]
  have hc := subset_coords h i
  rw [kid_c] at hc ⊢
  unfold OnFaceBit
  have hii : (i : ℕ) = f / 2 := rfl
  rw [hii] at hc ⊢
  by_cases hb : k.testBit (f / 2) = true <;> by_cases ho : f % 2 = 1 <;> simp [hb, ho] at hc ⊢ <;> omega

theorem onSide_layer {f : ℕ} {q a : Quad d} (h : Cells q ⊆ Cells a) (hs : OnSide f q a) {b : Fin d → ℤ} :
    Layer f q b ↔ Layer f a b ∧ b ∈ Cells q := by
  constructor
  · rintro ⟨h1, h2⟩
    refine ⟨⟨h h1, fun i hi => ?_⟩, h1⟩
    have := hs i hi
    have := h2 i hi
    split at this <;> rename_i c <;> simp only [c, if_true, if_false] at * <;> omega
  · rintro ⟨⟨h1, h2⟩, h3⟩
    refine ⟨h3, fun i hi => ?_⟩
    have := hs i hi
    have := h2 i hi
    split at this <;> rename_i c <;> simp only [c, if_true, if_false] at * <;> omega

/-- A quadrant with a cell at the face lies at the face. -/
theorem layer_onSide {f : ℕ} {q a : Quad d} (h : Cells q ⊆ Cells a) {b : Fin d → ℤ} (hb : b ∈ Cells q) (hl : Layer f a b) :
    OnSide f q a := by
  intro i hi
  have h1 := hl.2 i hi
  have h2 := hb i
  have h3 := subset_coords h i
  split at h1
  · rename_i c; rw [if_pos c]; omega
  · rename_i c; rw [if_neg c]; omega

/-! ### Windows -/

open Classical in
/-- The quadrants of the list in the area. -/
noncomputable def inside (L : List (Quad d)) (a : Quad d) : List (Quad d) := L.filter fun q => decide (Cells q ⊆ Cells a)

open Classical in
theorem mem_inside {L : List (Quad d)} {a q : Quad d} : q ∈ inside L a ↔ q ∈ L ∧ Cells q ⊆ Cells a := by
  unfold inside; rw [List.mem_filter, decide_eq_true_eq]

/-- The window holds the quadrants of `L` in the area `a`; `L` is the part of the array from `lo` to `hi`. -/
structure AreaWin (arr : List (Quad d)) (lo hi : ℕ) (L : List (Quad d)) (a : Quad d) (w : Window) : Prop where
  low : lo ≤ w.first
  high : w.first + w.count ≤ hi
  len : hi ≤ arr.length
  eq : (arr.drop w.first).take w.count = inside L a

theorem AreaWin.count {arr : List (Quad d)} {lo hi : ℕ} {L : List (Quad d)} {a : Quad d} {w : Window}
    (h : AreaWin arr lo hi L a w) : w.count = (inside L a).length := by
  have h1 := h.high
  have h2 := h.len
  rw [← h.eq, List.length_take, List.length_drop]
  omega

theorem AreaWin.count_zero {arr : List (Quad d)} {lo hi : ℕ} {L : List (Quad d)} {a : Quad d} {w : Window}
    (h : AreaWin arr lo hi L a w) : w.count = 0 ↔ inside L a = [] := by
  rw [h.count, List.length_eq_zero_iff]

/-- The first quadrant in the area. -/
theorem AreaWin.test {arr : List (Quad d)} {lo hi : ℕ} {L : List (Quad d)} {a : Quad d} {w : Window}
    (h : AreaWin arr lo hi L a w) : testQuad arr w = some (inside L a).head? ∧
      ∀ q, (inside L a).head? = some q → arr[w.first]? = some q ∧ w.first < hi := by
  have h1 := h.high
  have h2 := h.len
  have h3 := h.count
  unfold testQuad
  cases hi : inside L a with
  | nil =>
    rw [hi] at h3
    rw [if_pos (by simpa using h3)]
    exact ⟨rfl, fun q hq => by simp at hq⟩
  | cons x l =>
    rw [hi, List.length_cons] at h3
    have e : arr[w.first]? = some x := by
      have := congrArg (fun l => l[0]?) h.eq
      try simp only at this
      rw [List.getElem?_take_of_lt (by omega), List.getElem?_drop, hi] at this
      simpa using this
    rw [if_neg (by omega), e]
    refine ⟨rfl, fun q hq => ⟨?_, by omega⟩⟩
    simpa using hq

theorem filter_interval {β : Type} (P : β → Bool) (l : List β) (a b : ℕ) (hab : a ≤ b) (hb : b ≤ l.length)
    (h : ∀ i (hi : i < l.length), (a ≤ i ∧ i < b) ↔ P l[i] = true) : (l.drop a).take (b - a) = l.filter P := by
  have e : l = l.take a ++ ((l.drop a).take (b - a) ++ l.drop b) := by
    have : l.drop b = (l.drop a).drop (b - a) := by rw [List.drop_drop]; congr 1; omega
    rw [this, List.take_append_drop, List.take_append_drop]
  have k1 : (l.take a).filter P = [] := by
    rw [List.filter_eq_nil_iff]
    intro x hx
    obtain ⟨i, hi, rfl⟩ := List.mem_iff_getElem.mp hx
    rw [List.length_take] at hi
    rw [List.getElem_take]
    intro hc
    have := (h i (by omega)).mpr hc
    omega
  have k2 : ((l.drop a).take (b - a)).filter P = (l.drop a).take (b - a) := by
    rw [List.filter_eq_self]
    intro x hx
    obtain ⟨i, hi, rfl⟩ := List.mem_iff_getElem.mp hx
    rw [List.length_take, List.length_drop] at hi
    rw [List.getElem_take, List.getElem_drop]
    exact (h (a + i) (by omega)).mp (by omega)
  have k3 : (l.drop b).filter P = [] := by
    rw [List.filter_eq_nil_iff]
    intro x hx
    obtain ⟨i, hi, rfl⟩ := List.mem_iff_getElem.mp hx
    rw [List.length_drop] at hi
    rw [List.getElem_drop]
    intro hc
    have := (h (b + i) (by omega)).mpr hc
    omega
  conv_rhs => rw [e]
  rw [List.filter_append, List.filter_append, k1, k2, k3]
  simp

open Classical in
theorem inside_inside {L : List (Quad d)} {a b : Quad d} (h : Cells b ⊆ Cells a) : inside (inside L a) b = inside L b := by
  unfold inside
  rw [List.filter_filter]
  apply List.filter_congr
  intro x _
  rw [← Bool.decide_and]
  exact decide_eq_decide.mpr ⟨fun h => h.1, fun h' => ⟨h', h'.trans h⟩⟩

theorem before_irrefl' (q : Quad d) : ¬ Before q q := by
  unfold Before; omega

theorem before_asymm' {q r : Quad d} (h : Before q r) : ¬ Before r q := by
  unfold Before at *; omega

open Classical in
/-- The areas of the children, one after the other. -/
theorem AreaWin.tiers (hd : 0 < d) {arr : List (Quad d)} {lo hi : ℕ} {L : List (Quad d)} {a : Quad d} {w : Window}
    (h : AreaWin arr lo hi L a w) (ha : Valid a) (hl : a.level < 29) (hv : ∀ q ∈ L, Valid q) (hs : Sorted L) (hn : a ∉ L) :
    ∃ T : ℕ → ℕ, T 0 = w.first ∧ T (2 ^ d) = w.first + w.count ∧ ∀ k < 2 ^ d, T k ≤ T (k + 1) ∧
      tierWindow (iterTier arr a.level w) k = some ⟨T k, T (k + 1) - T k⟩ ∧
      AreaWin arr lo hi L (kid a k) ⟨T k, T (k + 1) - T k⟩ := by
  have h1 := h.high
  have h2 := h.len
  have h4 := h.low
  unfold iterTier tierWindow
  by_cases hc : w.count = 0
  · rw [if_pos hc]
    refine ⟨fun _ => w.first, rfl, by dsimp only; omega, fun k hk => ⟨le_rfl, ?_, ⟨h.low, by dsimp only; omega, h.len, ?_⟩⟩⟩
    · rw [List.getElem?_replicate, List.getElem?_replicate, if_pos (by omega), if_pos (by omega)]
      simp
    · dsimp only
      rw [Nat.sub_self, List.take_zero, ← inside_inside (kid_subset hd ha hl hk).1, h.count_zero.mp hc]
      rfl
  · rw [if_neg hc, h.eq]
    have hlen := h.count
    obtain ⟨ind, e, i0, i1, i2, i3⟩ := C26_split_array hd (inside L a) a ha hl (fun q hq => hv q (mem_inside.mp hq).1)
      (fun q hq => valid_ssubset_of_ne hd ha (hv q (mem_inside.mp hq).1) (mem_inside.mp hq).2
        (fun c => hn (c ▸ (mem_inside.mp hq).1)))
      (List.Pairwise.imp (fun h => before_asymm' h) (List.Pairwise.sublist List.filter_sublist hs))
    refine ⟨fun k => ind k + w.first, by dsimp only; omega, by dsimp only; omega, fun k hk => ?_⟩
    have hsub := (kid_subset hd ha hl hk).1
    have hle : ind (k + 1) ≤ (inside L a).length := by rw [← i1]; exact i2 (by omega)
    have hmono : ind k ≤ ind (k + 1) := i2 (by omega)
    have hsubt : ind (k + 1) + w.first - (ind k + w.first) = ind (k + 1) - ind k := by omega
    dsimp only
    rw [hsubt]
    refine ⟨by omega, ?_, ⟨?_, ?_, h.len, ?_⟩⟩
    · rw [e, List.map_map]
      have hg : ∀ j, j < 2 ^ d + 1 → (((List.range (2 ^ d + 1)).map ((fun x => x + w.first) ∘ ind)))[j]? = some (ind j + w.first) := by
        intro j hj
        rw [List.getElem?_map, List.getElem?_range hj]
        rfl
      rw [hg k (by omega), hg (k + 1) (by omega)]
      simp only [Option.bind_eq_bind, Option.bind_some]
      congr 2
    · dsimp only; omega
    · dsimp only; omega
    · dsimp only
      have : (inside L a).drop (ind k) = (arr.drop (ind k + w.first)).take (w.count - ind k) := by
        rw [← h.eq, List.drop_take, List.drop_drop]
        congr 2
        omega
      have h5 : ((inside L a).drop (ind k)).take (ind (k + 1) - ind k) =
          (arr.drop (ind k + w.first)).take (ind (k + 1) - ind k) := by
        rw [this, List.take_take]
        congr 1
        omega
      rw [← h5, ← inside_inside hsub]
      conv_rhs => unfold inside
      refine filter_interval _ _ _ _ hmono hle fun i hi => ?_
      rw [decide_eq_true_eq]
      exact i3 k hk i hi

/-- The area of a child. -/
theorem AreaWin.tier (hd : 0 < d) {arr : List (Quad d)} {lo hi : ℕ} {L : List (Quad d)} {a : Quad d} {w : Window}
    (h : AreaWin arr lo hi L a w) (ha : Valid a) (hl : a.level < 29) (hv : ∀ q ∈ L, Valid q) (hs : Sorted L) (hn : a ∉ L)
    {k : ℕ} (hk : k < 2 ^ d) :
    ∃ w', tierWindow (iterTier arr a.level w) k = some w' ∧ AreaWin arr lo hi L (kid a k) w' := by
  obtain ⟨T, -, -, hT⟩ := h.tiers hd ha hl hv hs hn
  exact ⟨_, (hT k hk).2⟩

end P4est
