import Verif.Lemmas.BorderLoop
import Verif.Lemmas.WrapNewly
import Verif.Lemmas.ForestOps
import Verif.Props.WrapReturn
import Verif.Props.Search
import Verif.Props.SearchLocal
import Verif.Lemmas.IterateWindow
import Verif.Model.BalanceReplace

/-! # The replace callback in balance: the parts of a divided leaf -/

namespace P4est
open Spec

variable {d : ℕ} {α σ : Type}

theorem path_covers {L : List (Quad d)} {a b n : ℕ} (h : Path a L b) (h1 : a ≤ n) (h2 : n < b) :
    ∃ q ∈ L, start q ≤ n ∧ n < stop q := by
  induction L generalizing a with
  | nil =>
    have : a = b := h
    omega
  | cons q L ih =>
    have h3 : a = start q := h.1
    by_cases h4 : n < stop q
    · exact ⟨q, by simp, by omega, h4⟩
    · obtain ⟨r, hr, h5⟩ := ih h.2 (by omega)
      exact ⟨r, by simp [hr], h5⟩

/-- The quadrants `L` divide `p` properly. -/
structure DividedBy (p : Quad d) (L : List (Quad d)) : Prop where
  valid : Valid p
  valids : ∀ q ∈ L, Valid q
  path : Path (start p) L (stop p)
  proper : p ∉ L

theorem DividedBy.inside (hd : 0 < d) {p : Quad d} {L : List (Quad d)} (h : DividedBy p L) {q : Quad d} (hq : q ∈ L) :
    Cells q ⊂ Cells p := by
  have h1 := h.path.mem hq
  exact valid_ssubset_of_ne hd h.valid (h.valids q hq) ((valid_subset_iff hd h.valid (h.valids q hq)).mpr h1)
    (fun e => h.proper (e ▸ hq))

theorem DividedBy.level (hd : 0 < d) {p : Quad d} {L : List (Quad d)} (h : DividedBy p L) : p.level < 29 := by
  obtain ⟨q, hq⟩ := List.exists_mem_of_ne_nil _ (path_ne_nil h.path (start_lt_stop p))
  have h1 := (valid_ssubset_iff hd h.valid (h.valids q hq)).mp (h.inside hd hq)
  have := (h.valids q hq).1
  omega

/-- The quadrants within a child of a divided quadrant cover the child. -/
theorem DividedBy.part (hd : 0 < d) {p : Quad d} {L : List (Quad d)} (h : DividedBy p L) {j : ℕ} (hj : j < 2 ^ d)
    {M : List (Quad d)} (hs : M.Sublist L) (hM : ∀ q ∈ L, q ∈ M ↔ Cells q ⊆ Cells (kid p j)) :
    Path (start (kid p j)) M (stop (kid p j)) := by
  have hl := h.level hd
  have hkv := kid_valid h.valid hl j
  have hk := (valid_subset_iff hd h.valid hkv).mp (kid_subset hd h.valid hl hj).1
  apply path_of_cover (start_lt_stop _).le ((path_starts h.path).sublist hs)
  · intro q hq
    have hqL := hs.subset hq
    exact (valid_subset_iff hd hkv (h.valids q hqL)).mp ((hM q hqL).mp hq)
  · intro n h1 h2
    obtain ⟨q, hq, h3, h4⟩ := path_covers h.path (n := n) (by omega) (by omega)
    refine ⟨q, ?_, h3, h4⟩
    rw [hM q hq]
    have hl2 := ((valid_ssubset_iff hd h.valid (h.valids q hq)).mp (h.inside hd hq)).1
    have hkl : (kid p j).level = p.level + 1 := rfl
    rcases valid_cases hd hkv (h.valids q hq) with c | c | c | c | c
    · omega
    · omega
    · rw [c]
    · exact c.2.2.2.1
    · omega

/-- The parts of an array of leaves that divide `p`, and the offsets that `p4est_split_array` returns. -/
theorem DividedBy.parts (hd : 0 < d) {p : Quad d} {arr : List (Leaf d α)} (h : DividedBy p (arr.map Leaf.q)) :
    ∃ ind : ℕ → ℕ, splitArray (arr.map Leaf.q) p.level = (List.range (2 ^ d + 1)).map ind ∧ Monotone ind ∧
      (∀ j, j < 2 ^ d → Path (start (kid p j)) (((arr.drop (ind j)).take (ind (j + 1) - ind j)).map Leaf.q)
        (stop (kid p j))) ∧
      (∀ j, j < 2 ^ d → ind (j + 1) ≤ arr.length) ∧
      arr = (List.range (2 ^ d)).flatMap fun j => (arr.drop (ind j)).take (ind (j + 1) - ind j) := by
  have hl := h.level hd
  have hlin : Linear (arr.map Leaf.q) := h.path.gapless.linear fun q hq => (h.valids q hq).extended
  obtain ⟨ind, e, i0, i1, i2, i3⟩ := C26_split_array hd (arr.map Leaf.q) p h.valid hl h.valids
    (fun q hq => h.inside hd hq) (hlin.imp fun h => before_asymm' h.1)
  rw [List.length_map] at i1
  have hle : ∀ j, j < 2 ^ d → ind (j + 1) ≤ arr.length := fun j hj => by rw [← i1]; exact i2 (by omega)
  refine ⟨ind, e, i2, fun j hj => ?_, hle, ?_⟩
  · apply h.part hd hj
    · rw [List.map_take, List.map_drop]
      exact (List.take_sublist _ _).trans (List.drop_sublist _ _)
    · intro q hq
      obtain ⟨i, hi, rfl⟩ := List.getElem_of_mem hq
      rw [← i3 j hj i hi]
      have hm : ind j ≤ ind (j + 1) := i2 (by omega)
      have hb := hle j hj
      constructor
      · intro hm2
        rw [List.map_take, List.map_drop] at hm2
        obtain ⟨m, hm3, hm4⟩ := List.getElem_of_mem hm2
        rw [List.length_take, List.length_drop, List.length_map] at hm3
        rw [List.getElem_take, List.getElem_drop] at hm4
        have := (path_nodup h.path).getElem_inj_iff.mp hm4
        omega
      · rintro ⟨h1, h2⟩
        rw [List.map_take, List.map_drop, List.mem_take_iff_getElem]
        refine ⟨i - ind j, ?_, ?_⟩
        · rw [List.length_drop]
          omega
        · rw [List.getElem_drop]
          congr 1
          omega
  · have hg : ∀ n, n ≤ 2 ^ d → arr.take (ind n) =
        (List.range n).flatMap fun j => (arr.drop (ind j)).take (ind (j + 1) - ind j) := by
      intro n
      induction n with
      | zero => intro _; rw [i0]; rfl
      | succ n ih =>
        intro hn
        have hm : ind n ≤ ind (n + 1) := i2 (by omega)
        rw [List.range_succ, List.flatMap_append, ← ih (by omega), List.flatMap_singleton]
        conv_lhs => rw [show ind (n + 1) = ind n + (ind (n + 1) - ind n) by omega]
        exact List.take_add
    have := hg (2 ^ d) le_rfl
    rw [i1, List.take_length] at this
    exact this

/-- The children of `p` when `A j` are the leaves within the child number `j`. -/
def famOf (init : Quad d → σ → α × σ) (p : Quad d) (A : ℕ → List (Leaf d α)) : List ℕ → σ → List (Leaf d α) × σ
  | [], s => ([], s)
  | j :: js, s =>
    if (A j).length = 1 then (A j ++ (famOf init p A js s).1, (famOf init p A js s).2)
    else (⟨kid p j, (init (kid p j) s).1⟩ :: (famOf init p A js (init (kid p j) s).2).1, (famOf init p A js (init (kid p j) s).2).2)

/-- The leaves within the children. -/
def partsOf (rec : Leaf d α → List (Leaf d α) → σ → Option (List (Leaf d α) × σ)) (A : ℕ → List (Leaf d α))
    (fam : List (Leaf d α)) : List ℕ → σ → Option (List (Leaf d α) × σ)
  | [], s => some ([], s)
  | j :: js, s => do
    let x ← fam[j]?
    if (A j).length = 1 then do
      let r ← partsOf rec A fam js s
      some (x :: r.1, r.2)
    else do
      let u ← rec x (A j) s
      let r ← partsOf rec A fam js u.2
      some (u.1 ++ r.1, r.2)

theorem sibling_kid {p : Quad d} (hp : Valid p) (hl : p.level < 29) (j : ℕ) :
    sibling ⟨p.c, p.level + 1⟩ j = kid p j := by
  have e : (⟨p.c, p.level + 1⟩ : Quad d) = child p 0 := (child_zero p).symm
  rw [e, sibling_eq (child_aligned hp.aligned (by omega) 0) (by rw [child_level]; omega) j,
    parent_child hp.aligned (by omega), kid_eq_child hp]

theorem famOf_ones (init : Quad d → σ → α × σ) (p : Quad d) (A : ℕ → List (Leaf d α)) : ∀ (js : List ℕ) (s : σ),
    (∀ j ∈ js, (A j).length = 1) → famOf init p A js s = (js.flatMap A, s) := by
  intro js
  induction js with
  | nil => intro s _; rfl
  | cons j js ih =>
    intro s h
    unfold famOf
    rw [if_pos (h j (by simp)), ih s fun k hk => h k (by simp [hk])]
    rfl

theorem partsOf_ones (rec : Leaf d α → List (Leaf d α) → σ → Option (List (Leaf d α) × σ)) (A : ℕ → List (Leaf d α))
    (fam : List (Leaf d α)) (s : σ) : ∀ m a, a + m = fam.length → (∀ j, j < fam.length → (A j).length = 1) →
    partsOf rec A fam (List.range' a m) s = some (fam.drop a, s) := by
  intro m
  induction m with
  | zero =>
    intro a h _
    rw [List.drop_eq_nil_of_le (by omega)]
    rfl
  | succ m ih =>
    intro a h h1
    have ha : a < fam.length := by omega
    rw [List.range'_succ]
    unfold partsOf
    rw [obind (List.getElem?_eq_getElem ha), if_pos (h1 a ha), obind (ih (a + 1) (by omega) h1)]
    rw [List.drop_eq_getElem_cons ha]

theorem ones_of_sum {n : ℕ} {f : ℕ → ℕ} (h : ∀ j, j < n → 1 ≤ f j) (hs : ((List.range n).map f).sum = n) :
    ∀ j, j < n → f j = 1 := by
  have hg : ∀ m, m ≤ n → m ≤ ((List.range m).map f).sum ∧
      (((List.range m).map f).sum = m → ∀ j, j < m → f j = 1) := by
    intro m
    induction m with
    | zero => intro _; exact ⟨Nat.zero_le _, fun _ j hj => absurd hj (by omega)⟩
    | succ m ih =>
      intro hm
      obtain ⟨h1, h2⟩ := ih (by omega)
      have h3 := h m (by omega)
      rw [List.range_succ, List.map_append, List.sum_append]
      simp only [List.map_cons, List.map_nil, List.sum_cons, List.sum_nil]
      refine ⟨by omega, fun h4 j hj => ?_⟩
      rcases Nat.lt_or_ge j m with c | c
      · exact h2 (by omega) j c
      · have : j = m := by omega
        subst this
        omega
  exact (hg n le_rfl).2 hs

/-- One call of the recursive function in terms of the parts. -/
theorem replaceRec_step (hd : 0 < d) (init : Quad d → σ → α × σ)
    (replace : List (Leaf d α) → List (Leaf d α) → σ → (ℕ → α) × σ) (parent : Leaf d α) {arr : List (Leaf d α)}
    (h : DividedBy parent.q (arr.map Leaf.q)) :
    ∃ A : ℕ → List (Leaf d α), arr = (List.range (2 ^ d)).flatMap A ∧
      (∀ j, j < 2 ^ d → Path (start (kid parent.q j)) ((A j).map Leaf.q) (stop (kid parent.q j))) ∧
      ∀ n s, replaceRec init replace (n + 1) parent arr s =
        partsOf (replaceRec init replace n) A
          (callReplace (some replace) [parent] (famOf init parent.q A (List.range (2 ^ d)) s).1
            (famOf init parent.q A (List.range (2 ^ d)) s).2).1 (List.range (2 ^ d))
          (callReplace (some replace) [parent] (famOf init parent.q A (List.range (2 ^ d)) s).1
            (famOf init parent.q A (List.range (2 ^ d)) s).2).2 := by
  have hl := h.level hd
  obtain ⟨ind, e, i2, i3, i4, i5⟩ := h.parts hd
  refine ⟨fun j => (arr.drop (ind j)).take (ind (j + 1) - ind j), i5, i3, fun n s => ?_⟩
  have hlen : ∀ j, j < 2 ^ d → ((arr.drop (ind j)).take (ind (j + 1) - ind j)).length = ind (j + 1) - ind j := by
    intro j hj
    have := i4 j hj
    rw [List.length_take, List.length_drop]
    omega
  conv_lhs => unfold replaceRec
  by_cases hc : arr.length = 2 ^ d
  · rw [if_pos hc]
    have hpos : ∀ j, j < 2 ^ d → 1 ≤ ((arr.drop (ind j)).take (ind (j + 1) - ind j)).length := by
      intro j hj
      have := path_ne_nil (i3 j hj) (start_lt_stop _)
      rw [← List.length_map (f := Leaf.q)]
      exact List.length_pos_iff.mpr this
    have hones := ones_of_sum hpos (by rw [← List.length_flatMap, ← i5, hc])
    rw [famOf_ones _ _ _ _ _ (fun j hj => hones j (List.mem_range.mp hj)), ← i5]
    dsimp only
    have hfl : (callReplace (some replace) [parent] arr s).1.length = 2 ^ d := by
      unfold callReplace
      simp [hc]
    rw [List.range_eq_range', partsOf_ones _ _ _ _ _ _ (by rw [hfl]; omega) (by rw [hfl]; exact hones)]
    rfl
  · rw [if_neg hc, e]
    have hg : ∀ j, j < 2 ^ d + 1 → ((List.range (2 ^ d + 1)).map ind)[j]? = some (ind j) := by
      intro j hj
      rw [List.getElem?_map, List.getElem?_range hj]
      rfl
    have hfam : ∀ (js : List ℕ) (s : σ), (∀ j ∈ js, j < 2 ^ d) →
        replaceFam init parent.q arr ((List.range (2 ^ d + 1)).map ind) js s =
          some (famOf init parent.q (fun j => (arr.drop (ind j)).take (ind (j + 1) - ind j)) js s) := by
      intro js
      induction js with
      | nil => intro s _; rfl
      | cons j js ih =>
        intro s hjs
        have hj := hjs j (by simp)
        have hm : ind j ≤ ind (j + 1) := i2 (by omega)
        have hb := i4 j hj
        unfold replaceFam famOf
        rw [obind (hg j (by omega)), obind (hg (j + 1) (by omega))]
        dsimp only
        rw [hlen j hj]
        by_cases h1 : ind j + 1 = ind (j + 1)
        · have ha : ind j < arr.length := by omega
          rw [if_pos h1, if_pos (by omega), obind (List.getElem?_eq_getElem ha),
            obind (ih s fun k hk => hjs k (by simp [hk]))]
          rw [show ind (j + 1) - ind j = 1 by omega, List.drop_eq_getElem_cons ha]
          rfl
        · rw [if_neg h1, if_neg (by omega), sibling_kid h.valid hl, obind (ih _ fun k hk => hjs k (by simp [hk]))]
    have hparts : ∀ (fam : List (Leaf d α)) (js : List ℕ) (s : σ), (∀ j ∈ js, j < 2 ^ d) →
        replaceParts (replaceRec init replace n) arr fam ((List.range (2 ^ d + 1)).map ind) js s =
          partsOf (replaceRec init replace n) (fun j => (arr.drop (ind j)).take (ind (j + 1) - ind j)) fam js s := by
      intro fam js
      induction js with
      | nil => intro s _; rfl
      | cons j js ih =>
        intro s hjs
        have hj := hjs j (by simp)
        have hm : ind j ≤ ind (j + 1) := i2 (by omega)
        have hb := i4 j hj
        have ih' := fun s => ih s fun k hk => hjs k (by simp [hk])
        unfold replaceParts partsOf
        rw [obind (hg j (by omega)), obind (hg (j + 1) (by omega))]
        rw [hlen j hj]
        cases hx : fam[j]? with
        | none => rfl
        | some x =>
          simp only [Option.bind_eq_bind, Option.bind_some]
          by_cases h1 : ind j + 1 = ind (j + 1)
          · rw [if_pos h1, if_pos (by omega), ih']
          · rw [if_neg h1, if_neg (by omega)]
            simp only [ih']
    dsimp only
    rw [obind (hfam _ _ fun j hj => List.mem_range.mp hj), hparts _ _ _ fun j hj => List.mem_range.mp hj]

end P4est
