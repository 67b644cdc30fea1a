import Verif.Model.RemoveNonowned
import Verif.Spec.Owned
import Verif.Lemmas.IsValid
import Verif.Props.Neighborhood

/-! # C104: removing the quadrants that a process does not own -/

namespace P4est
open Spec

variable {d : ℕ} {β : Type}

/-- What holds after `z` turns of the loop. -/
structure RemovalInv (bad : Quad d → Bool) (orig : List (Quad d × β)) (p : ℕ → ℤ) (z : ℕ) (s : Removal d β) : Prop where
  length : s.quads.length = orig.length
  front : s.quads.take ((orig.take z).filter fun x => !bad x.1).length = (orig.take z).filter fun x => !bad x.1
  back : s.quads.drop z = orig.drop z
  good : s.prevGood = if (orig.take z).filter (fun x => !bad x.1) = [] then orig.length
    else ((orig.take z).filter fun x => !bad x.1).length - 1
  removed : s.removed = ((orig.take z).filter fun x => bad x.1).length
  perLevel : ∀ l, s.perLevel l = p l - ((orig.take z).filter fun x => bad x.1).countP fun x => decide (x.1.level = l)
  freed : s.freed = ((orig.take z).filter fun x => bad x.1).map Prod.snd

theorem RemovalInv.step {bad : Quad d → Bool} {orig : List (Quad d × β)} {p : ℕ → ℤ} {z : ℕ} {s : Removal d β}
    (h : RemovalInv bad orig p z s) (hz : z < orig.length) :
    RemovalInv bad orig p (z + 1) (removalStep bad orig.length s z) := by
  obtain ⟨x, hx⟩ : ∃ x, orig[z]? = some x := ⟨orig[z], List.getElem?_eq_getElem hz⟩
  have hsx : s.quads[z]? = some x := by
    have := congrArg (fun l => l[0]?) h.back
    simpa [hx] using this
  have htake : orig.take (z + 1) = orig.take z ++ [x] := by rw [List.take_add_one, hx]; rfl
  have hback : s.quads.drop (z + 1) = orig.drop (z + 1) := by
    have := congrArg (List.drop 1) h.back
    simpa [List.drop_drop] using this
  have hle : ((orig.take z).filter fun x => !bad x.1).length ≤ z :=
    (List.length_filter_le _ _).trans (by simp)
  unfold removalStep
  rw [hsx]
  dsimp only
  by_cases hb : bad x.1 = true
  · rw [if_pos hb]
    have f1 : (orig.take (z + 1)).filter (fun x => !bad x.1) = (orig.take z).filter fun x => !bad x.1 := by
      rw [htake, List.filter_append]; simp [hb]
    have f2 : (orig.take (z + 1)).filter (fun x => bad x.1) = ((orig.take z).filter fun x => bad x.1) ++ [x] := by
      rw [htake, List.filter_append]; simp [hb]
    refine ⟨h.length, by rw [f1]; exact h.front, hback, by rw [f1]; exact h.good, ?_, fun l => ?_, ?_⟩
    · rw [f2]; simp [h.removed]
    · rw [f2, List.countP_append]
      dsimp only
      rw [h.perLevel l]
      by_cases hl : l = x.1.level
      · rw [if_pos hl]; simp [hl]; ring
      · rw [if_neg hl]; simp [Ne.symm hl]
    · rw [f2]; simp [h.freed]
  · rw [if_neg hb]
    have f1 : (orig.take (z + 1)).filter (fun x => !bad x.1) = ((orig.take z).filter fun x => !bad x.1) ++ [x] := by
      rw [htake, List.filter_append]; simp [hb]
    have f2 : (orig.take (z + 1)).filter (fun x => bad x.1) = (orig.take z).filter fun x => bad x.1 := by
      rw [htake, List.filter_append]; simp [hb]
    have hk : (if s.prevGood = orig.length then 0 else s.prevGood + 1) = ((orig.take z).filter fun x => !bad x.1).length := by
      rw [h.good]
      by_cases hn : (orig.take z).filter (fun x => !bad x.1) = []
      · rw [if_pos hn, if_pos rfl, hn]; rfl
      · rw [if_neg hn]
        have := List.length_pos_iff.mpr hn
        rw [if_neg (by omega)]
        omega
    rw [hk]
    have hfront := h.front
    generalize (orig.take z).filter (fun x => !bad x.1) = K at *
    refine ⟨?_, ?_, ?_, ?_, by rw [f2]; exact h.removed, by rw [f2]; exact h.perLevel, by rw [f2]; exact h.freed⟩
    · dsimp only; split <;> simp [h.length]
    · rw [f1, List.length_append, List.length_singleton, List.take_add_one]
      dsimp only
      split
      · rw [List.take_set_of_le (le_refl _), hfront, List.getElem?_set_self (by rw [h.length]; omega)]; rfl
      · have : K.length = z := by omega
        rw [hfront, this, hsx]; rfl
    · dsimp only
      split
      · rw [List.drop_set_of_lt (by omega)]; exact hback
      · exact hback
    · rw [f1]; simp

theorem removal_loop {bad : Quad d → Bool} {orig : List (Quad d × β)} {p : ℕ → ℤ} (z : ℕ) (hz : z ≤ orig.length) :
    RemovalInv bad orig p z ((List.range z).foldl (removalStep bad orig.length) ⟨orig, orig.length, 0, p, []⟩) := by
  induction z with
  | zero => exact ⟨rfl, by simp, rfl, by simp, by simp, by simp, by simp⟩
  | succ z ih =>
    rw [List.range_succ, List.foldl_append]
    exact (ih (by omega)).step (by omega)

/-- The condition of the loop says whether the quadrant is not owned. -/
theorem outsideOwned_iff (hd : 0 < d) {trees : List (List (Quad d))} {P : ℕ} {leaves : ℕ → List (ℕ × Quad d)}
    (h : Distributed trees P leaves) {r : ℕ} (hr : r < P) {t : ℕ} {y : Quad d} (hy : (t, y) ∈ leaves r)
    {x0 xl : ℕ × Quad d} (h0 : (leaves r).head? = some x0) (hl : (leaves r).getLast? = some xl)
    {full : Bool × Bool} (hfull : fullTree (globalPartition leaves P trees.length) r x0.1 xl.1 t = some full)
    {first next : GPos d} (hfirst : (globalPartition leaves P trees.length)[r]? = some first)
    (hnext : (globalPartition leaves P trees.length)[r + 1]? = some next) {q : Quad d} (hq : Extended q) :
    outsideOwned full first next q = true ↔ ¬ WithinLeaves (leaves r) t q := by
  obtain ⟨s, hs⟩ := h.segments hd
  by_cases hin : isInsideRoot q = true
  swap
  · have : outsideOwned full first next q = true := by unfold outsideOwned; simp [hin]
    rw [this]
    simp only [true_iff]
    intro hown
    obtain ⟨x, hx, -, hc⟩ := hown q.c (corner_mem q)
    have hv : ∀ i, 0 ≤ q.c i ∧ q.c i < 2 ^ 30 := valid_cells_inTree (hs.leaf r hr _ hx).2 hc
    apply hin
    unfold isInsideRoot rootLen MAXLEVEL
    simpa using hv
  have hqv : Valid q := ⟨hq.1, hq.2.1, by unfold isInsideRoot rootLen MAXLEVEL at hin; simpa [InRoot] using hin⟩
  obtain ⟨b, hb, hiff⟩ := C27_is_contained hd trees P leaves h t q hqv r hr
  unfold WithinLeaves
  rw [← hiff]
  obtain ⟨k1, k2⟩ := full_owned hd hs hr hy h0 hl hfull
  obtain ⟨c, e1, a1⟩ := globalPartition_at hd hs r hr.le
  obtain ⟨c', e2, a2⟩ := globalPartition_at hd hs (r + 1) hr
  obtain rfl : c = first := by rw [hfirst] at e1; exact (Option.some.inj e1).symm
  obtain rfl : c' = next := by rw [hnext] at e2; exact (Option.some.inj e2).symm
  have hpath := hs.path r hr
  have hym := hpath.mem hy
  have hys : stop y ≤ 2 ^ (d * 30) := valid_stop_le hd (hs.leaf r hr _ hy).2
  have hyss := start_lt_stop y
  have hlast := gpath_last hpath hl
  have hxl := valid_stop_le hd (hs.leaf r hr _ (List.mem_of_getLast? hl)).2
  have hhead : s r = gstart x0 := by
    cases hlr : leaves r with
    | nil => rw [hlr] at h0; cases h0
    | cons a ls =>
      rw [hlr] at h0 hpath
      rw [← Option.some.inj h0]
      exact hpath.1
  have hV : 0 < 2 ^ (d * 30) := by positivity
  have hp1 := a1.pos
  obtain ⟨u, u1, u2, u3⟩ := a1
  obtain ⟨w, w1, w2, w3⟩ := a2
  have cu := curve_lt_of_inTree u2
  have cw := curve_lt_of_inTree w2
  unfold gstart gstop at hym
  unfold gstart at hhead
  unfold gstop at hlast
  simp only at hym
  have i1 := beginsBefore_iff hd (g := c) (t := (t : ℤ)) (q := q) u2 (valid_inTree hqv)
  have n1 : full.1 = true → ¬ beginsBefore c t q = true := fun hf hb => by
    have hk := k1 hf
    have hb' := i1.mp hb
    rw [hp1] at hb'
    unfold forestPos at hb'
    have : t * 2 ^ (d * 30) + curve q.c < s r := by exact_mod_cast hb'
    omega
  have hflags := hfull
  unfold fullTree at hflags
  simp only [e1, e2, Option.bind_eq_bind, Option.bind_some, Option.some.injEq] at hflags
  generalize (2 : ℕ) ^ (d * 30) = V at *
  have hut : u ≤ t := by
    by_contra hc
    have : (t + 1) * V ≤ u * V := Nat.mul_le_mul_right _ (by omega)
    rw [Nat.add_one_mul] at this
    omega
  have htw : t ≤ w := by
    by_contra hc
    have : (w + 1) * V ≤ t * V := Nat.mul_le_mul_right _ (by omega)
    rw [Nat.add_one_mul] at this
    omega
  have j1 : beginsBefore c t q = (!full.1 && (decide (compare q c.quad < 0) && decide (∃ i, q.c i ≠ c.c i))) := by
    by_cases hf : full.1 = true
    · have hnot := n1 hf
      rw [hf]; simpa using hnot
    · have hf' : full.1 = false := by simpa using hf
      have hx0 : t ≤ x0.1 := by
        rw [← hflags] at hf'
        simp only [Bool.or_eq_false_iff, decide_eq_false_iff_not] at hf'
        omega
      have : t ≤ u := by
        by_contra hc
        have e : (u + 1) * V ≤ t * V := Nat.mul_le_mul_right _ (by omega)
        have e' : t * V ≤ x0.1 * V := Nat.mul_le_mul_right _ hx0
        rw [Nat.add_one_mul] at e
        omega
      have hut' : u = t := by omega
      unfold beginsBefore
      rw [hf', u1, hut']
      simp
  have j2 : ((t : ℤ) > c'.tree ∨ ((t : ℤ) = c'.tree ∧ compare c'.quad (lastDesc q QMAXLEVEL) ≤ 0)) ↔
      (!full.2 && decide (compare c'.quad (lastDesc q QMAXLEVEL) ≤ 0)) = true := by
    rw [w1]
    by_cases hf : full.2 = true
    · have hsr := k2 hf
      have : t < w := by
        by_contra hc
        have : w * V ≤ t * V := Nat.mul_le_mul_right _ (by omega)
        rw [Nat.add_one_mul] at hsr
        omega
      rw [hf]
      simp; omega
    · have hf' : full.2 = false := by simpa using hf
      have hx : xl.1 ≤ t ∧ ¬ ∀ i, c'.c i = 0 := by
        rw [← hflags] at hf'
        simp only [Bool.or_eq_false_iff, decide_eq_false_iff_not] at hf'
        exact ⟨by omega, hf'.2⟩
      have : w = t := by
        by_contra hc
        have e : (t + 1) * V ≤ w * V := Nat.mul_le_mul_right _ (by omega)
        have e' : xl.1 * V ≤ t * V := Nat.mul_le_mul_right _ hx.1
        rw [Nat.add_one_mul] at e
        have hz : curve c'.c = 0 := by omega
        have : c'.c = fun _ => 0 := curve_inj w2.int32 inTree_zero.int32 (by rw [hz, curve_zero])
        exact hx.2 fun i => by rw [this]
      rw [hf', this]
      simp
  unfold isContained at hb
  simp only [e1, e2, Option.bind_eq_bind, Option.bind_some] at hb
  unfold outsideOwned
  rw [hin, ← j1, Bool.or_eq_true, Bool.or_eq_true, ← j2]
  by_cases g1 : beginsBefore c t q = true
  · rw [if_pos g1] at hb
    rw [← Option.some.inj hb]; simp [g1]
  · rw [if_neg g1] at hb
    by_cases g2 : ((t : ℤ) > c'.tree ∨ ((t : ℤ) = c'.tree ∧ compare c'.quad (lastDesc q QMAXLEVEL) ≤ 0))
    · rw [if_pos g2] at hb
      rw [← Option.some.inj hb]; simp only [g2]; simp
    · rw [if_neg g2] at hb
      rw [← Option.some.inj hb]; simp only [g2]; simp [g1]

theorem foldl_max_level (l : List (Quad d × β)) (m : ℕ) :
    m ≤ l.foldl (fun m x => max m x.1.level) m ∧ (∀ x ∈ l, x.1.level ≤ l.foldl (fun m x => max m x.1.level) m) ∧
      (l.foldl (fun m x => max m x.1.level) m = m ∨ ∃ x ∈ l, x.1.level = l.foldl (fun m x => max m x.1.level) m) := by
  induction l generalizing m with
  | nil => simp
  | cons a l ih =>
    obtain ⟨i1, i2, i3⟩ := ih (max m a.1.level)
    simp only [List.foldl_cons]
    refine ⟨by omega, ?_, ?_⟩
    · intro x hx
      rcases List.mem_cons.mp hx with rfl | hx
      · omega
      · exact i2 x hx
    · rcases i3 with h | ⟨x, hx, h⟩
      · rcases le_total a.1.level m with hm | hm
        · left; rw [h]; omega
        · right; exact ⟨a, List.mem_cons_self, by rw [h]; omega⟩
      · right; exact ⟨x, List.mem_cons_of_mem _ hx, h⟩

open Classical in
/-- C104.  Let a process own leaves of the tree `t`, and let `quads` be quadrants now stored for this tree, some
maybe outside of the tree, with their user data.  `p4est_tree_remove_nonowned` keeps exactly those quadrants all
of whose cells belong to the leaves of the process in this tree, with their data and in their order.  It frees
the data of all others, each once, returns their number, and takes them off the counts per level.  The maximum
level is attained by a quadrant kept and bounds the level of all of them; it is zero if none is kept. -/
theorem C104_remove_nonowned (hd : 0 < d) {trees : List (List (Quad d))} {P : ℕ} {leaves : ℕ → List (ℕ × Quad d)}
    (h : Distributed trees P leaves) {r : ℕ} (hr : r < P) {t : ℕ} {y : Quad d} (hy : (t, y) ∈ leaves r)
    {x0 xl : ℕ × Quad d} (h0 : (leaves r).head? = some x0) (hl : (leaves r).getLast? = some xl)
    {quads : List (Quad d × β)} (hne : quads ≠ []) (hq : ∀ x ∈ quads, Extended x.1) (perLevel : ℕ → ℤ) (maxlevel : ℕ) :
    ∃ kept perLevel' maxlevel' freed,
      removeNonowned (globalPartition leaves P trees.length) r x0.1 xl.1 t quads perLevel maxlevel =
        some (kept, perLevel', maxlevel', freed.length, freed) ∧
      kept = quads.filter (fun x => WithinLeaves (leaves r) t x.1) ∧
      freed = (quads.filter fun x => ¬ WithinLeaves (leaves r) t x.1).map Prod.snd ∧
      (∀ l, perLevel' l = perLevel l - (quads.filter fun x => ¬ WithinLeaves (leaves r) t x.1).countP fun x => x.1.level = l) ∧
      (∀ x ∈ kept, x.1.level ≤ maxlevel') ∧ (kept = [] ∧ maxlevel' = 0 ∨ ∃ x ∈ kept, x.1.level = maxlevel') := by
  obtain ⟨s, hs⟩ := h.segments hd
  obtain ⟨c, e1, -⟩ := globalPartition_at hd hs r hr.le
  obtain ⟨c', e2, -⟩ := globalPartition_at hd hs (r + 1) hr
  obtain ⟨full, hfull⟩ : ∃ full, fullTree (globalPartition leaves P trees.length) r x0.1 xl.1 t = some full := by
    unfold fullTree; rw [e1, e2]; exact ⟨_, rfl⟩
  have hb : ∀ x ∈ quads, (outsideOwned full c c' x.1 = true ↔ ¬ WithinLeaves (leaves r) t x.1) := fun x hx =>
    outsideOwned_iff hd h hr hy h0 hl hfull e1 e2 (hq x hx)
  have inv := removal_loop (bad := outsideOwned full c c') (orig := quads) (p := perLevel) quads.length le_rfl
  have g1 : quads.filter (fun x => !outsideOwned full c c' x.1) = quads.filter (fun x => WithinLeaves (leaves r) t x.1) := by
    apply List.filter_congr
    intro x hx
    have := hb x hx
    by_cases ho : WithinLeaves (leaves r) t x.1 <;> simp [ho] at this ⊢ <;> exact this
  have g2 : quads.filter (fun x => outsideOwned full c c' x.1) = quads.filter (fun x => ¬ WithinLeaves (leaves r) t x.1) := by
    apply List.filter_congr
    intro x hx
    have := hb x hx
    by_cases ho : WithinLeaves (leaves r) t x.1 <;> simp [ho] at this ⊢ <;> exact this
  have i1 := inv.front
  have i2 := inv.good
  have i3 := inv.removed
  have i4 := inv.perLevel
  have i5 := inv.freed
  simp only [List.take_length, g1, g2] at i1 i2 i3 i4 i5
  unfold removeNonowned
  rw [if_neg (fun h => hne (List.length_eq_zero_iff.mp h)), hfull, e1, e2]
  simp only [Option.bind_eq_bind, Option.bind_some]
  generalize (List.range quads.length).foldl (removalStep (outsideOwned full c c') quads.length) ⟨quads, quads.length, 0, perLevel, []⟩ = S at *
  have hlen : (quads.filter fun x => WithinLeaves (leaves r) t x.1).length ≤ quads.length := List.length_filter_le _ _
  have hkept : (if S.prevGood = quads.length then S.quads.take 0 else S.quads.take (S.prevGood + 1)) =
      quads.filter (fun x => WithinLeaves (leaves r) t x.1) := by
    rw [i2]
    by_cases hn : (quads.filter fun x => WithinLeaves (leaves r) t x.1) = []
    · rw [if_pos hn, if_pos rfl, hn]; rfl
    · rw [if_neg hn]
      have := List.length_pos_iff.mpr hn
      rw [if_neg (by omega), Nat.sub_add_cancel this]
      exact i1
  rw [hkept]
  obtain ⟨-, m1, m2⟩ := foldl_max_level (quads.filter fun x => WithinLeaves (leaves r) t x.1) 0
  refine ⟨_, _, _, S.freed, by rw [i3, i5, List.length_map], rfl, i5, i4, m1, ?_⟩
  rcases m2 with m2 | m2
  · by_cases hn : (quads.filter fun x => WithinLeaves (leaves r) t x.1) = []
    · exact Or.inl ⟨hn, m2⟩
    · obtain ⟨x, hx⟩ := List.exists_mem_of_ne_nil _ hn
      have := m1 x hx
      exact Or.inr ⟨x, hx, by omega⟩
  · exact Or.inr m2

/-- An empty tree is left alone. -/
theorem C104_empty (gfp : List (GPos d)) (r : ℕ) (a b t : ℤ) (perLevel : ℕ → ℤ) (maxlevel : ℕ) :
    removeNonowned gfp r a b t ([] : List (Quad d × β)) perLevel maxlevel = some ([], perLevel, maxlevel, 0, []) := rfl

/-- The first rank of the two trees has three of the four children of the first tree.  Of a quadrant outside, two
of its own leaves and the last child, the two leaves are kept. -/
example : Distributed twoTrees 4 twoTreesLeaves ∧
    (removeNonowned (globalPartition twoTreesLeaves 4 2) 0 0 0 0
      [((⟨![-2 ^ 29, 0], 1⟩ : Quad 2), 7), (⟨![2 ^ 29, 0], 1⟩, 8), (⟨![0, 2 ^ 29], 1⟩, 9), (⟨![2 ^ 29, 2 ^ 29], 1⟩, 10)]
      (fun l => if l = 1 then 4 else 0) 1).map (fun o => (o.1.map Prod.snd, o.2.1 1, o.2.2.1, o.2.2.2)) =
      some ([8, 9], 2, 1, 2, [7, 10]) :=
  ⟨twoTrees_distributed, by decide +kernel⟩

end P4est
