import Verif.Model.Inflate
import Verif.Lemmas.NewForest
import Verif.Props.PartitionExt
import Verif.Spec.Inflate

/-! # Deflate and inflate -/

namespace P4est
open Spec

variable {d : ℕ} {α : Type}

theorem deflateQuad_length (q : Quad d) : (deflateQuad q).length = d + 1 := by simp [deflateQuad]

theorem inflateQuad_spec {q : Quad d} (hq : q.level ≤ 29) (rest : List ℤ) :
    inflateQuad d (deflateQuad q ++ rest) = some (q, rest) := by
  have hlen : (deflateQuad q ++ rest).length = d + 1 + rest.length := by rw [List.length_append, deflateQuad_length]
  have hd : (deflateQuad q ++ rest)[d]'(by omega) = (q.level : ℤ) := by
    rw [List.getElem_append_left (by rw [deflateQuad_length]; omega)]
    simp [deflateQuad]
  have hc : ∀ i : Fin d, (deflateQuad q ++ rest)[i.val]'(by omega) = q.c i := by
    intro i
    rw [List.getElem_append_left (by rw [deflateQuad_length]; omega)]
    simp only [deflateQuad]
    rw [List.getElem_append_left (by simp)]
    simp
  unfold inflateQuad
  rw [dif_pos (by omega)]
  simp only [hd, hc]
  have e : ((q.level : ℤ) + 128) % 256 - 128 = q.level := by omega
  rw [e, if_pos ⟨by omega, by unfold QMAXLEVEL; omega⟩, List.drop_append_of_le_length (by rw [deflateQuad_length]),
    List.drop_of_length_le (by rw [deflateQuad_length])]
  simp

/-- The data array for leaves: there is none, or it consists of their data. -/
def DataOf (mem : α) (ls : List (Quad d × α)) (data : Option (List α)) (rest : Option (List α)) : Prop :=
  (data = none ∧ rest = none ∧ ∀ x ∈ ls, x.2 = mem) ∨ (∃ r, rest = some r ∧ data = some (ls.map Prod.snd ++ r))

theorem inflateLeaves_spec (mem : α) (ls : List (Quad d × α)) (hl : ∀ x ∈ ls, x.1.level ≤ 29) (st : InflateSt d α)
    (rest : List ℤ) (drest : Option (List α)) (hq : st.qap = (ls.flatMap fun x => deflateQuad x.1) ++ rest)
    (hdt : DataOf mem ls st.dap drest) :
    ∃ r, inflateLeaves mem ls.length st = some r ∧ r.quads = st.quads ++ ls ∧ r.qap = rest ∧ r.dap = drest ∧
      (∀ k, r.perLevel k = st.perLevel k + (ls.countP (fun x => x.1.level = k) : ℕ)) ∧
      (∀ x ∈ ls, x.1.level ≤ r.tml) ∧ st.tml ≤ r.tml ∧ (r.tml = st.tml ∨ ∃ x ∈ ls, x.1.level = r.tml) := by
  induction ls generalizing st with
  | nil =>
    refine ⟨st, rfl, by simp, by simpa using hq, ?_, by simp, by simp, le_rfl, Or.inl rfl⟩
    rcases hdt with ⟨h1, h2, -⟩ | ⟨r, h1, h2⟩
    · rw [h1, h2]
    · rw [h1, h2]; simp
  | cons x ls ih =>
    rw [List.flatMap_cons, List.append_assoc] at hq
    have hx : ∃ dap, inflateData mem st.dap = some (x.2, dap) ∧ DataOf mem ls dap drest := by
      rcases hdt with ⟨h1, h2, h3⟩ | ⟨r, h1, h2⟩
      · exact ⟨none, by rw [h1, h3 x (by simp)]; rfl, Or.inl ⟨rfl, h2, fun y hy => h3 y (by simp [hy])⟩⟩
      · exact ⟨some (ls.map Prod.snd ++ r), by rw [h2]; rfl, Or.inr ⟨r, h1, rfl⟩⟩
    obtain ⟨dap, hx1, hx2⟩ := hx
    obtain ⟨r, h1, h2, h3, h4, h5, h6, h7, h8⟩ := ih (fun y hy => hl y (by simp [hy]))
      ⟨st.quads ++ [(x.1, x.2)], bump st.perLevel x.1.level 1, max st.tml x.1.level, _, dap⟩ rfl hx2
    refine ⟨r, ?_, ?_, h3, h4, ?_, ?_, ?_, ?_⟩
    · rw [List.length_cons, inflateLeaves, hq, inflateQuad_spec (hl x (by simp))]
      simp only [Option.bind_eq_bind, Option.bind_some]
      rw [hx1]
      exact h1
    · rw [h2]; simp
    · intro k
      rw [h5 k, List.countP_cons]
      dsimp only
      unfold bump
      by_cases hk : x.1.level = k
      · rw [if_pos (by simpa using hk)]
        subst hk
        rw [Function.update_self]; push_cast; ring
      · rw [if_neg (by simpa using hk), Function.update_of_ne (Ne.symm hk)]; simp
    · intro y hy
      rcases List.mem_cons.mp hy with rfl | hy
      · exact le_trans (le_max_right _ _) h7
      · exact h6 y hy
    · exact le_trans (le_max_left _ _) h7
    · rcases h8 with h8 | ⟨y, hy, h8⟩
      · rcases le_total st.tml x.1.level with h | h
        · right; exact ⟨x, by simp, by rw [h8]; exact (max_eq_right h).symm⟩
        · left; rw [h8]; exact max_eq_left h
      · right; exact ⟨y, by simp [hy], h8⟩

/-- The quadrants to skip in the first tree with local leaves. -/
def skipOf {β : Type} : ℕ → ℕ → List (List β) → ℕ
  | _, _, [] => 0
  | a, b, l :: ls => if slice a b l = [] then skipOf (a - l.length) (b - l.length) ls else a

theorem skipOf_zero {β : Type} (b : ℕ) (ls : List (List β)) : skipOf 0 b ls = 0 := by
  induction ls generalizing b with
  | nil => rfl
  | cons l ls ih => rw [skipOf, Nat.zero_sub, ih]; split <;> rfl

theorem skipOf_eq {β : Type} {ls : List (List β)} {a b i : ℕ} {l : List β} (hl : ls[i]? = some l) (h1 : cum ls i ≤ a)
    (h2 : a < cum ls i + l.length) (h3 : a < b) : skipOf a b ls = a - cum ls i := by
  induction ls generalizing a b i with
  | nil => simp at hl
  | cons l0 ls ih =>
    cases i with
    | zero =>
      simp only [List.getElem?_cons_zero, Option.some.injEq] at hl
      subst hl
      have h2' : a < l0.length := by simpa [cum] using h2
      rw [skipOf, if_neg (by rw [slice_eq_nil]; omega)]
      simp [cum]
    | succ i =>
      rw [List.getElem?_cons_succ] at hl
      have hc : cum (l0 :: ls) (i + 1) = l0.length + cum ls i := by simp [cum]
      rw [hc] at h1 h2 ⊢
      rw [skipOf, if_pos (by rw [slice_eq_nil]; omega), ih hl (by omega) (by omega) (by omega)]
      omega

theorem stored_of_leaves (hd : 0 < d) {ls : List (Quad d × α)} (hv : ∀ x ∈ ls, Valid x.1) {r : InflateSt d α}
    {q0 ql : Quad d × α} (h0 : ls.head? = some q0) (hl : ls.getLast? = some ql) (hp : ∀ k, r.perLevel k = (ls.countP (fun x => x.1.level = k) : ℕ))
    (hm : ∀ x ∈ ls, x.1.level ≤ r.tml) (hm' : ∃ x ∈ ls, x.1.level = r.tml) (before : ℕ) :
    TreeStored ls before ⟨ls, r.perLevel, r.tml, before, some (firstDesc q0.1 QMAXLEVEL), some (lastDesc ql.1 QMAXLEVEL)⟩ where
  quads := rfl
  perLevel := hp
  maxle := hm
  maxeq := Or.inl hm'
  offset := rfl
  firstDesc _ := by
    have hv := hv q0 (List.mem_of_mem_head? h0)
    exact ⟨q0, _, h0, rfl, ((C10_descendants_bound hd q0.1 hv.extended 29 hv.1 le_rfl).2.2.1 hv).1, rfl, rfl⟩
  lastDesc _ := by
    have hv := hv ql (List.mem_of_getLast? hl)
    exact ⟨ql, _, hl, rfl, ((C10_descendants_bound hd ql.1 hv.extended 29 hv.1 le_rfl).2.2.1 hv).2, rfl,
      stop_lastDesc hv.aligned hv.int32 hv.1 (by unfold QMAXLEVEL; norm_num)⟩

theorem inflateTree_spec (hd : 0 < d) (mem : α) {pertree : List ℤ} {jt : ℕ} {C : ℕ} {l ls : List (Quad d × α)} {a b : ℕ}
    (hp1 : pertree[jt]? = some (C : ℤ)) (hp2 : pertree[jt + 1]? = some ((C + l.length : ℕ) : ℤ)) (hls : ls = slice a b l)
    (hne : ls ≠ []) (hv : ∀ x ∈ ls, Valid x.1) {st : InflatePos α} {rest : List ℤ} {drest : Option (List α)} {before : ℕ}
    (hq : st.qap = (ls.flatMap fun x => deflateQuad x.1) ++ rest) (hdt : DataOf mem ls st.dap drest) (ho : st.offset = before)
    (hs : st.skip = a) (hrem : st.remain = ((b - a : ℕ) : ℤ)) :
    ∃ tree, inflateTree (d := d) mem pertree jt st =
        some (tree, ⟨rest, drest, ((before + ls.length : ℕ) : ℤ), st.remain - ls.length, 0⟩) ∧ TreeStored ls before tree := by
  have hlen : ls.length = min b l.length - a := by rw [hls, slice_length]
  have hpos : 0 < ls.length := List.length_pos_iff.mpr hne
  have hnum : min (((C + l.length : ℕ) : ℤ) - (C : ℤ) - st.skip) st.remain = (ls.length : ℤ) := by
    rw [hs, hrem, hlen]; push_cast; omega
  obtain ⟨r, h1, h2, h3, h4, h5, h6, h7, h8⟩ := inflateLeaves_spec mem ls (fun x hx => (hv x hx).1)
    ⟨[], fun _ => 0, 0, st.qap, st.dap⟩ rest drest hq hdt
  simp only [List.nil_append] at h2
  have hm' : ∃ x ∈ ls, x.1.level = r.tml := by
    rcases h8 with h8 | h8
    · obtain ⟨x, hx⟩ := List.exists_mem_of_ne_nil _ hne
      have := h6 x hx
      dsimp only at h8
      exact ⟨x, hx, by omega⟩
    · exact h8
  have e0 : ∃ q0, ls[0]? = some q0 := ⟨_, List.getElem?_eq_getElem hpos⟩
  obtain ⟨q0, e0⟩ := e0
  have el : ∃ ql, ls[ls.length - 1]? = some ql := ⟨_, List.getElem?_eq_getElem (by omega)⟩
  obtain ⟨ql, el⟩ := el
  refine ⟨⟨ls, r.perLevel, r.tml, before, some (firstDesc q0.1 QMAXLEVEL), some (lastDesc ql.1 QMAXLEVEL)⟩, ?_, ?_⟩
  · unfold inflateTree
    rw [hp1, hp2]
    simp only [Option.bind_eq_bind, Option.bind_some]
    rw [hnum, if_neg (by omega), Int.toNat_natCast, h1]
    simp only [Option.bind_some]
    rw [h2, e0, el]
    simp only [Option.bind_some]
    rw [h3, h4, ho]
    push_cast
    rfl
  · exact stored_of_leaves hd hv (by rw [List.head?_eq_getElem?]; exact e0) (by rw [List.getLast?_eq_getElem?]; exact el)
      (by simpa using h5) h6 hm' before

theorem dataOf_append {mem : α} {l1 l2 : List (Quad d × α)} {x y : Option (List α)} (h : DataOf mem (l1 ++ l2) x y) :
    ∃ z, DataOf mem l1 x z ∧ DataOf mem l2 z y := by
  rcases h with ⟨h1, h2, h3⟩ | ⟨r, h1, h2⟩
  · exact ⟨none, Or.inl ⟨h1, rfl, fun z hz => h3 z (by simp [hz])⟩, Or.inl ⟨rfl, h2, fun z hz => h3 z (by simp [hz])⟩⟩
  · refine ⟨some (l2.map Prod.snd ++ r), Or.inr ⟨_, rfl, ?_⟩, Or.inr ⟨r, h1, rfl⟩⟩
    rw [h2]; simp

theorem inflateLoop_spec (hd : 0 < d) (mem : α) (pertree : List ℤ) (first last : ℤ) (ls : List (List (Quad d × α)))
    (hv : ∀ l ∈ ls, ∀ x ∈ l, Valid x.1) (jt C a b : ℕ) (hab : a ≤ b)
    (hp : ∀ i, i ≤ ls.length → pertree[jt + i]? = some ((C + cum ls i : ℕ) : ℤ))
    (hloc : ∀ i l, ls[i]? = some l → (first ≤ ((jt + i : ℕ) : ℤ) ∧ ((jt + i : ℕ) : ℤ) ≤ last ↔ slice (a - cum ls i) (b - cum ls i) l ≠ []))
    (hb : b ≤ ls.flatten.length) (before : ℕ)
    {st : InflatePos α} (hq : st.qap = (slice a b ls.flatten).flatMap fun x => deflateQuad x.1)
    (hdt : DataOf mem (slice a b ls.flatten) st.dap (st.dap.map fun _ => [])) (ho : st.offset = before)
    (hs : a < b → st.skip = skipOf a b ls) (hrem : st.remain = ((b - a : ℕ) : ℤ)) :
    ∃ trees st', inflateLoop (d := d) mem pertree first last ls.length jt st = some (trees, st') ∧
      trees.length = ls.length ∧ st'.offset = ((before + (b - a) : ℕ) : ℤ) ∧ st'.remain = 0 ∧
      ∀ (i : ℕ) (tree : NewTree d α), trees[i]? = some tree →
        TreeStored ((sliceTrees a b ls).getD i []) (before + cum (sliceTrees a b ls) i) tree := by
  induction ls generalizing jt C a b before st with
  | nil =>
    simp only [List.flatten_nil, List.length_nil, Nat.le_zero] at hb
    subst hb
    refine ⟨[], st, rfl, rfl, by simpa using ho, by simpa using hrem, by simp⟩
  | cons l ls ih =>
    have hp0 : pertree[jt]? = some (C : ℤ) := by simpa [cum] using hp 0 (by simp)
    have hcum : ∀ i, cum (l :: ls) (i + 1) = l.length + cum ls i := fun i => by simp [cum]
    have hp1 : pertree[jt + 1]? = some ((C + l.length : ℕ) : ℤ) := by
      have := hp 1 (by simp)
      rw [this, hcum]; simp [cum]
    have hfl : slice a b (l :: ls).flatten = slice a b l ++ slice (a - l.length) (b - l.length) ls.flatten := by
      rw [List.flatten_cons, slice_append]
    rw [hfl] at hq hdt
    rw [List.flatMap_append] at hq
    obtain ⟨dz, hd1, hd2⟩ := dataOf_append hdt
    have hdz : dz.map (fun _ => ([] : List α)) = st.dap.map fun _ => [] := by
      rcases hd1 with ⟨h1, h2, -⟩ | ⟨r, h1, h2⟩
      · rw [h1, h2]
      · rw [h1, h2]; rfl
    rw [← hdz] at hd2
    have hloc0 := hloc 0 l (by simp)
    simp only [Nat.add_zero] at hloc0
    rw [show cum (l :: ls) 0 = 0 by simp [cum], Nat.sub_zero, Nat.sub_zero] at hloc0
    have hloc' : ∀ i l', ls[i]? = some l' → (first ≤ ((jt + 1 + i : ℕ) : ℤ) ∧ ((jt + 1 + i : ℕ) : ℤ) ≤ last ↔
        slice (a - l.length - cum ls i) (b - l.length - cum ls i) l' ≠ []) := by
      intro i l' hl'
      have := hloc (i + 1) l' (by simpa using hl')
      rw [hcum, Nat.sub_add_eq, Nat.sub_add_eq, show jt + (i + 1) = jt + 1 + i by omega] at this
      exact this
    have hp' : ∀ i, i ≤ ls.length → pertree[jt + 1 + i]? = some ((C + l.length + cum ls i : ℕ) : ℤ) := by
      intro i hi
      have := hp (i + 1) (by simp; omega)
      rw [hcum, show jt + (i + 1) = jt + 1 + i by omega, ← Nat.add_assoc] at this
      exact this
    have hb' : b - l.length ≤ ls.flatten.length := by
      rw [List.flatten_cons, List.length_append] at hb; omega
    by_cases hne : slice a b l = []
    · -- no local leaves in this tree
      have hnot : ¬ (first ≤ (jt : ℤ) ∧ (jt : ℤ) ≤ last) := fun h => hloc0.mp h hne
      have hmin : min b l.length ≤ a := (slice_eq_nil _ _ _).mp hne
      rw [hne, List.flatMap_nil, List.nil_append] at hq
      have hdst : dz = st.dap := by
        rw [hne] at hd1
        rcases hd1 with ⟨h1, h2, -⟩ | ⟨r, h1, h2⟩
        · rw [h1, h2]
        · rw [h1, h2]; rfl
      rw [hdst] at hd2
      have hba : b - l.length - (a - l.length) = b - a := by omega
      obtain ⟨trees, st', g1, g2, g3, g4, g5⟩ := ih (fun l' hl' => hv l' (by simp [hl'])) (jt + 1) (C + l.length)
        (a - l.length) (b - l.length) (by omega) hp' hloc' hb' before hq hd2 ho (by
          intro h
          have := hs (by omega)
          rw [skipOf, if_pos hne] at this
          exact this) (by rw [hrem, hba])
      refine ⟨{ emptyTree with offset := st.offset } :: trees, st', ?_, by simp [g2], by rw [g3, hba], g4, ?_⟩
      · rw [List.length_cons, inflateLoop, inflateStep, if_neg hnot]
        simp only [Option.bind_eq_bind, Option.bind_some]
        rw [g1]
        rfl
      · intro i tree hi
        rw [sliceTrees, hne]
        cases i with
        | zero =>
          simp only [List.getElem?_cons_zero, Option.some.injEq] at hi
          subst hi
          simp only [List.getD_cons_zero, cum, List.take_zero, List.map_nil, List.sum_nil, Nat.add_zero]
          rw [ho]
          exact emptyTree_stored.empty_offset before
        | succ i =>
          have := g5 i tree (by simpa using hi)
          simpa [cum] using this
    · -- local leaves
      have hyes : first ≤ (jt : ℤ) ∧ (jt : ℤ) ≤ last := hloc0.mpr hne
      have hlen : (slice a b l).length = min b l.length - a := slice_length _ _ _
      have hpos : 0 < (slice a b l).length := List.length_pos_iff.mpr hne
      have hskip : st.skip = a := by rw [hs (by omega), skipOf, if_neg hne]
      obtain ⟨tree, t1, t2⟩ := inflateTree_spec hd mem hp0 hp1 rfl hne
        (fun x hx => hv l (by simp) x ((slice_sublist _ _ _).subset hx)) hq hd1 ho hskip hrem
      have ha : a - l.length = 0 := by omega
      have hrest : ((b - l.length - (a - l.length) : ℕ) : ℤ) = st.remain - ((slice a b l).length : ℤ) := by
        rw [hrem, hlen]; omega
      obtain ⟨trees, st', g1, g2, g3, g4, g5⟩ := ih (fun l' hl' => hv l' (by simp [hl'])) (jt + 1) (C + l.length)
        (a - l.length) (b - l.length) (by omega) hp' hloc' hb' (before + (slice a b l).length)
        (st := ⟨(slice (a - l.length) (b - l.length) ls.flatten).flatMap fun x => deflateQuad x.1, dz, ((before + (slice a b l).length : ℕ) : ℤ), st.remain - (slice a b l).length, 0⟩)
        rfl hd2 rfl (fun _ => by rw [ha, skipOf_zero]; rfl) hrest.symm
      refine ⟨tree :: trees, st', ?_, by simp [g2], ?_, g4, ?_⟩
      · rw [List.length_cons, inflateLoop, inflateStep, if_pos hyes, t1]
        simp only [Option.bind_eq_bind, Option.bind_some]
        rw [g1]
        rfl
      · rw [g3, hlen]; congr 1; omega
      · intro i tree' hi
        rw [sliceTrees]
        cases i with
        | zero =>
          simp only [List.getElem?_cons_zero, Option.some.injEq] at hi
          subst hi
          simp only [List.getD_cons_zero, cum, List.take_zero, List.map_nil, List.sum_nil, Nat.add_zero]
          exact t2
        | succ i =>
          have := g5 i tree' (by simpa using hi)
          rw [List.getD_cons_succ]
          have e : cum (slice a b l :: sliceTrees (a - l.length) (b - l.length) ls) (i + 1) =
            (slice a b l).length + cum (sliceTrees (a - l.length) (b - l.length) ls) i := by simp [cum]
          rw [e, ← Nat.add_assoc]
          exact this

/-! ### Deflate -/

theorem deflateTrees_spec {rt : RankTrees (Quad d × α)} (A : ℕ → List (Quad d × α)) (n t : ℕ)
    (h : ∀ i, t ≤ i → i < t + n → rt.trees[i]? = some (A i)) (qap : List ℤ) (dap : List α) :
    deflateTrees rt n t qap dap = some (qap ++ ((List.range n).flatMap fun i => A (t + i)).flatMap (fun x => deflateQuad x.1),
      dap ++ ((List.range n).flatMap fun i => A (t + i)).map Prod.snd) := by
  induction n generalizing t qap dap with
  | zero => simp [deflateTrees]
  | succ n ih =>
    rw [deflateTrees, h t le_rfl (by omega)]
    simp only [Option.bind_eq_bind, Option.bind_some]
    rw [ih (t + 1) (fun i h1 h2 => h i (by omega) (by omega))]
    have e : (List.range (n + 1)).flatMap (fun i => A (t + i)) = A t ++ (List.range n).flatMap fun i => A (t + 1 + i) := by
      rw [List.range_succ_eq_map, List.flatMap_cons, List.flatMap_map, Nat.add_zero]
      congr 2
      funext i
      rw [show t + i.succ = t + 1 + i by omega]
    rw [e]
    simp [List.append_assoc]

theorem deflate_spec {T : ℕ} {L : List (ℕ × (Quad d × α))} {rt : RankTrees (Quad d × α)} (h : Holds T L rt) :
    deflateQuadrants rt L.length = some ((L.map Prod.snd).flatMap (fun x => deflateQuad x.1), (L.map Prod.snd).map Prod.snd) := by
  have hflat : ∀ l : List (Quad d × α), (l.flatMap fun x => deflateQuad x.1).length = (d + 1) * l.length := by
    intro l
    induction l with
    | nil => rfl
    | cons x l ih => rw [List.flatMap_cons, List.length_append, ih, deflateQuad_length, List.length_cons]; ring
  unfold deflateQuadrants
  by_cases hne : L = []
  · subst hne
    have := h.empty
    have e : P4est.localTrees rt = 0 := by unfold P4est.localTrees; rw [this.1, this.2]; rfl
    rw [e]
    simp [deflateTrees]
  · have h0 := h.nonempty hne
    have hb : ∀ x ∈ L, rt.first.toNat ≤ x.1 ∧ x.1 < rt.first.toNat + P4est.localTrees rt := by
      intro x hx
      have := h.bounds hx
      unfold P4est.localTrees
      omega
    have hlast : rt.last < T := by
      rw [h.last]
      cases hl : L.getLast? with
      | none => simp at hl; exact absurd hl hne
      | some x => simpa using h.lt (List.mem_of_getLast? hl)
    rw [deflateTrees_spec (leavesIn L) (P4est.localTrees rt) rt.first.toNat (fun i h1 h2 => h.get (by
      unfold P4est.localTrees at h2; omega))]
    simp only [Option.bind_eq_bind, Option.bind_some, List.nil_append]
    have e : (List.range (P4est.localTrees rt)).flatMap (fun i => leavesIn L (rt.first.toNat + i)) = L.map Prod.snd := by
      have := h.sorted.map_snd rt.first.toNat (P4est.localTrees rt) hb
      rw [this]
    rw [e, if_pos ⟨by rw [hflat]; simp, by simp⟩]

/-! ### One rank -/

theorem cum_mono {β : Type} (ls : List (List β)) {s t : ℕ} (h : s ≤ t) : cum ls s ≤ cum ls t := by
  obtain ⟨k, rfl⟩ := Nat.exists_eq_add_of_le h
  clear h
  induction k with
  | zero => exact le_rfl
  | succ k ih =>
    refine le_trans ih ?_
    rcases Nat.lt_or_ge (s + k) ls.length with h | h
    · rw [← Nat.add_assoc, cum_succ (List.getElem?_eq_getElem h)]; omega
    · unfold cum
      rw [List.take_of_length_le h, List.take_of_length_le (by omega)]

theorem cum_all {β : Type} (ls : List (List β)) : cum ls ls.length = ls.flatten.length := by
  unfold cum
  rw [List.take_length, List.length_flatten]

theorem leavesBefore_get {β : Type} (ls : List (List β)) {t : ℕ} (ht : t ≤ ls.length) :
    (leavesBefore ls)[t]? = some (cum ls t : ℤ) := by
  unfold leavesBefore
  rw [List.getElem?_map, List.getElem?_range (by omega)]
  rfl

/-- The tree of a position in the global sequence of leaves. -/
theorem tree_of_index {β : Type} (ls : List (List β)) {k : ℕ} (hk : k < ls.flatten.length) :
    ∃ t, t < ls.length ∧ cum ls t ≤ k ∧ k < cum ls (t + 1) ∧ scBsearchRange k (leavesBefore ls) ls.length = some t := by
  have hget : ∀ t, t ≤ ls.length → (leavesBefore ls).getD t 0 = (cum ls t : ℤ) := fun t ht => by
    rw [List.getD_eq_getElem?_getD, leavesBefore_get ls ht]; rfl
  have hex : ∃ t, t < ls.length ∧ cum ls t ≤ k ∧ k < cum ls (t + 1) := by
    have key : ∀ n, n ≤ ls.length → k < cum ls n → ∃ t, t < ls.length ∧ cum ls t ≤ k ∧ k < cum ls (t + 1) := by
      intro n
      induction n with
      | zero => intro _ h; simp [cum] at h
      | succ n ih =>
        intro hn h
        rcases Nat.lt_or_ge k (cum ls n) with h1 | h1
        · exact ih (by omega) h1
        · exact ⟨n, by omega, h1, h⟩
    exact key ls.length le_rfl (by rw [cum_all]; exact hk)
  obtain ⟨t, h1, h2, h3⟩ := hex
  refine ⟨t, h1, h2, h3, ?_⟩
  unfold scBsearchRange
  cases hf : (List.range ls.length).find? fun i => decide ((leavesBefore ls).getD i 0 ≤ (k : ℤ) ∧ (k : ℤ) < (leavesBefore ls).getD (i + 1) 0) with
  | none =>
    exfalso
    rw [List.find?_eq_none] at hf
    have := hf t (List.mem_range.mpr h1)
    simp only [decide_eq_true_eq] at this
    rw [hget t (by omega), hget (t + 1) (by omega)] at this
    exact this ⟨by exact_mod_cast h2, by exact_mod_cast h3⟩
  | some u =>
    have hu := List.find?_some hf
    have hm := List.mem_range.mp (List.mem_of_find?_eq_some hf)
    simp only [decide_eq_true_eq] at hu
    rw [hget u (by omega), hget (u + 1) (by omega)] at hu
    have e : u = t := by
      by_contra hne
      rcases Nat.lt_or_gt_of_ne hne with h | h
      · have := cum_mono ls (show u + 1 ≤ t by omega); omega
      · have := cum_mono ls (show t + 1 ≤ u by omega); omega
    rw [e]

theorem inflateRank_spec (hd : 0 < d) (mem : α) (trees : List (List (Quad d × α))) (hv : ∀ l ∈ trees, ∀ x ∈ l, Valid x.1)
    (hne : ∀ l ∈ trees, l ≠ []) {a b : ℕ} (hab : a ≤ b) (hb : b ≤ (forestLeaves trees).length) (L : List (ℕ × (Quad d × α)))
    (hL : L = slice a b (forestLeaves trees)) (data : Option (List α))
    (hdt : data = some (L.map fun x => x.2.2) ∨ data = none ∧ ∀ x ∈ L, x.2.2 = mem) :
    ∃ rk, inflateRank (d := d) mem (leavesBefore trees) trees.length a b ((L.map Prod.snd).flatMap fun x => deflateQuad x.1) data = some rk ∧
      Holds trees.length L rk.trees' ∧ rk.localNum = L.length ∧ rk.trees.length = trees.length ∧
      ∀ t tree, rk.trees[t]? = some tree →
        TreeStored (leavesIn L t) ((rk.trees.take t).map (fun x => x.quads.length)).sum tree := by
  have hflat : (forestLeaves trees).map Prod.snd = trees.flatten := map_snd_tagFrom 0 trees
  have hflen : (forestLeaves trees).length = trees.flatten.length := by rw [← hflat, List.length_map]
  have hLs : L.map Prod.snd = slice a b trees.flatten := by rw [hL, ← slice_map, hflat]
  have hLt : L = forestLeaves (sliceTrees a b trees) := by rw [hL]; exact (tagFrom_slice 0 a b trees).symm
  have hlen : L.length = b - a := by rw [hL, slice_length]; omega
  have hin : ∀ t, leavesIn L t = (sliceTrees a b trees).getD t [] := fun t => by rw [hLt, leavesIn_forest]
  have hin' : ∀ t l, trees[t]? = some l → leavesIn L t = slice (a - cum trees t) (b - cum trees t) l := by
    intro t l hl
    rw [hin, List.getD_eq_getElem?_getD, sliceTrees_get, hl]; rfl
  have hsort : TreeSorted L := by rw [hLt]; exact treeSorted_tagFrom _ _
  have hlt : ∀ x ∈ L, x.1 < trees.length := by
    intro x hx
    rw [hLt] at hx
    have := mem_tagFrom' hx
    rw [sliceTrees_length] at this
    omega
  -- the range
  have hrange : ∃ first last skip : ℤ, inflateRange (leavesBefore trees) trees.length a b = some (first, last, skip) ∧
      first = L.head?.elim (-1) (fun x => (x.1 : ℤ)) ∧ last = L.getLast?.elim (-2) (fun x => (x.1 : ℤ)) ∧
      (a < b → skip = skipOf a b trees) ∧
      ∀ i l, trees[i]? = some l → (first ≤ ((0 + i : ℕ) : ℤ) ∧ ((0 + i : ℕ) : ℤ) ≤ last ↔ slice (a - cum trees i) (b - cum trees i) l ≠ []) := by
    unfold inflateRange
    rcases Nat.eq_or_lt_of_le hab with h | h
    · subst h
      have hnil : L = [] := by apply List.length_eq_zero_iff.mp; omega
      rw [if_neg (by omega)]
      refine ⟨-1, -2, 0, rfl, by rw [hnil]; rfl, by rw [hnil]; rfl, fun h => absurd h (Nat.lt_irrefl _), ?_⟩
      intro i l hl
      constructor
      · rintro ⟨h1, h2⟩; exfalso; omega
      · intro h; exfalso; apply h; rw [slice_eq_nil]; omega
    · rw [if_pos (by omega)]
      obtain ⟨t1, p1, p2, p3, p4⟩ := tree_of_index trees (k := a) (by omega)
      obtain ⟨t2, q1, q2, q3, q4⟩ := tree_of_index trees (k := b - 1) (by omega)
      have e : ((b - 1 : ℕ) : ℤ) = (b : ℤ) - 1 := by omega
      rw [e] at q4
      rw [p4, q4]
      simp only [Option.bind_eq_bind, Option.bind_some]
      rw [leavesBefore_get trees p1.le]
      simp only [Option.bind_some]
      have hloc : ∀ i l, trees[i]? = some l → (t1 ≤ i ∧ i ≤ t2 ↔ slice (a - cum trees i) (b - cum trees i) l ≠ []) := by
        intro i l hl
        have hi : 0 < l.length := List.length_pos_iff.mpr (hne l (List.mem_of_getElem? hl))
        have hc := cum_succ hl
        rw [ne_eq, slice_eq_nil]
        constructor
        · rintro ⟨k1, k2⟩
          have m1 := cum_mono trees (show t1 + 1 ≤ i + 1 by omega)
          have m2 := cum_mono trees k2
          omega
        · intro k
          constructor
          · by_contra hlt
            have := cum_mono trees (show i + 1 ≤ t1 by omega)
            omega
          · by_contra hlt
            have := cum_mono trees (show t2 + 1 ≤ i by omega)
            omega
      have hmem : ∀ x ∈ L, t1 ≤ x.1 ∧ x.1 ≤ t2 := by
        intro x hx
        have hx1 := hlt x hx
        refine (hloc x.1 _ (List.getElem?_eq_getElem hx1)).mpr ?_
        rw [← hin' x.1 _ (List.getElem?_eq_getElem hx1), ne_eq, leavesIn_eq_nil]
        intro hh; exact hh x hx rfl
      have hhas : ∀ t, t1 ≤ t → t ≤ t2 → ∃ x ∈ L, x.1 = t := by
        intro t k1 k2
        have := (hloc t _ (List.getElem?_eq_getElem (show t < trees.length by omega))).mp ⟨k1, k2⟩
        rw [← hin' t _ (List.getElem?_eq_getElem (show t < trees.length by omega)), ne_eq, leavesIn_eq_nil] at this
        push Not at this
        exact this
      have h12 : t1 ≤ t2 := by
        by_contra hh
        have := cum_mono trees (show t2 + 1 ≤ t1 by omega)
        omega
      have hLne : L ≠ [] := fun hh => by rw [hh] at hlen; simp at hlen; omega
      refine ⟨t1, t2, _, rfl, ?_, ?_, ?_, ?_⟩
      · obtain ⟨x, L', hx⟩ := List.exists_cons_of_ne_nil hLne
        have m1 := hmem x (by rw [hx]; simp)
        obtain ⟨y, y1, y2⟩ := hhas t1 le_rfl h12
        rw [hx]
        simp only [List.head?_cons, Option.elim_some]
        have hs := hsort
        rw [hx] at hs y1
        rcases List.mem_cons.mp y1 with rfl | y1
        · rw [y2]
        · have := (List.pairwise_cons.mp hs).1 y y1
          omega
      · obtain ⟨y, y1, y2⟩ := hhas t2 h12 le_rfl
        obtain ⟨L', x, hx⟩ : ∃ L' x, L = L' ++ [x] := by
          rcases List.eq_nil_or_concat L with hh | ⟨L', x, hh⟩
          · exact absurd hh hLne
          · exact ⟨L', x, by simpa using hh⟩
        have m1 := hmem x (by rw [hx]; simp)
        have hs := hsort
        rw [hx] at hs y1 ⊢
        simp only [List.getLast?_append, List.getLast?_singleton, Option.some_or, Option.elim_some]
        rcases List.mem_append.mp y1 with y1 | y1
        · have := (List.pairwise_append.mp hs).2.2 y y1 x (by simp)
          omega
        · simp only [List.mem_singleton] at y1; rw [← y1, y2]
      · intro _
        rw [skipOf_eq (List.getElem?_eq_getElem p1) p2 (by rw [← cum_succ (List.getElem?_eq_getElem p1)]; exact p3) h]
        omega
      · intro i l hl
        rw [← hloc i l hl]
        omega
  obtain ⟨first, last, skip, r1, r2, r3, r4, r5⟩ := hrange
  obtain ⟨ts, st', g1, g2, g3, g4, g5⟩ := inflateLoop_spec hd mem (leavesBefore trees) first last trees hv 0 0 a b hab
    (by intro i hi; rw [Nat.zero_add, Nat.zero_add]; exact leavesBefore_get trees hi) r5 (by omega) 0
    (st := ⟨(L.map Prod.snd).flatMap fun x => deflateQuad x.1, data, 0, (b : ℤ) - a, skip⟩) (by rw [hLs]) (by
      rw [← hLs]
      rcases hdt with h | ⟨h, h'⟩
      · refine Or.inr ⟨[], by rw [h]; rfl, ?_⟩
        rw [h]; simp [Function.comp_def]
      · refine Or.inl ⟨h, by rw [h]; rfl, ?_⟩
        intro x hx
        obtain ⟨y, hy, rfl⟩ := List.mem_map.mp hx
        exact h' y hy) rfl r4 (by dsimp only; omega)
  have hquads : ts.map NewTree.quads = sliceTrees a b trees := by
    apply List.ext_getElem?
    intro i
    rw [List.getElem?_map]
    rcases Nat.lt_or_ge i trees.length with hi | hi
    · obtain ⟨tree, ht⟩ : ∃ tree, ts[i]? = some tree := ⟨_, List.getElem?_eq_getElem (by omega)⟩
      rw [ht, Option.map_some, (g5 i tree ht).quads, List.getD_eq_getElem?_getD,
        List.getElem?_eq_getElem (show i < (sliceTrees a b trees).length by rw [sliceTrees_length]; exact hi)]
      rfl
    · rw [List.getElem?_eq_none (by omega), List.getElem?_eq_none (by rw [sliceTrees_length]; omega)]
      rfl
  refine ⟨⟨ts, first, last, (b : ℤ) - a⟩, ?_, ⟨?_, ?_, r2, r3⟩, ?_, g2, ?_⟩
  · unfold inflateRank
    rw [r1]
    simp only [Option.bind_eq_bind, Option.bind_some]
    rw [g1]
    simp only [Option.bind_some]
    rw [if_pos ⟨by rw [g3]; omega, g4⟩]
  · simp [NewRank.trees', g2]
  · show forestLeaves (ts.map NewTree.quads) = L
    rw [hquads, hLt]
  · dsimp only; omega
  · intro t tree ht
    have := g5 t tree ht
    rw [hin t]
    have e : cum (sliceTrees a b trees) t = ((ts.take t).map (fun x => x.quads.length)).sum := by
      unfold cum
      rw [← hquads, ← List.map_take, List.map_map]
      rfl
    rw [Nat.zero_add, e] at this
    exact this

end P4est
