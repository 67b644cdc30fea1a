import Verif.Lemmas.Pertree
import Verif.Props.Inflate

/-! # C49: number of leaves per tree -/

namespace P4est
open Spec

variable {d : ℕ} {α : Type}

/-- The first positions of a distributed forest. -/
theorem Spec.Distributed.firsts (hd : 0 < d) {trees : List (List (Quad d))} {P : ℕ} {leaves : ℕ → List (ℕ × Quad d)}
    (h : Distributed trees P leaves) :
    ∃ F C : ℕ → ℕ, Firsts P trees.length F C ∧ Stored (globalPartition leaves P trees.length) P F C ∧
      Inside P F C fun p t => (leavesIn (leaves p) t).length := by
  obtain ⟨s, hs⟩ := h.segments hd
  have hM : 0 < 2 ^ (d * 30) := by positivity
  refine ⟨fun p => s p / 2 ^ (d * 30), fun p => s p % 2 ^ (d * 30), ⟨?_, ?_, ?_, ?_, ?_, ?_⟩, ?_, ?_⟩
  · intro p hp
    have h1 := hs.mono (show p ≤ p + 1 by omega) (by omega)
    have h2 := Nat.div_le_div_right (c := 2 ^ (d * 30)) h1
    have h3 := Nat.div_add_mod (s p) (2 ^ (d * 30))
    have h4 := Nat.div_add_mod (s (p + 1)) (2 ^ (d * 30))
    rcases Nat.lt_or_eq_of_le h2 with h5 | h5
    · exact Or.inl h5
    · refine Or.inr ⟨h5, ?_⟩
      rw [h5] at h3
      omega
  · simp [hs.zero]
  · simp [hs.zero]
  · show s P / _ = _
    rw [hs.last]; exact Nat.mul_div_cancel _ hM
  · show s P % _ = _
    rw [hs.last]; exact Nat.mul_mod_left _ _
  · exact List.length_pos_iff.mpr h.someTree
  · intro p hp
    obtain ⟨g, h1, t, h2, h3, h4⟩ := globalPartition_at hd hs p hp
    have h5 := curve_lt_of_inTree h3
    refine ⟨g, h1, ?_, ?_⟩
    · dsimp only
      rw [h2, ← h4, Nat.mul_comm, Nat.mul_add_div hM, Nat.div_eq_of_lt h5, Nat.add_zero]
    · show _ ↔ s p % _ = 0
      rw [← h4, Nat.mul_comm, Nat.mul_add_mod, Nat.mod_eq_of_lt h5]
      unfold atTreeStart
      simp only [decide_eq_true_eq]
      constructor
      · intro h6
        rw [show g.c = fun _ => 0 from funext h6]; exact curve_zero
      · intro h6 i
        have := curve_inj h3.int32 (inTree_zero (d := d)).int32 (h6.trans curve_zero.symm)
        rw [this]
  · intro p hp t ht
    obtain ⟨x, hx, rfl⟩ := leavesIn_pos.mp (Nat.pos_of_ne_zero ht)
    have h1 := (hs.path p hp).mem hx
    have h2 := valid_stop_le hd (hs.leaf p hp x hx).2
    have h3 := start_lt_stop x.2
    have e1 : gstart x = x.1 * 2 ^ (d * 30) + start x.2 := rfl
    have e2 : gstop x = x.1 * 2 ^ (d * 30) + stop x.2 := rfl
    have h4 : x.1 ≤ s (p + 1) / 2 ^ (d * 30) := (Nat.le_div_iff_mul_le hM).mpr (by omega)
    refine ⟨?_, ?_⟩
    · apply Nat.lt_succ_iff.mp
      rw [Nat.div_lt_iff_lt_mul hM, Nat.succ_mul]
      omega
    · rcases Nat.lt_or_eq_of_le h4 with h5 | h5
      · exact Or.inl h5
      · refine Or.inr ⟨h5, ?_⟩
        have h6 := Nat.div_add_mod (s (p + 1)) (2 ^ (d * 30))
        rw [← h5, Nat.mul_comm] at h6
        dsimp only
        omega

theorem leavesIn_bare (L : List (ℕ × (Quad d × α))) (t : ℕ) : (leavesIn (bare L) t).length = (leavesIn L t).length := by
  unfold leavesIn bare
  rw [List.filter_map, List.length_map, List.length_map, List.length_map]
  rfl

theorem length_eq_leavesIn {β : Type} {L : List (ℕ × β)} {T : ℕ} (h : ∀ x ∈ L, x.1 < T) :
    L.length = ∑ t ∈ Finset.range T, (leavesIn L t).length := by
  induction L with
  | nil => simp [leavesIn]
  | cons x L ih =>
    have hx : ∀ t, (leavesIn (x :: L) t).length = (leavesIn L t).length + if x.1 = t then 1 else 0 := by
      intro t
      unfold leavesIn
      rw [List.filter_cons]
      by_cases ht : x.1 = t
      · simp [ht]
      · simp [ht]
    rw [List.length_cons, ih fun y hy => h y (by simp [hy])]
    simp only [hx]
    rw [Finset.sum_add_distrib, Finset.sum_ite_eq, if_pos (Finset.mem_range.mpr (h x (by simp)))]

/-- C49. For every forest on any number of processes, `p4est_comm_count_pertree` gives on every process the array
of the numbers of leaves before each tree. -/
theorem C49_count_pertree (hd : 0 < d) (f : Forest d α) (trees : List (List (Quad d × α))) (P : ℕ)
    (leaves : ℕ → List (ℕ × (Quad d × α))) (hf : ForestHolds f trees P leaves) :
    countPertree f (globalPartition (fun p => bare (leaves p)) P trees.length) P = some (leavesBefore trees) := by
  obtain ⟨F, C, h, hg, hn⟩ := hf.forest.distributed.firsts hd
  rw [List.length_map] at h hg
  have hn' : Inside P F C fun p t => (leavesIn (leaves p) t).length := by
    intro p hp t ht
    exact hn p hp t (by dsimp only; rw [leavesIn_bare]; exact ht)
  clear hn
  generalize hT : trees.length = T at *
  obtain ⟨tc0, t1, t2⟩ := treeCounts_spec h hg
  have htc : ∀ i, i < P → (fun p => (tc0 p).getD 0) i = ((countedBefore T F C (i + 1) - countedBefore T F C i : ℕ) : ℤ) := by
    intro i hi
    dsimp only
    rw [t2 i hi]; rfl
  have hsize : ∀ p, p < P → ∀ t : ℕ, t < T → treeSize (f.ranks p) t = some ((leavesIn (leaves p) t).length : ℤ) := by
    intro p hp t ht
    unfold treeSize
    rw [if_neg (by omega), Int.toNat_natCast, (hf.ranks p hp).get (by omega)]; rfl
  have hgfq : ∀ p, p ≤ P → f.gfq p = (leavesOnRanks T (fun p t => (leavesIn (leaves p) t).length) p : ℤ) := by
    intro p hp
    rw [hf.gfq p hp, leavesOnRanks]
    congr 1
    apply Finset.sum_congr rfl
    intro i hi
    rw [Finset.mem_range] at hi
    exact length_eq_leavesIn fun x hx => by
      have := (hf.ranks i (by omega)).lt hx
      omega
  unfold countPertree
  simp only [Option.bind_eq_bind]
  rw [hf.numTrees, hT, t1]
  simp only [Option.bind_some]
  generalize htcd : (fun p => (tc0 p).getD 0) = tc at htc
  have hb : ∀ p, (tc0 p).getD 0 = tc p := congrFun htcd
  simp only [hb]
  have hoff := fun p hp => treeOffsets_spec h htc p hp
  rw [if_pos (by
    intro p hp
    rw [t2 p (List.mem_range.mp hp)]; rfl)]
  -- the numbers of each rank
  have hmy : (List.range P).mapM (fun p => myPertreeLoop (globalPartition (fun p => bare (leaves p)) P T) f.gfq P p tc
      (treeOffsets tc p) (f.ranks p) (tc p).toNat 0) = some ((List.range P).map fun r =>
        ⟨(List.range (countedBefore T F C (r + 1) - countedBefore T F C r)).map fun i =>
            if i + 1 = countedBefore T F C (r + 1) - countedBefore T F C r then ((leavesIn (leaves r) (countedBefore T F C r + i)).length : ℤ) +
              (f.gfq (nextCounter tc (P - (r + 1)) (r + 1)) - f.gfq (r + 1))
            else ((leavesIn (leaves r) (countedBefore T F C r + i)).length : ℤ),
          if countedBefore T F C (r + 1) - countedBefore T F C r ≠ 0 ∧
            F (nextCounter tc (P - (r + 1)) (r + 1)) + 1 = countedBefore T F C (r + 1)
            then some (nextCounter tc (P - (r + 1)) (r + 1)) else none⟩) := by
    apply mapM_some
    intro r hr
    rw [List.mem_range] at hr
    have h1 := h.counted_step hr
    have h2 := h.counted_bounds (show r + 1 ≤ P by omega)
    rw [hoff r (by omega), htc r hr, Int.toNat_natCast]
    have := myPertreeLoop_spec (gfq := f.gfq) (tc := tc) (o := countedBefore T F C r) hg hr (hsize r hr)
      (countedBefore T F C (r + 1) - countedBefore T F C r) 0 (by omega)
    rw [this]
    simp only [Nat.add_zero]
    have e : countedBefore T F C r + (countedBefore T F C (r + 1) - countedBefore T F C r) = countedBefore T F C (r + 1) := by omega
    simp only [e]
  -- the messages
  have hpv : ∀ p, p < P → ∃ r, tc p > 0 ∧ F p < countedBefore T F C p →
      prevCounter tc p = some r ∧ r < p ∧ tc r ≠ 0 ∧ ∀ i, r < i → i < p → tc i = 0 := by
    intro p hp
    by_cases hc : tc p > 0 ∧ F p < countedBefore T F C p
    · obtain ⟨r, hr⟩ := prevCounter_spec tc p (by
        by_contra hno
        push Not at hno
        have : ∀ i, i ≤ p → countedBefore T F C i = 0 := by
          intro i hi
          induction i with
          | zero => rfl
          | succ i ih =>
            have h1 := hno i (by omega)
            rw [htc i (by omega)] at h1
            have h2 := h.counted_step (show i < P by omega)
            have h3 := ih (by omega)
            omega
        have := this p le_rfl
        omega)
      exact ⟨r, fun _ => hr⟩
    · exact ⟨0, fun h1 => absurd h1 hc⟩
  choose! pv hpv using hpv
  have hsend : (List.range P).mapM (fun p => pertreeSend (globalPartition (fun p => bare (leaves p)) P T) p tc
      (treeOffsets tc p) (f.ranks p)) = some ((List.range P).map fun p =>
        if tc p > 0 ∧ F p < countedBefore T F C p then some (pv p, ((leavesIn (leaves p) (F p)).length : ℤ)) else none) := by
    apply mapM_some
    intro p hp
    rw [List.mem_range] at hp
    obtain ⟨g, g1, g2, -⟩ := hg p (by omega)
    unfold pertreeSend
    simp only [Option.bind_eq_bind]
    rw [g1]
    simp only [Option.bind_some]
    rw [g2, hoff p (by omega)]
    by_cases hc : tc p > 0 ∧ F p < countedBefore T F C p
    · rw [if_pos ⟨hc.1, by exact_mod_cast hc.2⟩, if_pos hc, hsize p hp (F p) (by
        have := h.counted_bounds (show p ≤ P by omega)
        omega), (hpv p hp hc).1]
      rfl
    · rw [if_neg (by
        intro h1
        exact hc ⟨h1.1, by exact_mod_cast h1.2⟩), if_neg hc]
  rw [hmy]
  simp only [Option.bind_some]
  rw [hsend]
  simp only [Option.bind_some]
  have hsendAt : ∀ p, p < P → (((List.range P).map fun p => if tc p > 0 ∧ F p < countedBefore T F C p then
      some (pv p, ((leavesIn (leaves p) (F p)).length : ℤ)) else none)[p]?).getD none =
      if tc p > 0 ∧ F p < countedBefore T F C p then some (pv p, ((leavesIn (leaves p) (F p)).length : ℤ)) else none := by
    intro p hp
    rw [List.getElem?_map, List.getElem?_range hp]; rfl
  -- each rank after the messages
  have hrecv : ∀ r ∈ List.range P, pertreeReceive (fun q => ((((List.range P).map fun p =>
        if tc p > 0 ∧ F p < countedBefore T F C p then some (pv p, ((leavesIn (leaves p) (F p)).length : ℤ)) else none)[q]?).getD none)) P r
      ((((List.range P).map fun r => (⟨(List.range (countedBefore T F C (r + 1) - countedBefore T F C r)).map fun i =>
            if i + 1 = countedBefore T F C (r + 1) - countedBefore T F C r then ((leavesIn (leaves r) (countedBefore T F C r + i)).length : ℤ) +
              (f.gfq (nextCounter tc (P - (r + 1)) (r + 1)) - f.gfq (r + 1))
            else ((leavesIn (leaves r) (countedBefore T F C r + i)).length : ℤ),
          if countedBefore T F C (r + 1) - countedBefore T F C r ≠ 0 ∧
            F (nextCounter tc (P - (r + 1)) (r + 1)) + 1 = countedBefore T F C (r + 1)
            then some (nextCounter tc (P - (r + 1)) (r + 1)) else none⟩ : MyPertree))[r]?).getD ⟨[], none⟩) =
      some ((List.range (countedBefore T F C (r + 1) - countedBefore T F C r)).map fun c =>
        ((∑ p ∈ Finset.range P, (leavesIn (leaves p) (countedBefore T F C r + c)).length : ℕ) : ℤ)) := by
    intro r hr
    have hr' := hr
    rw [List.mem_range] at hr
    have h1 := h.counted_step hr
    have hq := nextCounter_spec tc (P - (r + 1)) (r + 1)
    rw [List.getElem?_map, List.getElem?_range hr]
    simp only [Option.map_some, Option.getD_some]
    generalize hqd : nextCounter tc (P - (r + 1)) (r + 1) = q at hq
    unfold pertreeReceive
    -- who sends to this rank
    have hwho : ∀ p, p < P → tc p > 0 ∧ F p < countedBefore T F C p → pv p = r →
        countedBefore T F C (r + 1) - countedBefore T F C r ≠ 0 ∧ p = q ∧ F q + 1 = countedBefore T F C (r + 1) := by
      intro p hp hc hpr
      obtain ⟨-, a2, a3, a4⟩ := hpv p hp hc
      rw [hpr] at a2 a3 a4
      rw [htc r hr] at a3
      have hpq : p = q := by
        rcases Nat.lt_trichotomy p q with h2 | h2 | h2
        · have := hq.2.2.1 p (by omega) h2; omega
        · exact h2
        · exact absurd (a4 q (by omega) h2) (hq.2.2.2 (by omega))
      have hall : ∀ i, r < i → i ≤ p → countedBefore T F C i = countedBefore T F C (r + 1) := by
        intro i hi hi2
        induction i with
        | zero => omega
        | succ i ih =>
          by_cases hir : i = r
          · rw [hir]
          · have b1 := a4 i (by omega) (by omega)
            rw [htc i (by omega)] at b1
            have b2 := h.counted_step (show i < P by omega)
            have b3 := ih (by omega) (by omega)
            omega
      have b1 := hall p (by omega) le_rfl
      have b2 := h.counted_bounds (show p ≤ P by omega)
      refine ⟨by omega, hpq, ?_⟩
      rw [← hpq]
      omega
    rw [if_pos (by
      intro p hp m hm hmr
      rw [List.mem_range] at hp
      dsimp only at hm
      rw [hsendAt p hp] at hm
      by_cases hc : tc p > 0 ∧ F p < countedBefore T F C p
      · rw [if_pos hc, Option.mem_def, Option.some.injEq] at hm
        rw [← hm] at hmr
        obtain ⟨b1, b2, b3⟩ := hwho p hp hc hmr
        rw [if_pos ⟨b1, b3⟩, b2]
      · rw [if_neg hc] at hm
        simp at hm)]
    by_cases hk : countedBefore T F C (r + 1) - countedBefore T F C r = 0
    · rw [hk]; simp
    · obtain ⟨k, hk'⟩ : ∃ k, countedBefore T F C (r + 1) - countedBefore T F C r = k + 1 := ⟨_, (Nat.succ_pred_eq_of_ne_zero hk).symm⟩
      obtain ⟨t, ht⟩ : ∃ t, countedBefore T F C (r + 1) = t + 1 := ⟨countedBefore T F C (r + 1) - 1, by omega⟩
      have hlast := h.total_last hn' (show r < q by omega) (show q ≤ P by omega) (t := t) (by omega) ht (by
        intro i hi hi2
        have b1 := hq.2.2.1 i (by omega) hi2
        rw [htc i (by omega)] at b1
        have b2 := h.counted_step (show i < P by omega)
        omega) (by
        intro hqP
        have b1 := hq.2.2.2 (by omega)
        rw [htc q hqP] at b1
        omega)
      obtain ⟨l1, l2, l3, l4⟩ := hlast
      have hgq : f.gfq q - f.gfq (r + 1) = ((leavesOnRanks T (fun p t => (leavesIn (leaves p) t).length) q -
          leavesOnRanks T (fun p t => (leavesIn (leaves p) t).length) (r + 1) : ℕ) : ℤ) := by
        rw [hgfq q (by omega), hgfq (r + 1) (by omega)]
        omega
      by_cases hFq : F q = t
      · rw [if_pos ⟨hk, by omega⟩]
        have hqP := l3 hFq
        have hcq : tc q > 0 ∧ F q < countedBefore T F C q := by
          constructor
          · have b1 := hq.2.2.2 (by omega)
            rw [htc q hqP] at b1 ⊢
            omega
          · have := l2 q (by omega) le_rfl
            omega
        have hpvq : pv q = r := by
          obtain ⟨-, a2, a3, a4⟩ := hpv q hqP hcq
          rcases Nat.lt_trichotomy (pv q) r with h2 | h2 | h2
          · have := a4 r h2 (by omega)
            rw [htc r hr] at this
            omega
          · exact h2
          · exact absurd (hq.2.2.1 (pv q) (by omega) a2) a3
        simp only
        rw [hsendAt q hqP, if_pos hcq]
        simp only
        rw [if_pos ⟨hqP, hpvq⟩, hk', addLast_map]
        congr 1
        apply List.map_congr_left
        intro i hi
        rw [List.mem_range] at hi
        by_cases hik : i + 1 = k + 1
        · rw [if_pos hik, if_pos hik, show countedBefore T F C r + i = t by omega, l4, if_pos hFq, hgq, hFq]
          push_cast
          rfl
        · rw [if_neg hik, if_neg hik, h.total_middle hn' hr (by omega) (by omega)]
      · rw [if_neg (by omega)]
        simp only
        rw [hk']
        congr 1
        apply List.map_congr_left
        intro i hi
        rw [List.mem_range] at hi
        by_cases hik : i + 1 = k + 1
        · rw [if_pos hik, show countedBefore T F C r + i = t by omega, l4, if_neg hFq, hgq]
          push_cast
          rw [Int.add_zero]
        · rw [if_neg hik, h.total_middle hn' hr (by omega) (by omega)]
  rw [mapM_some hrecv]
  simp only [Option.bind_some]
  have htot : ∀ t, t < T → ∑ p ∈ Finset.range P, (leavesIn (leaves p) t).length = (trees.getD t []).length := by
    intro t _
    rw [← leavesIn_forest, ← hf.forest.split, leavesIn_flatMap, List.length_flatMap]; rfl
  have hparts : ((List.range P).map fun r => (List.range (countedBefore T F C (r + 1) - countedBefore T F C r)).map fun c =>
        ((∑ p ∈ Finset.range P, (leavesIn (leaves p) (countedBefore T F C r + c)).length : ℕ) : ℤ)).flatten =
      trees.map fun l => (l.length : ℤ) := by
    rw [flatMap_pieces (countedBefore T F C) rfl P (fun p hp => h.counted_step hp) fun t =>
      ((∑ p ∈ Finset.range P, (leavesIn (leaves p) t).length : ℕ) : ℤ), h.counted_last]
    apply List.ext_getElem
    · simp [hT]
    · intro i h1 h2
      rw [List.length_map, List.length_range] at h1
      rw [List.getElem_map, List.getElem_map, List.getElem_range, htot i h1, List.getD_eq_getElem?_getD,
        List.getElem?_eq_getElem (by omega)]
      rfl
  rw [hparts, if_pos (by rw [List.length_map, hT]), pertreeSums_spec, leavesBefore, List.length_map]
  congr 1
  apply List.map_congr_left
  intro t _
  rw [← List.map_take]
  have : ∀ l : List (List (Quad d × α)), (l.map fun l => (l.length : ℤ)).sum = (((l.map List.length).sum : ℕ) : ℤ) := by
    intro l
    induction l with
    | nil => rfl
    | cons x l ih => simp [ih]
  rw [this]
  omega

/-- Two trees on four processes, two of them without leaves. -/
example : countPertree dataForest (globalPartition (fun p => bare (dataLeaves p)) 4 dataTrees.length) 4 = some [0, 4, 5] :=
  C49_count_pertree (by norm_num) dataForest dataTrees 4 dataLeaves dataForest_holds

end P4est
