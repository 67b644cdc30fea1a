import Verif.Lemmas.PartitionFamilyCorr

/-! # All ranks of `p4est_partition_for_coarsening` -/

namespace P4est
open Spec

variable {d : ℕ}

theorem flatMap_slice {γ : Type} (leaves : ℕ → List γ) (P r : ℕ) (hr : r < P) :
    leaves r = slice (∑ i ∈ Finset.range r, (leaves i).length) (∑ i ∈ Finset.range (r + 1), (leaves i).length)
      ((List.range P).flatMap leaves) := by
  have key : ∀ l (b e : ℕ), l ≤ P → b = ∑ i ∈ Finset.range r, (leaves i).length → e = ∑ i ∈ Finset.range (r + 1), (leaves i).length →
      slice b e ((List.range l).flatMap leaves) = if r < l then leaves r else [] := by
    intro l b e hl hb he
    induction l with
    | zero => simp [slice]
    | succ l ih =>
      rw [List.range_succ, List.flatMap_append, slice_append, ih (by omega)]
      have hlen : ((List.range l).flatMap leaves).length = ∑ i ∈ Finset.range l, (leaves i).length := by
        rw [List.length_flatMap]; rfl
      rw [hlen]
      simp only [List.flatMap_cons, List.flatMap_nil, List.append_nil]
      rcases Nat.lt_trichotomy r l with h | h | h
      · rw [if_pos h, if_pos (by omega)]
        have : e - ∑ i ∈ Finset.range l, (leaves i).length = 0 := by
          have := prefix_mono (fun i => (leaves i).length) (show r + 1 ≤ l by omega)
          simp only at this
          omega
        rw [this]; simp [slice]
      · subst h
        rw [if_neg (by omega), if_pos (by omega), hb, he, Finset.sum_range_succ, Nat.sub_self, Nat.add_sub_cancel_left]
        simp [slice]
      · rw [if_neg (by omega), if_neg (by omega)]
        have : b - ∑ i ∈ Finset.range l, (leaves i).length ≥ (leaves l).length := by
          have := prefix_mono (fun i => (leaves i).length) (show l + 1 ≤ r by omega)
          simp only [Finset.sum_range_succ] at this
          omega
        rw [List.nil_append, slice_eq_nil]
        omega
  rw [key P _ _ le_rfl rfl rfl, if_pos hr]

/-- The receives match the messages. -/
theorem collect_spec {P C : ℕ} {o n : ℕ → ℕ} {r : ℕ} (hr : r < P) {msg : ℕ → ℕ → Near d} {sends : ℕ → List (ℕ × Near d)}
    (hs : ∀ p, p < P → sends p = ((List.range P).filter fun j => decide (NearRel P C o n p j)).map fun j => (j, msg p j)) :
    collect sends P r (((List.range P).filter fun i => decide (NearRel P C o n i r)).map fun (i : ℕ) => (i : ℤ)) =
      some (((List.range P).filter fun i => decide (NearRel P C o n i r)).map fun i => msg i r) := by
  unfold collect
  rw [if_pos]
  · rw [List.mapM_map, mapM_some (g := fun i => msg i r)]
    intro i hi
    rw [List.mem_filter, List.mem_range, decide_eq_true_eq] at hi
    simp only [Function.comp, Int.toNat_natCast]
    rw [hs i hi.1, List.find?_map]
    have : ((List.range P).filter fun j => decide (NearRel P C o n i j)).find? ((fun m => decide (m.1 = r)) ∘ fun j => (j, msg i j)) = some r := by
      have h1 : ∀ l : List ℕ, r ∈ l → l.find? ((fun m => decide (m.1 = r)) ∘ fun j => (j, msg i j)) = some r := by
        intro l hl
        induction l with
        | nil => simp at hl
        | cons x l ih =>
          rw [List.find?_cons]
          by_cases hx : x = r
          · subst hx; simp
          · simp only [Function.comp, decide_eq_false hx]
            exact ih (by simpa [Ne.symm hx] using hl)
      apply h1
      rw [List.mem_filter, List.mem_range, decide_eq_true_eq]
      exact ⟨hr, hi.2⟩
    rw [this]; rfl
  · rw [Bool.and_eq_true]
    constructor
    · rw [List.all_eq_true]
      intro x hx
      obtain ⟨i, hi, rfl⟩ := List.mem_map.mp hx
      rw [List.mem_filter, List.mem_range] at hi
      simp only [decide_eq_true_eq]
      omega
    · rw [List.all_eq_true]
      intro p hp
      rw [List.mem_range] at hp
      simp only [decide_eq_true_eq]
      have cnt : ∀ (Q : ℕ → Prop) [DecidablePred Q] (x : ℕ), x < P →
          (((List.range P).filter fun j => decide (Q j)).filter fun j => decide (j = x)).length = if Q x then 1 else 0 := by
        intro Q _ x hx
        rw [List.filter_filter]
        have : (List.range P).filter (fun j => decide (j = x) && decide (Q j)) = if Q x then [x] else [] := by
          apply pairwise_eq_of_mem_iff ((List.pairwise_lt_range ..).filter _)
          · split <;> simp
          · intro y
            rw [List.mem_filter, List.mem_range, Bool.and_eq_true, decide_eq_true_eq, decide_eq_true_eq]
            split
            · rename_i hQ
              rw [List.mem_singleton]
              constructor
              · exact fun h => h.2.1
              · rintro rfl; exact ⟨hx, rfl, hQ⟩
            · rename_i hQ
              simp only [List.not_mem_nil, iff_false]
              rintro ⟨-, rfl, h⟩
              exact hQ h
        rw [this]; split <;> rfl
      rw [hs p hp, List.filter_map, List.filter_map, List.length_map, List.length_map]
      have e1 := cnt (fun i => NearRel P C o n i r) p hp
      have e2 := cnt (fun j => NearRel P C o n p j) r hr
      have e3 : ((fun x => decide (x = (p : ℤ))) ∘ fun (i : ℕ) => (i : ℤ)) = fun j : ℕ => decide (j = p) := by
        funext j; simp only [Function.comp, decide_eq_decide]; omega
      have e4 : ((fun m : ℕ × Near d => decide (m.1 = r)) ∘ fun j => (j, msg p j)) = fun j : ℕ => decide (j = r) := rfl
      rw [e3, e4, e1, e2]

theorem zip_map_map {γ δ ε : Type} (l : List γ) (f : γ → δ) (g : γ → ε) : (l.map f).zip (l.map g) = l.map fun x => (f x, g x) := by
  induction l with
  | nil => rfl
  | cons x l ih => simp [ih]

/-- The correction of rank `r`. -/
theorem correctionLocal_spec (hd : 0 < d) {L : List (ℕ × Quad d)} (hL : GSeq L) {P N C : ℕ} {o n : ℕ → ℕ} {now new : ℕ → ℤ}
    (h : Cuts P N C o n now new) (hC : C = 2 ^ d) (hN : L.length = N) {under : Option ℤ}
    {r : ℕ} (hr : r < P) (hu : 1 ≤ r → n r < n (r + 1) → UnderOk under N C (n r))
    {msg : ℕ → ℕ → Near d}
    (hmsg : ∀ i j, NearRel P C o n i j → ∃ k t q, NearMsg L C (o i) (o (i + 1)) (n j) k t q (msg i j))
    {sends : ℕ → List (ℕ × Near d)}
    (hs : ∀ p, p < P → sends p = ((List.range P).filter fun j => decide (NearRel P C o n p j)).map fun j => (j, msg p j)) :
    ∃ x, correctionLocal C now new under P N sends r = some x ∧
      (∀ m, FamAt L m → 1 ≤ r → n r < n (r + 1) → m < n r → n r < m + C →
        ∃ b, IsBest (share n m C) P b ∧ x = if b < r then (n r : ℤ) - (m + C) else (n r : ℤ) - m) ∧
      ((r = 0 ∨ n (r + 1) ≤ n r ∨ ∀ m, FamAt L m → ¬ (m < n r ∧ n r < m + C)) → x = 0) := by
  by_cases hact : 1 ≤ r ∧ n r < n (r + 1)
  · obtain ⟨w, c, l1, l2, w1, w2, w3, w4, w5, w6, w7, w8, w9⟩ := recv_spec h hr hact.1 hact.2 (hu hact.1 hact.2)
    have hex : ∀ i, ∃ k t q, NearRel P C o n i r → NearMsg L C (o i) (o (i + 1)) (n r) k t q (msg i r) := by
      intro i
      by_cases hi : NearRel P C o n i r
      · obtain ⟨k, t, q, e⟩ := hmsg i r hi
        exact ⟨k, t, q, fun _ => e⟩
      · exact ⟨0, 0, root d, fun h => absurd h hi⟩
    choose k t q hk using hex
    have hR : Recv L P N C o n r c (fun i => msg i r) k t q :=
      { seq := hL, omono := h.omono, o0 := h.o0, hC := hC, three := h.three, r1 := hact.1, rP := hr, ne := hact.2, cP := w3,
        c1 := w4, c2 := w5, msgs := hk }
    obtain ⟨mn, mx, s1, s2, s3⟩ := hR.span hd (by rw [hN, h.oP]) w2
    have hcol := collect_spec hr hs
    rw [w2] at hcol
    have hown : getZ ((l1 ++ c :: l2).map fun i => msg i r) (l1.length : ℤ) = some (msg c r) := by
      rw [getZ_nat, List.getElem?_map, List.getElem?_append_right le_rfl, Nat.sub_self]; rfl
    have heq : correctionLocal C now new under P N sends r = partitionCorrection C new P r mn mx := by
      unfold correctionLocal
      simp only [bind, Option.bind]
      rw [w1]; simp only
      rw [w9]; simp only
      rw [hcol]; simp only
      rw [if_pos (by omega), w7, hown]; simp only
      rw [w6, zip_map_map, h.new r hr.le, s1]
    rw [heq]
    by_cases hf : ∃ m, FamAt L m ∧ m < n r ∧ n r < m + C
    · obtain ⟨m, hm, hm1, hm2⟩ := hf
      obtain ⟨e1, e2⟩ := s2 m hm hm1 hm2
      have hmL : m + C ≤ n P := by
        obtain ⟨t', p', -, hfam⟩ := hm
        have h3 := h.three
        have := hfam (2 ^ d - 1) (by omega)
        have := (List.getElem?_eq_some_iff.mp this).1
        rw [hN, ← h.nP] at this
        omega
      obtain ⟨b, hb, hcor⟩ := partitionCorrection_spec h.nmono h.new (by rw [h.n0]; omega) hmL hr hact.2 hm1 hm2
      rw [e1, e2]
      refine ⟨_, hcor, ?_, ?_⟩
      · intro m' hm' _ _ hm1' hm2'
        have e3 := (s2 m' hm' hm1' hm2').1
        have : m' = m := by omega
        subst this
        exact ⟨b, hb, rfl⟩
      · rintro (h0 | h0 | h0)
        · omega
        · omega
        · exact absurd ⟨hm1, hm2⟩ (h0 m hm)
    · have hno : ∀ m, FamAt L m → ¬ (m < n r ∧ n r < m + C) := fun m hm hh => hf ⟨m, hm, hh.1, hh.2⟩
      refine ⟨0, ?_, fun m hm _ _ h1 h2 => absurd ⟨h1, h2⟩ (hno m hm), fun _ => rfl⟩
      unfold partitionCorrection
      rw [if_pos (s3 hno)]
  · have hnone : (List.range P).filter (fun i => decide (NearRel P C o n i r)) = [] := by
      rw [List.filter_eq_nil_iff]
      intro i _
      simp only [decide_eq_true_eq]
      unfold NearRel
      omega
    have hcol := collect_spec hr hs
    rw [hnone] at hcol
    refine ⟨0, ?_, fun m _ h1 h2 => absurd ⟨h1, h2⟩ hact, fun _ => rfl⟩
    unfold correctionLocal recvWindow posted
    rw [h.new r hr.le, h.new (r + 1) hr, if_neg (by omega)]
    simp only [bind, Option.bind]
    rw [if_neg (by omega)]
    simp only
    rw [show ([] : List ℤ) = List.map (fun (i : ℕ) => (i : ℤ)) [] from rfl, hcol]
    simp

theorem FamAt.eq {L : List (ℕ × Quad d)} (h : GSeq L) {m m' : ℕ} (h1 : FamAt L m) (h2 : FamAt L m') {j : ℕ}
    (a1 : m ≤ j) (a2 : j < m + 2 ^ d) (b1 : m' ≤ j) (b2 : j < m' + 2 ^ d) : m = m' := by
  obtain ⟨t, p, hv, hf⟩ := h1
  obtain ⟨t', p', hv', hf'⟩ := h2
  obtain ⟨x, hx, hp⟩ := (hf.sib_iff h hv j).mpr ⟨a1, a2⟩
  obtain ⟨x', hx', hp'⟩ := (hf'.sib_iff h hv' j).mpr ⟨b1, b2⟩
  rw [hx] at hx'
  injection hx' with e
  injection e with e1 e2
  subst e1 e2
  have e3 := (isParent_iff.mp hp).2
  have e4 := (isParent_iff.mp hp').2
  rw [← e3] at e4
  subst e4
  exact h.inj (hf 0 (by positivity)) (hf' 0 (by positivity))

end P4est
