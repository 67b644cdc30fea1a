import Verif.Lemmas.BalanceGeom
import Verif.Props.Curve
import Verif.Props.Search

/-! # The loop that fills the gaps -/

namespace P4est
open Spec

variable {d : ℕ}

theorem not_before_cases (hd : 0 < d) {t r : Quad d} (ht : Valid t) (hr : Valid r) (h : ¬ Before r t) :
    stop t ≤ start r ∨ t = r ∨ isAncestor t r = true := by
  have h1 := start_lt_stop t
  have h2 := start_lt_stop r
  rw [before_interval] at h
  rcases valid_cases hd ht hr with h3 | h3 | h3 | h3 | h3
  · exact Or.inl h3
  · omega
  · exact Or.inr (Or.inl h3)
  · exact Or.inr (Or.inr ((anc_interval hd ht hr).mpr ⟨h3.1, h3.2.1, h3.2.2.1⟩))
  · omega

theorem parent_interval (hd : 0 < d) {q : Quad d} (hq : Valid q) (h0 : 0 < q.level) :
    start (parent q) ≤ start q ∧ stop q ≤ stop (parent q) := by
  have h := (anc_interval hd (parent_valid hq h0) hq).mp (by
    have := cells_child_ssubset hd (parent_aligned hq.aligned h0) (by rw [parent_level]; have := hq.1; omega) (childId q)
    rw [child_parent hq.aligned h0] at this
    exact (isAncestor_iff hd (parent_aligned hq.aligned h0) hq.aligned).mpr this)
  exact ⟨h.1, h.2.1⟩

theorem isAncestor_parent (hd : 0 < d) {q : Quad d} (hq : Valid q) (h0 : 0 < q.level) :
    isAncestor (parent q) q = true := by
  have := cells_child_ssubset hd (parent_aligned hq.aligned h0) (by rw [parent_level]; have := hq.1; omega) (childId q)
  rw [child_parent hq.aligned h0] at this
  exact (isAncestor_iff hd (parent_aligned hq.aligned h0) hq.aligned).mpr this

/-- A quadrant strictly inside `a` has its parent inside `a`. -/
theorem parent_inside (hd : 0 < d) {a q : Quad d} (ha : Valid a) (hq : Valid q) (h : isAncestor a q = true) :
    a = parent q ∨ isAncestor a (parent q) = true := by
  have h1 := (anc_interval hd ha hq).mp h
  have h2 := parent_interval hd hq (by omega)
  have hp := parent_valid hq (by omega : 0 < q.level)
  have h3 := start_lt_stop q
  have hl : (parent q).level = q.level - 1 := rfl
  rcases valid_cases hd ha hp with h4 | h4 | h4 | h4 | h4
  · omega
  · omega
  · exact Or.inl h4
  · exact Or.inr ((anc_interval hd ha hp).mpr ⟨h4.1, h4.2.1, h4.2.2.1⟩)
  · omega

/-- Going up from last siblings. -/
theorem ascend_spec (hd : 0 < d) {dom : Quad d} (hdom : Valid dom) {t : Quad d} (ht : Valid t)
    (hin : isAncestor dom t = true) :
    ∃ u, ascend (dom.level + 1) t (childId t) = some (u, childId u) ∧ Valid u ∧ start u ≤ start t ∧
      stop u = stop t ∧ u.level ≤ t.level ∧
      (u = dom ∨ (isAncestor dom u = true ∧ childId u ≠ 2 ^ d - 1)) := by
  obtain ⟨n, hn⟩ : ∃ n, t.level = n := ⟨_, rfl⟩
  induction n using Nat.strong_induction_on generalizing t with
  | _ n ih =>
    have hl := ((anc_interval hd hdom ht).mp hin).2.2
    rw [ascend]
    by_cases hc : childId t = 2 ^ d - 1
    · rw [if_pos ⟨by omega, hc⟩]
      have h1 := parent_interval hd ht (by omega)
      have h2 := (childId_last_iff ht.aligned ht.int32 (by omega)).mp hc
      have hp := parent_valid ht (by omega : 0 < t.level)
      have hpl : (parent t).level = t.level - 1 := rfl
      rcases parent_inside hd hdom ht hin with h3 | h3
      · refine ⟨dom, ?_, hdom, by rw [h3]; exact h1.1, by rw [h3, h2], by omega, Or.inl rfl⟩
        rw [← h3, ascend, if_neg (by omega)]
      · obtain ⟨u, h4, h5, h6, h7, h8, h9⟩ := ih (parent t).level (by omega) hp h3 rfl
        exact ⟨u, h4, h5, by omega, by omega, by omega, h9⟩
    · rw [if_neg (fun h => hc h.2)]
      exact ⟨t, rfl, ht, le_rfl, rfl, le_rfl, Or.inr ⟨hin, hc⟩⟩

/-- The next sibling. -/
theorem next_sibling {u : Quad d} (hu : Valid u) (h0 : 0 < u.level)
    (hc : childId u ≠ 2 ^ d - 1) :
    Valid (sibling u (childId u + 1)) ∧ start (sibling u (childId u + 1)) = stop u ∧
      childId (sibling u (childId u + 1)) = childId u + 1 ∧ parent (sibling u (childId u + 1)) = parent u := by
  have hp := parent_valid hu h0
  have hlt := childId_lt u
  have hul := hu.1
  have hk : childId u + 1 < 2 ^ d := by omega
  have hpl : (parent u).level < 30 := by rw [parent_level]; omega
  rw [sibling_eq hu.aligned h0]
  have hv : Valid (child (parent u) (childId u + 1)) :=
    valid_subset hp (child_aligned hp.aligned hpl _) (by rw [child_level, parent_level]; omega)
      (child_corner_mem hp.aligned hpl _)
  have e1 := childId_child hp.aligned hpl hk
  have e2 := parent_child hp.aligned hpl (childId u + 1)
  refine ⟨hv, ?_, e1, e2⟩
  have h1 := start_childId hv.aligned hv.int32 (by rw [child_level]; omega)
  have h2 := start_childId hu.aligned hu.int32 h0
  rw [e1, e2] at h1
  have h3 : volume (child (parent u) (childId u + 1)) = volume u := by
    unfold volume; rw [child_level, parent_level, show u.level - 1 + 1 = u.level by omega]
  rw [h1.1, stop_eq, h2.1, h3]
  ring

/-- The piece of `t` before a quadrant inside `t`. -/
theorem split_before (hd : 0 < d) {t r : Quad d} (ht : Valid t) (hr : Valid r) (h : isAncestor t r = true)
    (hne : ¬ ∀ i, r.c i = t.c i) :
    ∃ a, nca (firstDesc t QMAXLEVEL) r = a ∧ Valid a ∧ a.c = t.c ∧ t.level ≤ a.level ∧
      a.level < r.level ∧ isAncestor a r = true ∧ stop (child a 0) ≤ start r := by
  have htl := ht.1
  have hrl := hr.1
  have hf : Valid (firstDesc t QMAXLEVEL) := by
    refine valid_subset ht (firstDesc_aligned ht.aligned (by exact htl) (by decide)) le_rfl ?_
    exact corner_mem t
  obtain ⟨h1, h2, h3, h4, -⟩ := C07_nca_valid hd (firstDesc t QMAXLEVEL) r hf hr
  refine ⟨nca (firstDesc t QMAXLEVEL) r, rfl, ?_⟩
  generalize nca (firstDesc t QMAXLEVEL) r = a at h1 h2 h3 h4
  have hft : Cells (firstDesc t QMAXLEVEL) ⊆ Cells t := cells_subset ht.aligned hf.aligned htl (corner_mem t)
  have hat := h4 t ht.aligned hft ((isAncestor_iff hd ht.aligned hr.aligned).mp h).1
  have i1 := (valid_subset_iff hd ht h1).mp hat
  have i2 := (valid_subset_iff hd h1 hf).mp h2
  rw [start_firstDesc] at i2
  have hac : a.c = t.c := curve_inj h1.int32 ht.int32 (show start a = start t by omega)
  have hne' : r ≠ a := fun e => hne (fun i => by rw [e, hac])
  have hss := valid_ssubset_of_ne hd h1 hr h3 hne'
  have hlv := (isAncestor_iff_div.mp ((isAncestor_iff hd h1.aligned hr.aligned).mpr hss)).1
  have hal : t.level ≤ a.level := ((cells_subset_iff hd ht.aligned h1.aligned).mp hat).1
  refine ⟨h1, hac, hal, hlv, (isAncestor_iff hd h1.aligned hr.aligned).mpr hss, ?_⟩
  have hcv : Valid (child a 0) := valid_subset h1 (child_aligned h1.aligned (by omega) 0)
    (by rw [child_level]; omega) (child_corner_mem h1.aligned (by omega) 0)
  have hcs : start (child a 0) = start t := by
    rw [child_zero]; show curve a.c = _; rw [hac]; rfl
  have hrs : start t < start r := by
    have := ((anc_interval hd ht hr).mp h).1
    rcases Nat.lt_or_ge (start t) (start r) with h5 | h5
    · exact h5
    · exact absurd (curve_inj hr.int32 ht.int32 (show start r = start t by omega)) (fun e => hne (fun i => by rw [e]))
  have hcl : (child a 0).level = a.level + 1 := rfl
  rcases not_before_cases hd hcv hr (by rw [before_interval]; omega) with h5 | h5 | h5
  · exact h5
  · rw [← h5] at hrs; omega
  · exfalso
    have h6 := h4 (child a 0) hcv.aligned (by
      rw [valid_subset_iff hd hcv hf, start_firstDesc]
      refine ⟨by omega, ?_⟩
      have h7 : Cells (firstDesc t QMAXLEVEL) ⊆ Cells (child a 0) := by
        apply cells_subset hcv.aligned hf.aligned (by show _ ≤ 29; omega)
        have : (firstDesc t QMAXLEVEL).c = (child a 0).c := by rw [child_zero, hac]; rfl
        rw [this]
        exact corner_mem _
      exact ((valid_subset_iff hd hcv hf).mp h7).2)
      ((isAncestor_iff hd hcv.aligned hr.aligned).mp h5).1
    have := ((cells_subset_iff hd hcv.aligned h1.aligned).mp h6).1
    omega

/-! ## Invariants -/

/-- What the loop may rely on: `e` is the position where the region ends. -/
structure FillCtx (dom : Quad d) (last : Option (Quad d)) (L : List (Quad d)) (e : ℕ) : Prop where
  domv : Valid dom
  list : ∀ r ∈ L, Valid r ∧ isAncestor dom r = true
  sorted : SortedWeak L
  upto : ∀ r ∈ L, start r < e
  none_end : last = none → e = stop dom
  some_end : ∀ l, last = some l → Valid l ∧ l.level = 29 ∧ start dom ≤ start l ∧ stop l ≤ stop dom ∧ e = stop l

/-- The parent of a quadrant cannot be used instead. -/
def Justified (dom : Quad d) (L : List (Quad d)) (a e : ℕ) (u : Quad d) : Prop :=
  u.level = dom.level + 1 ∨ (∃ r ∈ L, isAncestor (parent u) r = true) ∨ start (parent u) < a ∨
    e < stop (parent u)

/-- Properties of the quadrants put out. -/
structure FillOut (dom : Quad d) (L : List (Quad d)) (a e : ℕ) (u : Quad d) : Prop where
  valid : Valid u
  inside : isAncestor dom u = true
  fine : ∀ r ∈ L, isAncestor u r = false
  just : Justified dom L a e u

/-- The state of the loop. -/
structure FillSt (dom : Quad d) (L : List (Quad d)) (a e : ℕ) (t : Quad d) (pid jz : ℕ)
    (out : List (Quad d)) : Prop where
  valid : Valid t
  inside : isAncestor dom t = true
  pid : pid = childId t
  path : Path a out (start t)
  bound : start t ≤ e
  done : ∀ r ∈ L.take jz, ¬ Before t r
  todo : ∀ r ∈ L.drop jz, ¬ Before r t
  outs : ∀ u ∈ out, FillOut dom L a e u
  just : Justified dom L a e t

theorem FillCtx.end_le {dom : Quad d} {last : Option (Quad d)} {L : List (Quad d)} {e : ℕ}
    (hc : FillCtx dom last L e) : e ≤ stop dom := by
  cases last with
  | none => exact (hc.none_end rfl).le
  | some l => have := hc.some_end l rfl; omega

/-- The next target. -/
theorem fillNext_spec (hd : 0 < d) (hd3 : d ≤ 3) {dom : Quad d} {last : Option (Quad d)} {L : List (Quad d)} {e : ℕ}
    (hc : FillCtx dom last L e) (jz : ℕ) :
    (∃ h : jz < L.length, fillNext dom last L jz = some (some L[jz])) ∨
    (L.length ≤ jz ∧ e = stop dom ∧ fillNext dom last L jz = some none) ∨
    (L.length ≤ jz ∧ ∃ r, Valid r ∧ r.level = 29 ∧ start r = e ∧ stop r ≤ stop dom ∧
      fillNext dom last L jz = some (some r)) := by
  unfold fillNext
  by_cases h : jz < L.length
  · left
    refine ⟨h, ?_⟩
    rw [List.getElem?_eq_getElem h]
  · right
    rw [List.getElem?_eq_none (by omega)]
    cases last with
    | none => exact Or.inl ⟨by omega, hc.none_end rfl, rfl⟩
    | some l =>
      obtain ⟨h1, h2, h3, h4, h5⟩ := hc.some_end l rfl
      have hdl : dom.level ≤ 29 := hc.domv.1
      have hld := stop_lastDesc hc.domv.aligned hc.domv.int32 (l := QMAXLEVEL) hdl (by decide)
      dsimp only
      by_cases heq : isEqual (lastDesc dom QMAXLEVEL) l = true
      · left
        rw [if_pos heq]
        rw [isEqual_iff] at heq
        exact ⟨by omega, by rw [h5, ← heq, hld], rfl⟩
      · right
        rw [if_neg heq]
        have hv : Valid (lastDesc dom QMAXLEVEL) := by
          refine valid_subset hc.domv (lastDesc_aligned hc.domv.aligned hdl (by decide)) le_rfl ?_
          exact lastDesc_mem hdl
        have hne : stop l ≠ stop dom := by
          intro he
          apply heq
          rw [isEqual_iff]
          have hlv : (lastDesc dom QMAXLEVEL).level = 29 := rfl
          have hs : volume (lastDesc dom QMAXLEVEL) = volume l := by unfold volume; rw [hlv, h2]
          rw [stop_eq] at hld
          rw [stop_eq] at he
          apply eq_of_interval hd hv.aligned h1.aligned hv.int32 h1.int32
          · omega
          · rw [stop_eq, stop_eq]; omega
        obtain ⟨s1, s2⟩ := C12_successor hd hd3 l h1
        have hdr := valid_stop_le hd hc.domv
        cases hsuc : successor l with
        | none => have := s2.mp hsuc; omega
        | some r =>
          obtain ⟨r1, r2, r3, -⟩ := s1 r hsuc
          refine ⟨by omega, r, r1, by omega, by omega, ?_, rfl⟩
          rcases valid_cases hd hc.domv r1 with h6 | h6 | h6 | h6 | h6
          · omega
          · have := start_lt_stop r; have := start_lt_stop l; omega
          · rw [← h6]
          · omega
          · have := h6.2.2.1; omega

/-- What the target number `jz` is. -/
def Target (dom : Quad d) (L : List (Quad d)) (e jz : ℕ) : Option (Quad d) → Prop
  | some r => (∃ h : jz < L.length, r = L[jz]) ∨
      (L.length ≤ jz ∧ Valid r ∧ r.level = 29 ∧ start r = e ∧ stop r ≤ stop dom)
  | none => L.length ≤ jz ∧ e = stop dom

theorem fillNext_target (hd : 0 < d) (hd3 : d ≤ 3) {dom : Quad d} {last : Option (Quad d)} {L : List (Quad d)}
    {e : ℕ} (hc : FillCtx dom last L e) (jz : ℕ) :
    ∃ q, fillNext dom last L jz = some q ∧ Target dom L e jz q := by
  rcases fillNext_spec hd hd3 hc jz with ⟨h, h1⟩ | ⟨h, h1, h2⟩ | ⟨h, r, h1, h2, h3, h4, h5⟩
  · exact ⟨_, h1, Or.inl ⟨h, rfl⟩⟩
  · exact ⟨_, h2, h, h1⟩
  · exact ⟨_, h5, Or.inr ⟨h, h1, h2, h3, h4⟩⟩

theorem Target.valid {dom : Quad d} {last : Option (Quad d)} {L : List (Quad d)} {e jz : ℕ}
    (hc : FillCtx dom last L e) {r : Quad d} (h : Target dom L e jz (some r)) : Valid r := by
  rcases h with ⟨h, rfl⟩ | h
  · exact (hc.list _ (List.getElem_mem h)).1
  · exact h.2.1

theorem FillSt.target {dom : Quad d} {L : List (Quad d)} {a e : ℕ} {t : Quad d} {pid jz : ℕ}
    {out : List (Quad d)} (hs : FillSt dom L a e t pid jz out) {r : Quad d}
    (h : Target dom L e jz (some r)) : ¬ Before r t := by
  rcases h with ⟨h, rfl⟩ | h
  · apply hs.todo
    rw [List.mem_drop_iff_getElem]
    exact ⟨0, by omega, by simp⟩
  · have := hs.bound
    have := hs.valid.1
    rw [before_interval]
    omega

/-- Behind the region or not. -/
theorem past_iff (hd : 0 < d) {dom : Quad d} {last : Option (Quad d)} {L : List (Quad d)} {e : ℕ}
    (hc : FillCtx dom last L e) {t : Quad d} (ht : Valid t) (hin : isAncestor dom t = true)
    (hb : start t ≤ e) : (last.any fun ld => decide (compare t ld > 0)) = true ↔ start t = e := by
  have h1 := start_lt_stop t
  have h0 := (anc_interval hd hc.domv ht).mp hin
  cases last with
  | none =>
    have := hc.none_end rfl
    simp only [Option.any_none, Bool.false_eq_true, false_iff]
    omega
  | some l =>
    obtain ⟨h2, h3, h4, h5, h6⟩ := hc.some_end l rfl
    have h7 := start_lt_stop l
    have h8 := ht.1
    simp only [Option.any_some, decide_eq_true_eq]
    rw [gt_iff_lt, compare_pos_iff hd ht.int32 h2.int32, before_interval]
    constructor
    · intro h9
      rcases valid_cases hd h2 ht with h | h | h | h | h
      · omega
      · omega
      · rw [← h] at h9; omega
      · have := h.2.2.1; omega
      · omega
    · intro h9; omega

theorem comesBefore_iff (hd : 0 < d) {t r : Quad d} (ht : Valid t) (hr : Valid r) (h : ¬ Before r t) :
    (comesBefore t (some r) = true → stop t ≤ start r) ∧
    (comesBefore t (some r) = false → t = r ∨ isAncestor t r = true) := by
  unfold comesBefore
  constructor
  · intro h1
    simp only [Bool.and_eq_true, Bool.not_eq_true'] at h1
    rcases not_before_cases hd ht hr h with h2 | h2 | h2
    · exact h2
    · rw [isEqual_iff.mpr h2] at h1; simp at h1
    · rw [h2] at h1; simp at h1
  · intro h1
    by_cases h2 : isAncestor t r = true
    · exact Or.inr h2
    · left
      rw [← isEqual_iff]
      simpa [h2] using h1

/-- One quadrant is put out. -/
theorem FillSt.push (hd : 0 < d) {dom : Quad d} {last : Option (Quad d)} {L : List (Quad d)} {a e : ℕ}
    (hc : FillCtx dom last L e) {t : Quad d} {pid jz : ℕ} {out : List (Quad d)}
    (hs : FillSt dom L a e t pid jz out) {q : Option (Quad d)} (hq : Target dom L e jz q)
    (hb : comesBefore t q = true) :
    stop t ≤ e ∧ Path a (out ++ [t]) (stop t) ∧ (∀ u ∈ out ++ [t], FillOut dom L a e u) ∧
      ∀ r ∈ L.drop jz, stop t ≤ start r := by
  have h0 := (anc_interval hd hc.domv hs.valid).mp hs.inside
  have hlt := start_lt_stop t
  have hdrop : ∀ r ∈ L.drop jz, stop t ≤ start r := by
    intro r hr
    cases q with
    | none => rw [List.drop_of_length_le hq.1] at hr; simp at hr
    | some x =>
      rcases hq with ⟨hj, hx⟩ | ⟨hj, -⟩
      · obtain ⟨i, hi, rfl⟩ := List.mem_drop_iff_getElem.mp hr
        have h1 : stop t ≤ start x := by
          apply (comesBefore_iff hd hs.valid (by rw [hx]; exact (hc.list _ (List.getElem_mem hj)).1) ?_).1 hb
          exact hs.target (Or.inl ⟨hj, hx⟩)
        rcases Nat.eq_zero_or_pos i with rfl | hi0
        · simpa [← hx] using h1
        · have h2 := hc.sorted.get (i := jz) (j := jz + i) (by omega) (by omega)
          rw [← hx, before_interval] at h2
          omega
      · rw [List.drop_of_length_le hj] at hr; simp at hr
  have hle : stop t ≤ e := by
    cases q with
    | none => rw [hq.2]; exact h0.2.1
    | some x =>
      have h1 := (comesBefore_iff hd hs.valid (hq.valid hc) (hs.target hq)).1 hb
      rcases hq with ⟨hj, hx⟩ | ⟨hj, h2, h3, h4, h5⟩
      · have := hc.upto x (by rw [hx]; exact List.getElem_mem hj)
        omega
      · omega
  refine ⟨hle, path_append.mpr ⟨start t, hs.path, rfl, rfl⟩, ?_, hdrop⟩
  intro u hu
  rcases List.mem_append.mp hu with hu | hu
  · exact hs.outs u hu
  · rw [List.mem_singleton] at hu
    subst hu
    refine ⟨hs.valid, hs.inside, fun r hr => ?_, hs.just⟩
    by_contra hcn
    rw [Bool.not_eq_false, anc_interval hd hs.valid (hc.list r hr).1] at hcn
    have h3 := start_lt_stop r
    rw [← List.take_append_drop jz L] at hr
    rcases List.mem_append.mp hr with hr | hr
    · have := hs.done r hr
      rw [before_interval] at this
      omega
    · have := hdrop r hr
      omega

theorem Justified.up (hd : 0 < d) {dom : Quad d} {last : Option (Quad d)} {L : List (Quad d)} {a e : ℕ}
    (hc : FillCtx dom last L e) {t u s : Quad d} (ht : Valid t) (hu : Valid u)
    (h1 : start u ≤ start t) (h2 : stop t ≤ stop u) (hl : u.level ≤ t.level) (hlu : dom.level + 1 ≤ u.level)
    (hp : parent s = parent u) (hsl : s.level = u.level)
    (h : Justified dom L a e t) : Justified dom L a e s := by
  have hpt := parent_valid ht (by omega)
  have hpu := parent_valid hu (by omega)
  have hiu := parent_interval hd hu (by omega)
  have hit := parent_interval hd ht (by omega)
  have hlt := start_lt_stop t
  have l1 : (parent t).level = t.level - 1 := rfl
  have l2 : (parent u).level = u.level - 1 := rfl
  have sub : start (parent u) ≤ start (parent t) ∧ stop (parent t) ≤ stop (parent u) := by
    rcases valid_cases hd hpu hpt with h | h | h | h | h
    · omega
    · omega
    · rw [h]; exact ⟨le_rfl, le_rfl⟩
    · omega
    · omega
  unfold Justified
  rw [hp, hsl]
  rcases h with h | ⟨r, hr, h⟩ | h | h
  · left; omega
  · right; left
    refine ⟨r, hr, ?_⟩
    have hrv := (hc.list r hr).1
    rw [anc_interval hd hpt hrv] at h
    rw [anc_interval hd hpu hrv]
    omega
  · right; right; left; omega
  · right; right; right; omega

theorem fillWhile_spec (hd : 0 < d) {dom : Quad d} {last : Option (Quad d)} {L : List (Quad d)} {a e : ℕ}
    (hc : FillCtx dom last L e) {jz : ℕ} {q : Option (Quad d)} (hq : Target dom L e jz q) {t : Quad d}
    {pid : ℕ} {out : List (Quad d)} (hs : FillSt dom L a e t pid jz out) :
    ∃ t' pid' out', fillWhile (dom.level + 1) last q t pid out = some (t', pid', out') ∧
      ((t'.level < dom.level + 1 ∧ Path a out' e ∧ ∀ u ∈ out', FillOut dom L a e u) ∨
       (FillSt dom L a e t' pid' jz out' ∧ (start t < start t' ∨ t' = t) ∧
        (start t' = e ∨ comesBefore t' q = false))) := by
  obtain ⟨n, hn⟩ : ∃ n, stop dom - start t = n := ⟨_, rfl⟩
  induction n using Nat.strong_induction_on generalizing t pid out with
  | _ n ih =>
    have h0 := (anc_interval hd hc.domv hs.valid).mp hs.inside
    have hlt := start_lt_stop t
    have hp := past_iff hd hc hs.valid hs.inside hs.bound
    rw [fillWhile]
    by_cases hb : comesBefore t q = true
    · rw [if_pos hb]
      by_cases hpast : (last.any fun ld => decide (compare t ld > 0)) = true
      · rw [if_pos hpast]
        exact ⟨_, _, _, rfl, Or.inr ⟨hs, Or.inr rfl, Or.inl (hp.mp hpast)⟩⟩
      · rw [if_neg hpast]
        obtain ⟨p1, p2, p3, p4⟩ := hs.push hd hc hq hb
        obtain ⟨u, a1, a2, a3, a4, a5, a6⟩ := ascend_spec hd hc.domv hs.valid hs.inside
        rw [hs.pid, obind a1]
        dsimp only
        rcases a6 with rfl | ⟨a6, a7⟩
        · rw [if_pos (by omega)]
          refine ⟨_, _, _, rfl, Or.inl ⟨by omega, ?_, p3⟩⟩
          have := hc.end_le
          rwa [show e = stop t by omega]
        · have hul := ((anc_interval hd hc.domv a2).mp a6)
          rw [if_neg (by omega)]
          obtain ⟨s1, s2, s3, s4⟩ := next_sibling a2 (by omega) a7
          have hsl : (sibling u (childId u + 1)).level = u.level := rfl
          have hpu := parent_interval hd a2 (by omega)
          have hps := parent_interval hd s1 (by omega)
          rw [s4] at hps
          have hult := start_lt_stop u
          have hslt := start_lt_stop (sibling u (childId u + 1))
          have hins : isAncestor dom (sibling u (childId u + 1)) = true := by
            rw [anc_interval hd hc.domv s1]
            rcases parent_inside hd hc.domv a2 a6 with h | h
            · rw [← h] at hps; omega
            · rw [anc_interval hd hc.domv (parent_valid a2 (by omega))] at h
              omega
          have hs' : FillSt dom L a e (sibling u (childId u + 1)) (childId u + 1) jz (out ++ [t]) := by
            refine ⟨s1, hins, s3.symm, by rw [s2, a4]; exact p2, by omega, ?_, ?_, p3, ?_⟩
            · intro r hr
              have := hs.done r hr
              rw [before_interval] at this ⊢
              omega
            · intro r hr
              have h1 := p4 r hr
              have hrv := (hc.list r (List.mem_of_mem_drop hr)).1
              rw [before_interval]
              rintro (h2 | ⟨h2, h3⟩)
              · omega
              · have hr1 := start_lt_stop r
                have l2 : (parent u).level = u.level - 1 := rfl
                rcases valid_cases hd hrv (parent_valid a2 (by omega)) with h | h | h | h | h
                · omega
                · omega
                · rw [h] at h2; omega
                · omega
                · have := h.2.2.1; omega
            · exact Justified.up hd hc hs.valid a2 a3 a4.ge a5 (by omega) s4 hsl hs.just
          obtain ⟨t', pid', out', r1, r2⟩ := ih _ (by omega) hs' rfl
          refine ⟨t', pid', out', r1, ?_⟩
          rcases r2 with r2 | ⟨r2, r3, r4⟩
          · exact Or.inl r2
          · refine Or.inr ⟨r2, Or.inl ?_, r4⟩
            rcases r3 with r3 | r3
            · omega
            · rw [r3]; omega
    · rw [if_neg hb]
      exact ⟨_, _, _, rfl, Or.inr ⟨hs, Or.inr rfl, Or.inr (by simpa using hb)⟩⟩

/-- The next target is taken over. -/
theorem FillSt.take (hd : 0 < d) {dom : Quad d} {last : Option (Quad d)} {L : List (Quad d)} {a e : ℕ}
    (hc : FillCtx dom last L e) {t : Quad d} {pid jz : ℕ} {out : List (Quad d)}
    (hs : FillSt dom L a e t pid jz out) (hj : jz < L.length) (hr : t = L[jz] ∨ isAncestor t L[jz] = true)
    (heq : ∀ i, (L[jz]).c i = t.c i) :
    FillSt dom L a e ⟨t.c, (L[jz]).level⟩ (if (L[jz]).level > t.level then 0 else pid) (jz + 1) out := by
  have hmem := List.getElem_mem hj
  obtain ⟨hrv, hrin⟩ := hc.list _ hmem
  have e1 : (⟨t.c, (L[jz]).level⟩ : Quad d) = L[jz] := Quad.ext' (fun i => (heq i).symm) rfl
  rw [e1]
  have hst : start L[jz] = start t := by
    show curve _ = curve _
    congr 1
    exact funext heq
  have hrl := ((anc_interval hd hc.domv hrv).mp hrin).2.2
  refine ⟨hrv, hrin, ?_, by rw [hst]; exact hs.path, by rw [hst]; exact hs.bound, ?_, ?_, hs.outs, ?_⟩
  · rcases hr with hr | hr
    · rw [if_neg (by rw [← hr]; omega), hs.pid, ← hr]
    · have hal := (anc_interval hd hs.valid hrv).mp hr
      rw [if_pos (by omega)]
      have h1 := start_childId hrv.aligned hrv.int32 (by omega)
      have h2 := parent_interval hd hrv (by omega)
      have hv := volume_pos L[jz]
      have h3 : start t ≤ start (parent L[jz]) := by
        rcases parent_inside hd hs.valid hrv hr with h | h
        · rw [← h]
        · exact ((anc_interval hd hs.valid (parent_valid hrv (by omega))).mp h).1
      have h4 : childId L[jz] * volume L[jz] = 0 := by omega
      rcases Nat.mul_eq_zero.mp h4 with h5 | h5
      · exact h5.symm
      · omega
  · intro r hr'
    obtain ⟨i, hi, rfl⟩ := List.mem_take_iff_getElem.mp hr'
    rcases Nat.lt_or_ge i jz with h | h
    · exact hc.sorted.get h hj
    · have : i = jz := by omega
      subst this
      exact Before.irrefl
  · intro r hr'
    obtain ⟨i, hi, rfl⟩ := List.mem_drop_iff_getElem.mp hr'
    exact hc.sorted.get (by omega) (by omega)
  · exact Or.inr (Or.inl ⟨_, hmem, isAncestor_parent hd hrv (by omega)⟩)

theorem fillLoop_spec (hd : 0 < d) (hd3 : d ≤ 3) {dom : Quad d} {last : Option (Quad d)} {L : List (Quad d)}
    {a e : ℕ} (hc : FillCtx dom last L e) {jz : ℕ} {q : Option (Quad d)} (hq : Target dom L e jz q)
    {t : Quad d} {pid : ℕ} {out : List (Quad d)} (hs : FillSt dom L a e t pid jz out) :
    ∃ res, fillLoop dom last L q t pid jz out = some res ∧ Path a res e ∧
      ∀ u ∈ res, FillOut dom L a e u := by
  obtain ⟨t', pid', out', w1, w2⟩ := fillWhile_spec hd hc hq hs
  rw [fillLoop, obind w1]
  dsimp only
  have hsin := (anc_interval hd hc.domv hs.valid).mp hs.inside
  have hslt := start_lt_stop t
  rcases w2 with ⟨w2, w3, w4⟩ | ⟨w2, w3, w4⟩
  · rw [if_pos (Or.inl w2)]
    exact ⟨_, rfl, w3, w4⟩
  · have hp := past_iff hd hc w2.valid w2.inside w2.bound
    have hin := (anc_interval hd hc.domv w2.valid).mp w2.inside
    by_cases hend : start t' = e
    · rw [if_pos (Or.inr (hp.mpr hend))]
      exact ⟨_, rfl, hend ▸ w2.path, w2.outs⟩
    · rw [if_neg (by
        rintro (h | h)
        · omega
        · exact hend (hp.mp h))]
      have hcb := w4.resolve_left hend
      cases q with
      | none => simp [comesBefore] at hcb
      | some r =>
        have hrv := hq.valid hc
        have hr := (comesBefore_iff hd w2.valid hrv (w2.target hq)).2 hcb
        dsimp only
        by_cases heq : ∀ i, r.c i = t'.c i
        · rw [if_pos heq]
          obtain ⟨q', n1, n2⟩ := fillNext_target hd hd3 hc (jz + 1)
          rw [obind n1]
          have hst : start r = start t' := by
            show curve _ = curve _
            congr 1
            exact funext heq
          rcases hq with ⟨hj, rfl⟩ | ⟨-, -, -, h4, -⟩
          · have hs' := w2.take hd hc hj hr heq
            have dec : stop dom - start (⟨t'.c, (L[jz]).level⟩ : Quad d) ≤ stop dom - start t := by
              have : start (⟨t'.c, (L[jz]).level⟩ : Quad d) = start t' := rfl
              rcases w3 with h | h
              · omega
              · rw [this, h]
            have dec2 : L.length - (jz + 1) < L.length - jz := by omega
            exact fillLoop_spec hd hd3 hc n2 hs'
          · omega
        · rw [if_neg heq]
          have hra : isAncestor t' r = true := by
            rcases hr with h | h
            · exact absurd (fun i => by rw [h]) heq
            · exact h
          obtain ⟨b, b1, b2, b3, b4, b5, b6, b7⟩ := split_before hd w2.valid hrv hra heq
          rw [b1]
          have hrl := hrv.1
          have ec : (⟨b.c, b.level + 1⟩ : Quad d) = child b 0 := (child_zero b).symm
          rw [ec]
          have hcv : Valid (child b 0) := valid_subset b2 (child_aligned b2.aligned (by omega) 0)
            (by rw [child_level]; omega) (child_corner_mem b2.aligned (by omega) 0)
          have hcs : start (child b 0) = start t' := by
            rw [child_zero]; show curve b.c = _; rw [b3]; rfl
          have hcl : (child b 0).level = b.level + 1 := rfl
          have hpc : parent (child b 0) = b := parent_child b2.aligned (by omega) 0
          have hclt := start_lt_stop (child b 0)
          have hs' : FillSt dom L a e (child b 0) 0 jz out' := by
            refine ⟨hcv, ?_, (childId_child b2.aligned (by omega) (by positivity)).symm,
              by rw [hcs]; exact w2.path, by rw [hcs]; exact w2.bound, ?_, ?_, w2.outs, ?_⟩
            · have h1 := start_lt_stop b
              have h2 := (anc_interval hd b2 hrv).mp b6
              have h3 : Cells b ⊆ Cells t' := by
                apply cells_subset w2.valid.aligned b2.aligned b4
                rw [b3]; exact corner_mem t'
              have h4 := (valid_subset_iff hd w2.valid b2).mp h3
              have h5 := (valid_subset_iff hd b2 hcv).mp (cells_child_ssubset hd b2.aligned (by omega) 0).1
              rw [anc_interval hd hc.domv hcv]
              omega
            · intro x hx
              have := w2.done x hx
              rw [before_interval] at this ⊢
              omega
            · intro x hx
              rw [before_interval]
              rcases hq with ⟨hj, rfl⟩ | ⟨hj, -⟩
              · obtain ⟨i, hi, rfl⟩ := List.mem_drop_iff_getElem.mp hx
                rcases Nat.eq_zero_or_pos i with rfl | hi0
                · simp only [Nat.add_zero]
                  omega
                · have h2 := hc.sorted.get (i := jz) (j := jz + i) (by omega) (by omega)
                  rw [before_interval] at h2
                  omega
              · rw [List.drop_of_length_le hj] at hx; simp at hx
            · unfold Justified
              rw [hpc]
              rcases hq with ⟨hj, rfl⟩ | ⟨hj, -, -, h4, -⟩
              · exact Or.inr (Or.inl ⟨_, List.getElem_mem hj, b6⟩)
              · refine Or.inr (Or.inr (Or.inr ?_))
                have h2 := (anc_interval hd b2 hrv).mp b6
                have := start_lt_stop r
                omega
          have dec : stop dom - start (child b 0) < stop dom - start t ∨
              (stop dom - start (child b 0) = stop dom - start t ∧ 30 - (child b 0).level < 30 - t.level) := by
            rcases w3 with h | h
            · left; omega
            · right; rw [h] at hcs b4; omega
          exact fillLoop_spec hd hd3 hc hq hs'
termination_by (stop dom - start t, L.length - jz, 30 - t.level)
decreasing_by
  · simp only [Prod.lex_def]
    omega
  · simp only [Prod.lex_def]
    exact dec.imp id fun h => ⟨h.1, Or.inr ⟨trivial, h.2⟩⟩

end P4est
