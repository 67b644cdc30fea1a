import Verif.Lemmas.BalancePhase

/-! # The kernel of completion and balance -/

namespace P4est
open Spec

variable {d : ℕ}

/-- The first sibling. -/
theorem sibling_zero (hd : 0 < d) {dom x : Quad d} (hdom : Valid dom) (hx : Valid x) (h : isAncestor dom x = true) :
    FamHead dom (sibling x 0) ∧ parent (sibling x 0) = parent x ∧ start (sibling x 0) = start (parent x) ∧
      (sibling x 0).level = x.level := by
  have hl := ((anc_interval hd hdom hx).mp h).2.2
  have hx1 := hx.1
  have hp := parent_valid hx (by omega)
  have hpl : (parent x).level < 30 := by rw [parent_level]; omega
  have hlv : (sibling x 0).level = x.level := rfl
  rw [sibling_eq hx.aligned (by omega)] at hlv ⊢
  have hs := cells_child_ssubset hd hp.aligned hpl 0
  have hdp : Cells (parent x) ⊆ Cells dom := by
    rcases parent_inside hd hdom hx h with h1 | h1
    · rw [h1]
    · exact ((isAncestor_iff hd hdom.aligned hp.aligned).mp h1).1
  refine ⟨⟨?_, childId_child hp.aligned hpl (by positivity), ?_⟩, parent_child hp.aligned hpl 0, ?_, hlv⟩
  · exact valid_subset hp (child_aligned hp.aligned hpl 0) (by omega) (child_corner_mem hp.aligned hpl 0)
  · exact isAncestor_trans hd hdom.aligned (child_aligned hp.aligned hpl 0) hdp hs
  · rw [child_zero]; rfl

/-! ## The first and the last quadrant of the region -/

theorem climb_first (hd : 0 < d) {dom f : Quad d} (hdom : Valid dom) (hf : Valid f) (h : isAncestor dom f = true) :
    ∃ fd, climb 0 (f.level - (dom.level + 1)) f = fd ∧ Valid fd ∧ isAncestor dom fd = true ∧ start fd = start f ∧
      fd.level ≤ f.level ∧ (fd.level = dom.level + 1 ∨ start (parent fd) < start fd) := by
  obtain ⟨n, hn⟩ : ∃ n, f.level - (dom.level + 1) = n := ⟨_, rfl⟩
  rw [hn]
  induction n generalizing f with
  | zero =>
    have hl := ((anc_interval hd hdom hf).mp h).2.2
    exact ⟨f, rfl, hf, h, rfl, le_rfl, Or.inl (by omega)⟩
  | succ n ih =>
    have hp := parent_valid hf (by omega)
    have hsc := start_childId hf.aligned hf.int32 (by omega)
    have hv := volume_pos f
    unfold climb
    by_cases hc : childId f = 0
    · rw [if_pos hc]
      have hpl : (parent f).level = f.level - 1 := rfl
      have hin : isAncestor dom (parent f) = true := by
        rcases parent_inside hd hdom hf h with h1 | h1
        · rw [h1, hpl] at hn; omega
        · exact h1
      obtain ⟨fd, e1, e2, e3, e4, e5, e6⟩ := ih hp hin (by omega)
      refine ⟨fd, e1, e2, e3, ?_, by omega, e6⟩
      rw [hc, zero_mul] at hsc
      omega
    · rw [if_neg hc]
      refine ⟨f, rfl, hf, h, rfl, le_rfl, Or.inr ?_⟩
      have : 0 < childId f * volume f := Nat.mul_pos (by omega) hv
      omega

theorem climb_last (hd : 0 < d) {dom f : Quad d} (hdom : Valid dom) (hf : Valid f) (h : isAncestor dom f = true) :
    ∃ fd, climb (2 ^ d - 1) (f.level - (dom.level + 1)) f = fd ∧ Valid fd ∧ isAncestor dom fd = true ∧
      stop fd = stop f ∧ start fd ≤ start f ∧ fd.level ≤ f.level ∧
      (fd.level = dom.level + 1 ∨ stop fd < stop (parent fd)) := by
  obtain ⟨n, hn⟩ : ∃ n, f.level - (dom.level + 1) = n := ⟨_, rfl⟩
  rw [hn]
  induction n generalizing f with
  | zero =>
    have hl := ((anc_interval hd hdom hf).mp h).2.2
    exact ⟨f, rfl, hf, h, rfl, le_rfl, le_rfl, Or.inl (by omega)⟩
  | succ n ih =>
    have hp := parent_valid hf (by omega)
    have hsc := childId_last_iff hf.aligned hf.int32 (by omega)
    have hpi := parent_interval hd hf (by omega)
    unfold climb
    by_cases hc : childId f = 2 ^ d - 1
    · rw [if_pos hc]
      have hpl : (parent f).level = f.level - 1 := rfl
      have hin : isAncestor dom (parent f) = true := by
        rcases parent_inside hd hdom hf h with h1 | h1
        · rw [h1, hpl] at hn; omega
        · exact h1
      obtain ⟨fd, e1, e2, e3, e4, e4', e5, e6⟩ := ih hp hin (by omega)
      have := hsc.mp hc
      exact ⟨fd, e1, e2, e3, by omega, by omega, by omega, e6⟩
    · rw [if_neg hc]
      refine ⟨f, rfl, hf, h, rfl, le_rfl, le_rfl, Or.inr ?_⟩
      have : stop f ≠ stop (parent f) := fun e => hc (hsc.mpr e)
      omega

/-- Nothing inside the domain that begins at the same place is larger. -/
theorem climb_largest (hd : 0 < d) {dom fd x : Quad d} (hdom : Valid dom) (hfd : Valid fd)
    (hin : isAncestor dom fd = true) (hl : fd.level = dom.level + 1 ∨ start (parent fd) < start fd)
    (hx : Valid x) (hxd : isAncestor dom x = true) (hs : start x = start fd) : fd.level ≤ x.level := by
  have h1 := (anc_interval hd hdom hx).mp hxd
  have h2 := (anc_interval hd hdom hfd).mp hin
  rcases hl with hl | hl
  · omega
  · by_contra hc
    have hp := parent_valid hfd (by omega)
    have hpi := parent_interval hd hfd (by omega)
    have hpl : (parent fd).level = fd.level - 1 := rfl
    have s1 := start_lt_stop x
    have s2 := start_lt_stop fd
    rcases valid_cases hd hx hp with h | h | h | h | h
    · omega
    · omega
    · rw [h] at hs; omega
    · omega
    · have := h.2.2.1; omega

theorem climb_largest_last (hd : 0 < d) {dom fd x : Quad d} (hdom : Valid dom) (hfd : Valid fd)
    (hin : isAncestor dom fd = true) (hl : fd.level = dom.level + 1 ∨ stop fd < stop (parent fd))
    (hx : Valid x) (hxd : isAncestor dom x = true) (hs : stop x = stop fd) : fd.level ≤ x.level := by
  have h1 := (anc_interval hd hdom hx).mp hxd
  have h2 := (anc_interval hd hdom hfd).mp hin
  rcases hl with hl | hl
  · omega
  · by_contra hc
    have hp := parent_valid hfd (by omega)
    have hpi := parent_interval hd hfd (by omega)
    have hpl : (parent fd).level = fd.level - 1 := rfl
    have s1 := start_lt_stop x
    have s2 := start_lt_stop fd
    rcases valid_cases hd hx hp with h | h | h | h | h
    · omega
    · omega
    · rw [h] at hs; omega
    · omega
    · have := h.2.2.1; omega

/-! ## Entries for the ends of the region -/

theorem sortedWeak_insert {l : List (Quad d)} (h : SortedWeak l) (t : Quad d) (i : ℕ)
    (h1 : ∀ x ∈ l.take i, ¬ Before t x) (h2 : ∀ x ∈ l.drop i, ¬ Before x t) :
    SortedWeak (l.take i ++ t :: l.drop i) := by
  have hl : SortedWeak (l.take i ++ l.drop i) := by rw [List.take_append_drop]; exact h
  obtain ⟨a1, a2, a3⟩ := List.pairwise_append.mp hl
  refine List.pairwise_append.mpr ⟨a1, List.pairwise_cons.mpr ⟨h2, a2⟩, ?_⟩
  intro a ha b hb
  rcases List.mem_cons.mp hb with rfl | hb
  · exact h1 a ha
  · exact a3 a ha b hb

theorem mem_insert {l : List (Quad d)} {t x : Quad d} {i : ℕ} :
    x ∈ l.take i ++ t :: l.drop i ↔ x = t ∨ x ∈ l := by
  rw [List.mem_append, List.mem_cons]
  constructor
  · rintro (h | h | h)
    · exact Or.inr (List.mem_of_mem_take h)
    · exact Or.inl h
    · exact Or.inr (List.mem_of_mem_drop h)
  · rintro (h | h)
    · exact Or.inr (Or.inl h)
    · rw [← List.take_append_drop i l, List.mem_append] at h
      tauto

theorem nca_level (hd : 0 < d) {q r a : Quad d} (hq : Valid q) (hr : Valid r) (ha : Valid a)
    (h1 : Cells q ⊆ Cells a) (h2 : Cells r ⊆ Cells a) : a.level ≤ (nca q r).level := by
  obtain ⟨n1, -, -, n4, -⟩ := C07_nca_valid hd q r hq hr
  exact ((cells_subset_iff hd ha.aligned n1.aligned).mp (n4 a ha.aligned h1 h2)).1

theorem addFirstDesc_spec (hd : 0 < d) {dom f fd : Quad d} (hdom : Valid dom)
    (hfd : climb 0 (f.level - (dom.level + 1)) f = fd) (hfv : Valid fd) (hfin : isAncestor dom fd = true)
    {R : List (Quad d)} (hR : ∀ r ∈ R, FamHead dom r) (hs : SortedWeak R) :
    ∃ L, addFirstDesc dom (some f) R = some (fd, L) ∧ SortedWeak L ∧ (∀ x ∈ R, x ∈ L) ∧
      (∀ x ∈ L, x ∈ R ∨ x = sibling fd 0) ∧
      ((∃ r ∈ R, isAncestor (parent fd) r = true) → L = R) := by
  unfold addFirstDesc
  dsimp only
  rw [hfd]
  obtain ⟨s1, s2, s3, s4⟩ := sibling_zero hd hdom hfv hfin
  have hfl := ((anc_interval hd hdom hfv).mp hfin).2.2
  have hpf := parent_valid hfv (by omega)
  have hpl : (parent fd).level = fd.level - 1 := rfl
  obtain ⟨si, b1, b2⟩ := C24_lower_bound hd R (sibling fd 0) 0 (fun x hx => (hR x hx).valid.int32) s1.valid.int32 hs
    (by cases R <;> simp)
  rw [obind b1]
  have notbefore : ∀ r ∈ R, isAncestor (parent fd) r = true → ¬ Before r (sibling fd 0) := by
    intro r hr h
    rw [anc_interval hd hpf (hR r hr).valid] at h
    rw [before_interval]
    omega
  rcases b2 with ⟨rfl, b2⟩ | ⟨i, hi, rfl, b2, b3⟩
  · dsimp only
    have e : R ++ [sibling fd 0] = R.take R.length ++ sibling fd 0 :: R.drop R.length := by simp
    refine ⟨_, rfl, ?_, ?_, ?_, ?_⟩
    · rw [e]
      apply sortedWeak_insert hs
      · intro x hx
        exact (b2 x (List.mem_of_mem_take hx)).asymm
      · intro x hx; simp at hx
    · intro x hx; exact List.mem_append_left _ hx
    · intro x hx
      rcases List.mem_append.mp hx with h | h
      · exact Or.inl h
      · exact Or.inr (List.mem_singleton.mp h)
    · rintro ⟨r, hr, h⟩
      exact absurd (b2 r hr) (notbefore r hr h)
  · dsimp only
    rw [obind (List.getElem?_eq_getElem hi)]
    have hiR := List.getElem_mem hi
    by_cases hn : (nca (sibling fd 0) R[i]).level + 1 < (sibling fd 0).level
    · rw [if_pos hn]
      refine ⟨_, rfl, ?_, ?_, ?_, ?_⟩
      · apply sortedWeak_insert hs
        · intro x hx
          obtain ⟨j, hj, rfl⟩ := List.mem_take_iff_getElem.mp hx
          exact (b3 j (by omega)).asymm
        · intro x hx
          obtain ⟨j, hj, rfl⟩ := List.mem_drop_iff_getElem.mp hx
          rcases Nat.eq_zero_or_pos j with rfl | hj0
          · exact b2
          · have := hs.get (i := i) (j := i + j) (by omega) (by omega)
            rw [before_interval] at this b2 ⊢
            omega
      · intro x hx; exact mem_insert.mpr (Or.inr hx)
      · intro x hx; exact (mem_insert.mp hx).symm
      · rintro ⟨r, hr, h⟩
        exfalso
        -- the entry found lies in the parent
        have hnb := notbefore r hr h
        rw [anc_interval hd hpf (hR r hr).valid] at h
        obtain ⟨j, hj, rfl⟩ := List.mem_iff_getElem.mp hr
        have hij : i ≤ j := by
          by_contra hc
          exact hnb (b3 j (by omega))
        have hle : start R[i] ≤ start R[j] := by
          rcases Nat.lt_or_eq_of_le hij with h1 | h1
          · have := hs.get h1 hj
            rw [before_interval] at this
            omega
          · subst h1; exact le_rfl
        rw [before_interval] at b2
        have hlt := start_lt_stop R[j]
        have hiv := (hR _ hiR).valid
        have hilt := start_lt_stop R[i]
        have hsub : Cells R[i] ⊆ Cells (parent fd) := by
          rcases valid_cases hd hpf hiv with h1 | h1 | h1 | h1 | h1
          · omega
          · omega
          · rw [h1]
          · exact h1.2.2.2.1
          · omega
        have hsub2 : Cells (sibling fd 0) ⊆ Cells (parent fd) := by
          have := isAncestor_parent hd s1.valid (by omega)
          rw [s2] at this
          exact ((isAncestor_iff hd hpf.aligned s1.valid.aligned).mp this).1
        have := nca_level hd s1.valid hiv hpf hsub2 hsub
        omega
    · rw [if_neg hn]
      exact ⟨R, rfl, hs, fun x hx => hx, fun x hx => Or.inl hx, fun _ => rfl⟩

theorem addLastDesc_spec (hd : 0 < d) {dom l ld : Quad d} (hdom : Valid dom) (hl : Valid l) (hl29 : l.level = 29)
    (hld : climb (2 ^ d - 1) (l.level - (dom.level + 1)) l = ld) (hlv : Valid ld) (hlin : isAncestor dom ld = true)
    (hls : stop ld = stop l) (hll : start ld ≤ start l)
    {R : List (Quad d)} (hR : ∀ r ∈ R, FamHead dom r) (hs : SortedWeak R) (hend : ∀ r ∈ R, start r < stop l) :
    ∃ L, addLastDesc dom (some l) R = some L ∧ SortedWeak L ∧ (∀ x ∈ R, x ∈ L) ∧
      (∀ x ∈ L, x ∈ R ∨ x = sibling ld 0) ∧
      ((∃ r ∈ R, isAncestor (parent ld) r = true) → L = R) := by
  unfold addLastDesc
  dsimp only
  rw [hld]
  obtain ⟨s1, s2, s3, s4⟩ := sibling_zero hd hdom hlv hlin
  have hfl := ((anc_interval hd hdom hlv).mp hlin).2.2
  have hpf := parent_valid hlv (by omega)
  have hpl : (parent ld).level = ld.level - 1 := rfl
  have hpi := parent_interval hd hlv (by omega)
  have hllt := start_lt_stop l
  obtain ⟨si, b1, b2⟩ := C24_higher_bound hd R l 0 (fun x hx => (hR x hx).valid.int32) hl.int32 hs
    (by cases R <;> simp)
  rw [obind b1]
  have notbefore : ∀ r ∈ R, ¬ Before l r := by
    intro r hr h
    have h1 := hend r hr
    have h2 := (hR r hr).valid
    have h3 := start_lt_stop r
    have h4 := h2.1
    rw [before_interval] at h
    rcases valid_cases hd hl h2 with h5 | h5 | h5 | h5 | h5
    · omega
    · omega
    · rw [h5] at h; omega
    · have := h5.2.2.1; omega
    · have := h5.2.2.1; omega
  rcases b2 with ⟨rfl, b2⟩ | ⟨i, hi, rfl, b2, b3⟩
  · dsimp only
    have hnil : R = [] := by
      cases hR' : R with
      | nil => rfl
      | cons x xs =>
        have hx : x ∈ R := by rw [hR']; exact List.mem_cons_self
        exact absurd (b2 x hx) (notbefore x hx)
    subst hnil
    refine ⟨_, rfl, List.pairwise_singleton _ _, ?_, ?_, ?_⟩
    · intro x hx; simp at hx
    · intro x hx; exact Or.inr (List.mem_singleton.mp hx)
    · rintro ⟨r, hr, -⟩; simp at hr
  · dsimp only
    rw [obind (List.getElem?_eq_getElem hi)]
    have hiR := List.getElem_mem hi
    have hiv := (hR _ hiR).valid
    have hilt := start_lt_stop R[i]
    have hrest : ∀ x ∈ R, start x ≤ start R[i] := by
      intro x hx
      obtain ⟨j, hj, rfl⟩ := List.mem_iff_getElem.mp hx
      rcases Nat.lt_trichotomy j i with h | h | h
      · have := hs.get h hi
        rw [before_interval] at this
        omega
      · subst h; exact le_rfl
      · exact absurd (b3 j hj h) (notbefore _ hx)
    have hsub2 : Cells l ⊆ Cells (parent ld) := by
      rw [valid_subset_iff hd hpf hl]
      omega
    have hie := hend _ hiR
    by_cases hn : (nca l R[i]).level + 1 < (sibling ld 0).level
    · rw [if_pos hn]
      have hout : ¬ Cells R[i] ⊆ Cells (parent ld) := by
        intro h
        have := nca_level hd hl hiv hpf hsub2 h
        omega
      have hiafter : ¬ Before (sibling ld 0) R[i] := by
        rw [before_interval, s3]
        rcases valid_cases hd hpf hiv with h1 | h1 | h1 | h1 | h1
        · omega
        · omega
        · exact absurd (by rw [h1]) hout
        · exact absurd h1.2.2.2.1 hout
        · omega
      refine ⟨_, rfl, ?_, ?_, ?_, ?_⟩
      · apply sortedWeak_insert hs
        · intro x hx
          obtain ⟨j, hj, rfl⟩ := List.mem_take_iff_getElem.mp hx
          rcases Nat.lt_or_ge j i with h | h
          · have := hs.get h hi
            rw [before_interval] at this hiafter ⊢
            omega
          · have : j = i := by omega
            subst this
            exact hiafter
        · intro x hx
          obtain ⟨j, hj, rfl⟩ := List.mem_drop_iff_getElem.mp hx
          exact absurd (b3 (i + 1 + j) (by omega) (by omega)) (notbefore _ (List.getElem_mem _))
      · intro x hx; exact mem_insert.mpr (Or.inr hx)
      · intro x hx; exact (mem_insert.mp hx).symm
      · rintro ⟨r, hr, h⟩
        exfalso
        have hrl := hrest r hr
        rw [anc_interval hd hpf (hR r hr).valid] at h
        obtain ⟨j, hj, rfl⟩ := List.mem_iff_getElem.mp hr
        have hji : ¬ Before R[i] R[j] := by
          rcases Nat.lt_trichotomy j i with h1 | h1 | h1
          · exact hs.get h1 hi
          · subst h1; exact Before.irrefl
          · exact absurd (b3 j hj h1) (notbefore _ hr)
        rw [before_interval] at hji
        rcases valid_cases hd hpf hiv with h1 | h1 | h1 | h1 | h1
        · omega
        · omega
        · exact hout (by rw [h1])
        · exact hout h1.2.2.2.1
        · omega
    · rw [if_neg hn]
      exact ⟨R, rfl, hs, fun x hx => hx, fun x hx => Or.inl hx, fun _ => rfl⟩

theorem fillGaps_spec (hd : 0 < d) (hd3 : d ≤ 3) {dom fd : Quad d} {first last : Option (Quad d)}
    {L : List (Quad d)} {e : ℕ} (hc : FillCtx dom last L e) (hfv : Valid fd) (hfin : isAncestor dom fd = true)
    (hj : fd.level = dom.level + 1 ∨ start (parent fd) < start fd) (hfe : start fd ≤ e)
    (hnone : first = none → start fd = start dom ∧ fd.level = dom.level + 1) :
    ∃ res, fillGaps dom fd first last L = some res ∧ Path (start fd) res e ∧
      ∀ u ∈ res, FillOut dom L (start fd) e u := by
  have hjust : Justified dom L (start fd) e fd := hj.imp id fun h => Or.inr (Or.inl h)
  have hfl := ((anc_interval hd hc.domv hfv).mp hfin)
  cases first with
  | none =>
    obtain ⟨h1, h2⟩ := hnone rfl
    unfold fillGaps
    dsimp only
    obtain ⟨q, n1, n2⟩ := fillNext_target hd hd3 hc 0
    rw [obind n1]
    apply fillLoop_spec hd hd3 hc n2
    have h0 : childId fd = 0 := by
      have h3 := start_childId hfv.aligned hfv.int32 (by omega)
      have hv := volume_pos fd
      have hpd : dom = parent fd := by
        rcases parent_inside hd hc.domv hfv hfin with h | h
        · exact h
        · have := (isAncestor_iff_div.mp h).1
          rw [parent_level] at this
          omega
      rw [← hpd, h1] at h3
      have h4 : childId fd * volume fd = 0 := by omega
      rcases Nat.mul_eq_zero.mp h4 with h5 | h5
      · exact h5
      · omega
    refine ⟨hfv, hfin, h0.symm, rfl, hfe, ?_, ?_, ?_, hjust⟩
    · intro r hr; simp at hr
    · intro r hr
      rw [List.drop_zero] at hr
      obtain ⟨r1, r2⟩ := hc.list r hr
      have := (anc_interval hd hc.domv r1).mp r2
      rw [before_interval]
      omega
    · intro u hu; simp at hu
  | some f =>
    unfold fillGaps
    dsimp only
    obtain ⟨si, b1, b2⟩ := C24_lower_bound hd L fd 0 (fun x hx => (hc.list x hx).1.int32) hfv.int32 hc.sorted
      (by cases L <;> simp)
    rw [obind b1]
    obtain ⟨q, n1, n2⟩ := fillNext_target hd hd3 hc (si.getD L.length)
    rw [obind n1]
    apply fillLoop_spec hd hd3 hc n2
    refine ⟨hfv, hfin, rfl, rfl, hfe, ?_, ?_, ?_, hjust⟩
    · intro r hr
      rcases b2 with ⟨rfl, b2⟩ | ⟨i, hi, rfl, b2, b3⟩
      · exact (b2 r (List.mem_of_mem_take hr)).asymm
      · simp only [Option.getD_some] at hr
        obtain ⟨j, hj, rfl⟩ := List.mem_take_iff_getElem.mp hr
        exact (b3 j (by omega)).asymm
    · intro r hr
      rcases b2 with ⟨rfl, b2⟩ | ⟨i, hi, rfl, b2, b3⟩
      · simp at hr
      · simp only [Option.getD_some] at hr
        obtain ⟨j, hj, rfl⟩ := List.mem_drop_iff_getElem.mp hr
        rcases Nat.eq_zero_or_pos j with rfl | hj0
        · exact b2
        · have := hc.sorted.get (i := i) (j := i + j) (by omega) (by omega)
          rw [before_interval] at this b2 ⊢
          omega
    · intro u hu; simp at hu

/-! ## The reduced list -/

/-- If the common ancestor is not coarser than the parent of one quadrant, that parent contains the
other quadrant. -/
theorem nca_within (hd : 0 < d) {q r : Quad d} (hq : Valid q) (hr : Valid r) (h0 : 0 < q.level)
    (h : q.level ≤ (nca q r).level + 1) : start (parent q) ≤ start r ∧ stop r ≤ stop (parent q) := by
  obtain ⟨n1, n2, n3, -⟩ := C07_nca_valid hd q r hq hr
  have hp := parent_valid hq h0
  have hpi := parent_interval hd hq h0
  have i1 := (valid_subset_iff hd n1 hq).mp n2
  have i2 := (valid_subset_iff hd n1 hr).mp n3
  have hlt := start_lt_stop q
  have hpl : (parent q).level = q.level - 1 := rfl
  rcases valid_cases hd hp n1 with h1 | h1 | h1 | h1 | h1
  · omega
  · omega
  · rw [h1]; exact i2
  · omega
  · have := h1.2.2.1; omega

theorem nca_comm_within (hd : 0 < d) {q r : Quad d} (hq : Valid q) (hr : Valid r) (h0 : 0 < r.level)
    (h : r.level ≤ (nca q r).level + 1) : start (parent r) ≤ start q ∧ stop q ≤ stop (parent r) := by
  obtain ⟨n1, n2, n3, -⟩ := C07_nca_valid hd q r hq hr
  have hp := parent_valid hr h0
  have hpi := parent_interval hd hr h0
  have i1 := (valid_subset_iff hd n1 hq).mp n2
  have i2 := (valid_subset_iff hd n1 hr).mp n3
  have hlt := start_lt_stop r
  have hpl : (parent r).level = r.level - 1 := rfl
  rcases valid_cases hd hp n1 with h1 | h1 | h1 | h1 | h1
  · omega
  · omega
  · rw [h1]; exact i1
  · omega
  · have := h1.2.2.1; omega

theorem reduceLoop_spec (hd : 0 < d) {dom : Quad d} (hdom : Valid dom) (ps : List (Quad d)) {q p0 : Quad d}
    (hq : FamHead dom q) (hp0 : Valid p0) (hpar : parent p0 = parent q) (hp00 : 0 < p0.level)
    (hps : ∀ p ∈ ps, Valid p ∧ isAncestor dom p = true) (hord : ∀ p ∈ ps, stop p0 ≤ start p)
    (hlin : ps.Pairwise fun p r => stop p ≤ start r) :
    SortedWeak (reduceLoop q ps) ∧
    (∀ r ∈ reduceLoop q ps, FamHead dom r ∧ start (parent q) ≤ start r ∧ (r = q ∨ ∃ p ∈ ps, r = sibling p 0)) ∧
    (∃ r ∈ reduceLoop q ps, isAncestor (parent q) r = true) ∧
    ∀ p ∈ ps, ∃ r ∈ reduceLoop q ps, isAncestor (parent p) r = true := by
  induction ps generalizing q p0 with
  | nil =>
    have hql := hq.lt
    have hpi := parent_interval hd hq.valid (by omega)
    refine ⟨List.pairwise_singleton _ _, ?_, ⟨q, List.mem_singleton_self _, isAncestor_parent hd hq.valid (by omega)⟩, ?_⟩
    · intro r hr
      rw [reduceLoop, List.mem_singleton] at hr
      subst hr
      exact ⟨hq, hpi.1, Or.inl rfl⟩
    · intro p hp; simp at hp
  | cons p ps ih =>
    obtain ⟨hpv, hpin⟩ := hps p List.mem_cons_self
    obtain ⟨hl1, hl2⟩ := List.pairwise_cons.mp hlin
    have hps' : ∀ p ∈ ps, Valid p ∧ isAncestor dom p = true := fun x hx => hps x (List.mem_cons_of_mem _ hx)
    obtain ⟨s1, s2, s3, s4⟩ := sibling_zero hd hdom hpv hpin
    have hql := hq.lt
    have hpl := ((anc_interval hd hdom hpv).mp hpin).2.2
    have hqp := parent_valid hq.valid (by omega)
    have hpp := parent_valid hpv (by omega)
    have hqi := parent_interval hd hq.valid (by omega)
    have hpi := parent_interval hd hpv (by omega)
    have lq : (parent q).level = q.level - 1 := rfl
    have lp : (parent p).level = p.level - 1 := rfl
    have hlt := start_lt_stop p
    have hp0i := parent_interval hd hp0 hp00
    rw [hpar] at hp0i
    have hp0lt := start_lt_stop p0
    have hp0p := hord p List.mem_cons_self
    have hq0 : start q = start (parent q) := by
      have := start_childId hq.valid.aligned hq.valid.int32 (by omega)
      rw [hq.first, zero_mul] at this
      omega
    unfold reduceLoop
    by_cases hc : (nca p q).level + 1 ≥ min q.level p.level
    · rw [if_pos hc]
      by_cases hlv : p.level > q.level
      · rw [if_pos hlv]
        have hw := nca_comm_within hd hpv hq.valid (by omega) (by omega)
        have hin : start (parent q) ≤ start (parent p) ∧ stop (parent p) ≤ stop (parent q) := by
          rcases valid_cases hd hqp hpp with h1 | h1 | h1 | h1 | h1
          · omega
          · omega
          · rw [h1]; exact ⟨le_rfl, le_rfl⟩
          · omega
          · have := h1.2.2.1; omega
        obtain ⟨a1, a2, ⟨x, a3, a4⟩, a5⟩ := ih s1 hpv s2.symm (by omega) hps' (fun y hy => hl1 y hy) hl2
        have hxv := (a2 x a3).1.valid
        rw [s2] at a4
        refine ⟨a1, ?_, ⟨x, a3, ?_⟩, ?_⟩
        · intro r hr
          obtain ⟨b1, b2, b3⟩ := a2 r hr
          rw [s2] at b2
          refine ⟨b1, by omega, Or.inr ?_⟩
          rcases b3 with rfl | ⟨y, hy, b3⟩
          · exact ⟨p, List.mem_cons_self, rfl⟩
          · exact ⟨y, List.mem_cons_of_mem _ hy, b3⟩
        · rw [anc_interval hd hpp hxv] at a4
          rw [anc_interval hd hqp hxv]
          omega
        · intro y hy
          rcases List.mem_cons.mp hy with rfl | hy
          · exact ⟨x, a3, a4⟩
          · exact a5 y hy
      · rw [if_neg hlv]
        have hw := nca_within hd hpv hq.valid (by omega) (by omega)
        have hin : start (parent p) ≤ start (parent q) ∧ stop (parent q) ≤ stop (parent p) := by
          have := start_lt_stop q
          rcases valid_cases hd hqp hpp with h1 | h1 | h1 | h1 | h1
          · omega
          · omega
          · rw [h1]; exact ⟨le_rfl, le_rfl⟩
          · have := h1.2.2.1; omega
          · omega
        obtain ⟨a1, a2, ⟨x, a3, a4⟩, a5⟩ := ih hq hp0 hpar hp00 hps' (fun y hy => hord y (List.mem_cons_of_mem _ hy)) hl2
        have hxv := (a2 x a3).1.valid
        refine ⟨a1, ?_, ⟨x, a3, a4⟩, ?_⟩
        · intro r hr
          obtain ⟨b1, b2, b3⟩ := a2 r hr
          refine ⟨b1, b2, ?_⟩
          rcases b3 with b3 | ⟨y, hy, b3⟩
          · exact Or.inl b3
          · exact Or.inr ⟨y, List.mem_cons_of_mem _ hy, b3⟩
        · intro y hy
          rcases List.mem_cons.mp hy with rfl | hy
          · refine ⟨x, a3, ?_⟩
            rw [anc_interval hd hqp hxv] at a4
            rw [anc_interval hd hpp hxv]
            omega
          · exact a5 y hy
    · rw [if_neg hc]
      have hdis : stop (parent q) ≤ start (parent p) := by
        have hqc : ∀ {a : Quad d}, Valid a → start a ≤ start p → stop p ≤ stop a → start a ≤ start q → stop q ≤ stop a →
            a.level ≤ (nca p q).level := fun ha h1 h2 h3 h4 =>
          nca_level hd hpv hq.valid ha ((valid_subset_iff hd ha hpv).mpr ⟨h1, h2⟩)
            ((valid_subset_iff hd ha hq.valid).mpr ⟨h3, h4⟩)
        rcases valid_cases hd hqp hpp with h1 | h1 | h1 | h1 | h1
        · exact h1
        · omega
        · have := hqc hqp (by rw [h1]; omega) (by rw [h1]; omega) hqi.1 hqi.2
          omega
        · have := hqc hqp (by omega) (by omega) hqi.1 hqi.2
          omega
        · have := hqc hpp hpi.1 hpi.2 (by omega) (by omega)
          omega
      obtain ⟨a1, a2, ⟨x, a3, a4⟩, a5⟩ := ih s1 hpv s2.symm (by omega) hps' (fun y hy => hl1 y hy) hl2
      rw [s2] at a4
      have hplt := start_lt_stop (parent q)
      refine ⟨List.pairwise_cons.mpr ⟨?_, a1⟩, ?_, ⟨q, List.mem_cons_self, isAncestor_parent hd hq.valid (by omega)⟩, ?_⟩
      · intro r hr
        have := (a2 r hr).2.1
        rw [s2] at this
        rw [before_interval]
        omega
      · intro r hr
        rcases List.mem_cons.mp hr with rfl | hr
        · exact ⟨hq, hq0.ge, Or.inl rfl⟩
        · obtain ⟨b1, b2, b3⟩ := a2 r hr
          rw [s2] at b2
          refine ⟨b1, by omega, Or.inr ?_⟩
          rcases b3 with rfl | ⟨y, hy, b3⟩
          · exact ⟨p, List.mem_cons_self, rfl⟩
          · exact ⟨y, List.mem_cons_of_mem _ hy, b3⟩
      · intro y hy
        rcases List.mem_cons.mp hy with rfl | hy
        · exact ⟨x, List.mem_cons_of_mem _ a3, a4⟩
        · obtain ⟨z, hz, b⟩ := a5 y hy
          exact ⟨z, List.mem_cons_of_mem _ hz, b⟩

/-! ## The kernel for a region of a tree -/

/-- The leaves and the region given to `p4est_complete_subtree` and `p4est_balance_subtree`. -/
structure SubRegion (fdesc ldesc dom : Quad d) (ls : List (Quad d)) : Prop where
  fv : Valid fdesc
  f29 : fdesc.level = 29
  lv : Valid ldesc
  l29 : ldesc.level = 29
  dom_eq : dom = nca fdesc ldesc
  valid : ∀ p ∈ ls, Valid p
  within : ∀ p ∈ ls, start fdesc ≤ start p ∧ stop p ≤ stop ldesc
  linear : ls.Pairwise fun p r => stop p ≤ start r
  not_dom : ls ≠ [dom]
  ne : ls ≠ []

theorem SubRegion.domv (hd : 0 < d) {fdesc ldesc dom : Quad d} {ls : List (Quad d)}
    (h : SubRegion fdesc ldesc dom ls) : Valid dom ∧ start dom ≤ start fdesc ∧ stop fdesc ≤ stop dom ∧
      start dom ≤ start ldesc ∧ stop ldesc ≤ stop dom := by
  obtain ⟨n1, n2, n3, -⟩ := C07_nca_valid hd fdesc ldesc h.fv h.lv
  rw [← h.dom_eq] at n1 n2 n3
  have i1 := (valid_subset_iff hd n1 h.fv).mp n2
  have i2 := (valid_subset_iff hd n1 h.lv).mp n3
  exact ⟨n1, i1.1, i1.2, i2.1, i2.2⟩

theorem SubRegion.inside (hd : 0 < d) {fdesc ldesc dom : Quad d} {ls : List (Quad d)}
    (h : SubRegion fdesc ldesc dom ls) : ∀ p ∈ ls, isAncestor dom p = true := by
  intro p hp
  obtain ⟨d1, d2, -, -, d3⟩ := h.domv hd
  have hpv := h.valid p hp
  have hw := h.within p hp
  have hlt := start_lt_stop p
  rw [anc_interval hd d1 hpv]
  refine ⟨by omega, by omega, ?_⟩
  by_contra hc
  have heq : p = dom := by
    rcases valid_cases hd d1 hpv with h1 | h1 | h1 | h1 | h1
    · omega
    · omega
    · exact h1.symm
    · omega
    · exfalso
      have h2 := h1.2.2.2
      have h3 := (valid_subset_iff hd d1 hpv).mpr ⟨by omega, by omega⟩
      exact h2.2 h3
  subst heq
  apply h.not_dom
  -- all other leaves are in `dom`, too
  have hall : ∀ x ∈ ls, x = p := by
    intro x hx
    by_contra hne
    have hxw := h.within x hx
    have hxlt := start_lt_stop x
    obtain ⟨i, hi, rfl⟩ := List.mem_iff_getElem.mp hp
    obtain ⟨j, hj, rfl⟩ := List.mem_iff_getElem.mp hx
    rcases Nat.lt_trichotomy i j with hij | rfl | hij
    · have := List.pairwise_iff_getElem.mp h.linear i j hi hj hij
      omega
    · exact hne rfl
    · have := List.pairwise_iff_getElem.mp h.linear j i hj hi hij
      omega
  have hlin := h.linear
  cases hls : ls with
  | nil => rw [hls] at hp; simp at hp
  | cons x xs =>
    rw [hls] at hlin hall
    have e1 := hall x List.mem_cons_self
    cases xs with
    | nil => rw [e1]
    | cons y ys =>
      have e2 := hall y (by simp)
      have := (List.pairwise_cons.mp hlin).1 y List.mem_cons_self
      rw [e1, e2] at this
      omega

/-- The reduced list of the leaves. -/
structure Reduced (dom : Quad d) (ls R : List (Quad d)) : Prop where
  sorted : SortedWeak R
  fam : ∀ r ∈ R, FamHead dom r
  source : ∀ r ∈ R, ∃ p ∈ ls, r = sibling p 0
  covers : ∀ p ∈ ls, ∃ r ∈ R, isAncestor (parent p) r = true

theorem reduce_spec (hd : 0 < d) {fdesc ldesc dom p : Quad d} {ps : List (Quad d)}
    (h : SubRegion fdesc ldesc dom (p :: ps)) : Reduced dom (p :: ps) (reduceLoop (sibling p 0) ps) := by
  obtain ⟨hdom, -⟩ := h.domv hd
  have hpv := h.valid p List.mem_cons_self
  have hpin := h.inside hd p List.mem_cons_self
  have hpl := ((anc_interval hd hdom hpv).mp hpin).2.2
  obtain ⟨s1, s2, s3, s4⟩ := sibling_zero hd hdom hpv hpin
  obtain ⟨l1, l2⟩ := List.pairwise_cons.mp h.linear
  obtain ⟨a1, a2, a3, a4⟩ := reduceLoop_spec hd hdom ps s1 hpv s2.symm (by omega)
    (fun x hx => ⟨h.valid x (List.mem_cons_of_mem _ hx), h.inside hd x (List.mem_cons_of_mem _ hx)⟩) l1 l2
  refine ⟨a1, fun r hr => (a2 r hr).1, ?_, ?_⟩
  · intro r hr
    rcases (a2 r hr).2.2 with e | ⟨x, hx, e⟩
    · exact ⟨p, List.mem_cons_self, e⟩
    · exact ⟨x, List.mem_cons_of_mem _ hx, e⟩
  · intro x hx
    rcases List.mem_cons.mp hx with rfl | hx
    · rw [s2] at a3; exact a3
    · exact a4 x hx

end P4est
