import Verif.Lemmas.BalanceKernel

/-! # What the kernel does to a region -/

namespace P4est
open Spec

variable {d : ℕ} {α σ : Type}

theorem le_foldl_max (l : List (Quad d)) (m : ℕ) :
    m ≤ l.foldl (fun m q => max m q.level) m ∧ ∀ r ∈ l, r.level ≤ l.foldl (fun m q => max m q.level) m := by
  induction l generalizing m with
  | nil => exact ⟨le_rfl, fun r hr => by simp at hr⟩
  | cons x xs ih =>
    obtain ⟨h1, h2⟩ := ih (max m x.level)
    rw [List.foldl_cons]
    refine ⟨by omega, fun r hr => ?_⟩
    rcases List.mem_cons.mp hr with rfl | hr
    · omega
    · exact h2 r hr

/-- The ends of the region. -/
theorem SubRegion.ends (hd : 0 < d) {fdesc ldesc dom : Quad d} {ls : List (Quad d)}
    (h : SubRegion fdesc ldesc dom ls) : isAncestor dom fdesc = true ∧ isAncestor dom ldesc = true ∧
      start fdesc < stop ldesc := by
  obtain ⟨d1, d2, d3, d4, d5⟩ := h.domv hd
  obtain ⟨p, hp⟩ := List.exists_mem_of_ne_nil _ h.ne
  have hpv := h.valid p hp
  have hl := ((anc_interval hd d1 hpv).mp (h.inside hd p hp)).2.2
  have := hpv.1
  have := h.within p hp
  have := start_lt_stop p
  refine ⟨(anc_interval hd d1 h.fv).mpr ⟨d2, d3, ?_⟩, (anc_interval hd d1 h.lv).mpr ⟨d4, d5, ?_⟩, by omega⟩
  · rw [h.f29]; omega
  · rw [h.l29]; omega

/-- A family of the reduced list comes from a leaf. -/
theorem Reduced.leaf (hd : 0 < d) {fdesc ldesc dom : Quad d} {ls R : List (Quad d)}
    (h : SubRegion fdesc ldesc dom ls) (hR : Reduced dom ls R) {r : Quad d} (hr : r ∈ R) :
    ∃ p ∈ ls, parent r = parent p ∧ start r ≤ start p ∧ r.level = p.level := by
  obtain ⟨p, hp, rfl⟩ := hR.source r hr
  obtain ⟨hdom, -⟩ := h.domv hd
  have hpv := h.valid p hp
  have hpin := h.inside hd p hp
  have hpl := ((anc_interval hd hdom hpv).mp hpin).2.2
  obtain ⟨-, s2, s3, s4⟩ := sibling_zero hd hdom hpv hpin
  have := parent_interval hd hpv (by omega)
  exact ⟨p, hp, s2, by omega, s4⟩

theorem Reduced.upto (hd : 0 < d) {fdesc ldesc dom : Quad d} {ls R : List (Quad d)}
    (h : SubRegion fdesc ldesc dom ls) (hR : Reduced dom ls R) : ∀ r ∈ R, start r < stop ldesc := by
  intro r hr
  obtain ⟨p, hp, -, h1, -⟩ := hR.leaf hd h hr
  have := h.within p hp
  have := start_lt_stop p
  omega

/-- A leaf in the parent of `u` gives an entry in the parent of `u`. -/
theorem Reduced.entry (hd : 0 < d) {fdesc ldesc dom : Quad d} {ls R : List (Quad d)}
    (h : SubRegion fdesc ldesc dom ls) (hR : Reduced dom ls R) {a p : Quad d} (ha : Valid a) (hp : p ∈ ls)
    (hap : isAncestor a p = true) : ∃ r ∈ R, isAncestor a r = true := by
  obtain ⟨r, hr, h1⟩ := hR.covers p hp
  obtain ⟨hdom, -⟩ := h.domv hd
  have hpv := h.valid p hp
  have hpl := ((anc_interval hd hdom hpv).mp (h.inside hd p hp)).2.2
  have hrv := (hR.fam r hr).valid
  have hpp := parent_valid hpv (by omega)
  refine ⟨r, hr, ?_⟩
  rcases parent_inside hd ha hpv hap with h2 | h2
  · rw [h2]; exact h1
  · rw [anc_interval hd ha hpp] at h2
    rw [anc_interval hd hpp hrv] at h1
    rw [anc_interval hd ha hrv]
    omega

/-! ## Completion -/

theorem kernel_complete (hd : 0 < d) (hd3 : d ≤ 3) (bs : (Quad d → ℤ) → List (Quad d) → Option ℕ)
    {fdesc ldesc dom : Quad d} {ls R : List (Quad d)} (h : SubRegion fdesc ldesc dom ls) (hR : Reduced dom ls R) :
    ∃ out, balanceKernel bs dom 1 (some fdesc) (some ldesc) R = some out ∧
      Path (start fdesc) out (stop ldesc) ∧ (∀ u ∈ out, Valid u) ∧ (∀ p ∈ ls, p ∈ out) ∧
      ∀ v : Quad d, Valid v → start fdesc ≤ start v → stop v ≤ stop ldesc → (∀ p ∈ ls, ¬ Cells p ⊂ Cells v) →
        ∀ u ∈ out, ¬ Cells u ⊂ Cells v := by
  obtain ⟨hdom, d2, d3, d4, d5⟩ := h.domv hd
  obtain ⟨e1, e2, e3⟩ := h.ends hd
  obtain ⟨fd, f1, f2, f3, f4, f5, f6⟩ := climb_first hd hdom h.fv e1
  obtain ⟨ld, l1, l2, l3, l4, l5, l6, l7⟩ := climb_last hd hdom h.lv e2
  obtain ⟨L1, a1, a2, a3, a4, -⟩ := addFirstDesc_spec hd hdom f1 f2 f3 hR.fam hR.sorted
  obtain ⟨sf1, sf2, sf3, sf4⟩ := sibling_zero hd hdom f2 f3
  obtain ⟨sl1, sl2, sl3, sl4⟩ := sibling_zero hd hdom l2 l3
  have hfl := ((anc_interval hd hdom f2).mp f3)
  have hll := ((anc_interval hd hdom l2).mp l3)
  have hfp := parent_valid f2 (by omega)
  have hlp := parent_valid l2 (by omega)
  have hfi := parent_interval hd f2 (by omega)
  have hli := parent_interval hd l2 (by omega)
  have hflt := start_lt_stop fd
  have hlltt := start_lt_stop ld
  have hL1 : ∀ r ∈ L1, FamHead dom r := by
    intro r hr
    rcases a4 r hr with hr | rfl
    · exact hR.fam r hr
    · exact sf1
  have hL1e : ∀ r ∈ L1, start r < stop ldesc := by
    intro r hr
    rcases a4 r hr with hr | rfl
    · exact hR.upto hd h r hr
    · omega
  obtain ⟨L, b1, b2, b3, b4, -⟩ := addLastDesc_spec hd hdom h.lv h.l29 l1 l2 l3 l4 l5 hL1 a2 hL1e
  have hL : ∀ r ∈ L, r ∈ R ∨ r = sibling fd 0 ∨ r = sibling ld 0 := by
    intro r hr
    rcases b4 r hr with hr | hr
    · exact (a4 r hr).imp id Or.inl
    · exact Or.inr (Or.inr hr)
  have hLf : ∀ r ∈ L, FamHead dom r := by
    intro r hr
    rcases hL r hr with hr | rfl | rfl
    · exact hR.fam r hr
    · exact sf1
    · exact sl1
  have hctx : FillCtx dom (some ldesc) L (stop ldesc) := by
    refine ⟨hdom, fun r hr => ⟨(hLf r hr).valid, (hLf r hr).inside⟩, b2, ?_, fun e => by simp at e, ?_⟩
    · intro r hr
      rcases b4 r hr with hr | rfl
      · exact hL1e r hr
      · omega
    · intro l hl
      obtain rfl := Option.some_inj.mp hl
      exact ⟨h.lv, h.l29, d4, d5, rfl⟩
  obtain ⟨out, o1, o2, o3⟩ := fillGaps_spec hd hd3 (first := some fdesc) hctx f2 f3 f6 (by omega) (fun e => by simp at e)
  rw [f4] at o2 o3
  -- why a parent is not possible
  have key : ∀ u ∈ out, u.level = dom.level + 1 ∨ (∃ p ∈ ls, isAncestor (parent u) p = true) ∨
      start (parent u) < start fdesc ∨ stop ldesc < stop (parent u) := by
    intro u hu
    have huv := (o3 u hu).valid
    have hul := ((anc_interval hd hdom huv).mp (o3 u hu).inside).2.2
    have hup := parent_valid huv (by omega)
    have hupl : (parent u).level = u.level - 1 := rfl
    have hui := parent_interval hd huv (by omega)
    have hult := start_lt_stop u
    have around : ∀ x, Valid x → 0 < x.level → isAncestor (parent u) x = true →
        start (parent u) ≤ start (parent x) ∧ stop (parent x) ≤ stop (parent u) ∧ u.level ≤ x.level := by
      intro x hx hx0 hxa
      have hxl : (parent x).level = x.level - 1 := rfl
      have hlv := ((anc_interval hd hup hx).mp hxa).2.2
      rcases parent_inside hd hup hx hxa with h1 | h1
      · rw [h1]; refine ⟨le_rfl, le_rfl, ?_⟩; omega
      · have := (anc_interval hd hup (parent_valid hx hx0)).mp h1
        omega
    rcases (o3 u hu).just with h1 | ⟨r, hr, h1⟩ | h1 | h1
    · exact Or.inl h1
    · rcases hL r hr with hr | rfl | rfl
      · right; left
        obtain ⟨p, hp, q1, q2, q3⟩ := hR.leaf hd h hr
        refine ⟨p, hp, ?_⟩
        have hrv := hR.fam r hr
        have := hrv.lt
        have h2 := around r hrv.valid (by omega) h1
        have hpv := h.valid p hp
        have h3 := parent_interval hd hpv (by omega)
        rw [q1] at h2
        rw [anc_interval hd hup hpv]
        omega
      · have h2 := around _ sf1.valid (by omega) h1
        rw [sf2, sf4] at h2
        rcases f6 with h3 | h3
        · left; omega
        · right; right; left; omega
      · have h2 := around _ sl1.valid (by omega) h1
        rw [sl2, sl4] at h2
        rcases l7 with h3 | h3
        · left; omega
        · right; right; right; omega
    · exact Or.inr (Or.inr (Or.inl h1))
    · exact Or.inr (Or.inr (Or.inr h1))
  have dompar : ∀ u ∈ out, u.level = dom.level + 1 → parent u = dom := by
    intro u hu hl
    rcases parent_inside hd hdom (o3 u hu).valid (o3 u hu).inside with h1 | h1
    · exact h1.symm
    · have := (isAncestor_iff_div.mp h1).1
      rw [parent_level] at this
      omega
  refine ⟨out, ?_, o2, fun u hu => (o3 u hu).valid, ?_, ?_⟩
  · unfold balanceKernel
    dsimp only
    rw [obind a1]
    dsimp only
    rw [obind b1, if_neg (by omega)]
    exact o1
  · -- the leaves stay
    intro p hp
    have hpv := h.valid p hp
    have hpw := h.within p hp
    have hplt := start_lt_stop p
    have hpin := (anc_interval hd hdom hpv).mp (h.inside hd p hp)
    obtain ⟨u, hu, hmem⟩ := (o2.cover (fun q hq => ⟨(o3 q hq).valid.aligned, (o3 q hq).valid.int32⟩)
      (p := p.c) hpv.int32).mpr ⟨hpw.1, by show start p < _; omega⟩
    have huv := (o3 u hu).valid
    have hin := (mem_cells_iff_curve huv.aligned huv.int32 hpv.int32).mp hmem
    have hin1 : start u ≤ start p := hin.1
    have hin2 : start p < stop u := by rw [stop_eq]; exact hin.2
    have hul := ((anc_interval hd hdom huv).mp (o3 u hu).inside)
    have hup := parent_valid huv (by omega)
    have hui := parent_interval hd huv (by omega)
    have huw := o2.mem hu
    have hupl : (parent u).level = u.level - 1 := rfl
    rcases valid_cases hd huv hpv with h1 | h1 | h1 | h1 | h1
    · omega
    · omega
    · rw [← h1]; exact hu
    · exfalso
      obtain ⟨r, hr, h2⟩ := hR.entry hd h huv hp ((anc_interval hd huv hpv).mpr ⟨h1.1, h1.2.1, h1.2.2.1⟩)
      have := (o3 u hu).fine r (b3 r (a3 r hr))
      rw [this] at h2
      simp at h2
    · exfalso
      have hpu := parent_inside hd hpv huv ((anc_interval hd hpv huv).mpr ⟨h1.1, h1.2.1, h1.2.2.1⟩)
      have hpu' : start p ≤ start (parent u) ∧ stop (parent u) ≤ stop p := by
        rcases hpu with h2 | h2
        · rw [h2]; exact ⟨le_rfl, le_rfl⟩
        · have := (anc_interval hd hpv hup).mp h2
          omega
      rcases key u hu with h2 | ⟨x, hx, h2⟩ | h2 | h2
      · rw [dompar u hu h2] at hpu'
        have h3 := (valid_subset_iff hd hpv hdom).mpr hpu'
        have := ((cells_subset_iff hd hpv.aligned hdom.aligned).mp h3).1
        omega
      · have hxv := h.valid x hx
        rw [anc_interval hd hup hxv] at h2
        have hxlt := start_lt_stop x
        have hxp : x ≠ p := by
          rintro rfl
          rcases hpu with h4 | h4
          · rw [← h4] at h2; omega
          · have := (anc_interval hd hpv hup).mp h4
            omega
        obtain ⟨i, hi, rfl⟩ := List.mem_iff_getElem.mp hp
        obtain ⟨j, hj, rfl⟩ := List.mem_iff_getElem.mp hx
        rcases Nat.lt_trichotomy i j with hij | rfl | hij
        · have := List.pairwise_iff_getElem.mp h.linear i j hi hj hij
          omega
        · exact hxp rfl
        · have := List.pairwise_iff_getElem.mp h.linear j i hj hi hij
          omega
      · omega
      · omega
  · -- nothing coarser
    intro v hvv hv1 hv2 hvp u hu hss
    have huv := (o3 u hu).valid
    have hul := ((anc_interval hd hdom huv).mp (o3 u hu).inside)
    have hup := parent_valid huv (by omega)
    have hva : isAncestor v u = true := (isAncestor_iff hd hvv.aligned huv.aligned).mpr hss
    have hsub : start v ≤ start (parent u) ∧ stop (parent u) ≤ stop v ∧ v.level ≤ (parent u).level := by
      rcases parent_inside hd hvv huv hva with h1 | h1
      · rw [h1]; exact ⟨le_rfl, le_rfl, le_rfl⟩
      · have := (anc_interval hd hvv hup).mp h1
        omega
    have contra : ∀ p ∈ ls, isAncestor (parent u) p = true → False := by
      intro p hp h1
      have hpv := h.valid p hp
      rw [anc_interval hd hup hpv] at h1
      have h2 : isAncestor v p = true := by
        rw [anc_interval hd hvv hpv]
        omega
      exact hvp p hp ((isAncestor_iff hd hvv.aligned hpv.aligned).mp h2)
    rcases key u hu with h1 | ⟨p, hp, h1⟩ | h1 | h1
    · obtain ⟨p, hp⟩ := List.exists_mem_of_ne_nil _ h.ne
      exact contra p hp (by rw [dompar u hu h1]; exact h.inside hd p hp)
    · exact contra p hp h1
    · omega
    · omega

/-! ## Balance -/

theorem parent_cells (hd : 0 < d) {v u : Quad d} (hv : Valid v) (hu : Valid u) (h : isAncestor v u = true) :
    Cells (parent u) ⊆ Cells v := by
  rcases parent_inside hd hv hu h with h1 | h1
  · rw [h1]
  · have hl := ((anc_interval hd hv hu).mp h).2.2
    have hp := parent_valid hu (by omega)
    exact ((isAncestor_iff hd hv.aligned hp.aligned).mp h1).1

theorem kernel_balance (hdim : d = 2 ∨ d = 3) {bs : (Quad d → ℤ) → List (Quad d) → Option ℕ} (hbs : Finds bs)
    {k bound : ℕ} (hk : 1 ≤ k) (hbound : balanceBound d k = some bound)
    {fdesc ldesc dom : Quad d} {ls R : List (Quad d)} (h : SubRegion fdesc ldesc dom ls) (hR : Reduced dom ls R)
    (hpath : Path (start fdesc) ls (stop ldesc)) :
    ∃ out, balanceKernel bs dom bound (some fdesc) (some ldesc) R = some out ∧
      Path (start fdesc) out (stop ldesc) ∧ (∀ u ∈ out, Valid u) ∧ AsFineAs out ls ∧ Balanced k out ∧
      (∀ U : List (Quad d), TreeComplete U → Balanced k U → AsFineAs U ls → AsFineAs U out) ∧
      (∀ e, Need dom bound (· ∈ R) e → ∀ u ∈ out, ¬ Cells (parent e) ⊆ Cells u) ∧
      (∀ u ∈ out, parent u = dom ∨ ∃ e, Need dom bound (· ∈ R) e ∧ isAncestor (parent u) e = true) ∧
      ∀ u ∈ out, isAncestor dom u = true := by
  have hd : 0 < d := by omega
  have hb1 : 1 < bound := by
    unfold balanceBound at hbound
    rcases hdim with rfl | rfl <;> split_ifs at hbound <;> simp only [Option.some.injEq] at hbound <;> omega
  obtain ⟨hdom, d2, d3, d4, d5⟩ := h.domv hd
  obtain ⟨e1, e2, e3⟩ := h.ends hd
  obtain ⟨fd, f1, f2, f3, f4, f5, f6⟩ := climb_first hd hdom h.fv e1
  obtain ⟨ld, l1, l2, l3, l4, l5, l6, l7⟩ := climb_last hd hdom h.lv e2
  have hfl := ((anc_interval hd hdom f2).mp f3)
  have hll := ((anc_interval hd hdom l2).mp l3)
  have hfp := parent_valid f2 (by omega)
  have hlp := parent_valid l2 (by omega)
  have hfi := parent_interval hd f2 (by omega)
  have hli := parent_interval hd l2 (by omega)
  have hfpl : (parent fd).level = fd.level - 1 := rfl
  have hlpl : (parent ld).level = ld.level - 1 := rfl
  have hflt := start_lt_stop fd
  have hllt := start_lt_stop ld
  -- the first and the last leaf
  obtain ⟨p0, hp0, hs0⟩ : ∃ p ∈ ls, start p = start fdesc := by
    cases hls : ls with
    | nil => exact absurd hls h.ne
    | cons p ps => 
      rw [hls] at hpath
      obtain ⟨h1, -⟩ := hpath
      exact ⟨p, List.mem_cons_self .., h1.symm⟩
  obtain ⟨p1, hp1, hs1⟩ : ∃ p ∈ ls, stop p = stop ldesc := by
    have hg : ∀ (l : List (Quad d)) (a b : ℕ), Path a l b → l ≠ [] → ∃ p ∈ l, stop p = b := by
      intro l
      induction l with
      | nil => intro a b _ hn; exact absurd rfl hn
      | cons x xs ih =>
        intro a b hx _
        by_cases hxs : xs = []
        · subst hxs
          exact ⟨x, by simp, by simpa [Path] using hx.2⟩
        · obtain ⟨p, hp, h1⟩ := ih _ _ hx.2 hxs
          exact ⟨p, by simp [hp], h1⟩
    exact hg ls _ _ hpath h.ne
  have hp0v := h.valid p0 hp0
  have hp1v := h.valid p1 hp1
  have hp0lt := start_lt_stop p0
  have hp1lt := start_lt_stop p1
  have c0 := climb_largest hd hdom f2 f3 f6 hp0v (h.inside hd p0 hp0) (by omega)
  have c1 := climb_largest_last hd hdom l2 l3 l7 hp1v (h.inside hd p1 hp1) (by omega)
  obtain ⟨L1, a1, a2, a3, a4, a5⟩ := addFirstDesc_spec hd hdom f1 f2 f3 hR.fam hR.sorted
  have hL1 : L1 = R := by
    apply a5
    apply hR.entry hd h hfp hp0
    have := parent_interval hd hp0v (by omega)
    rcases valid_cases hd hfp hp0v with h1 | h1 | h1 | h1 | h1
    · omega
    · omega
    · rw [h1] at hfpl; omega
    · exact (anc_interval hd hfp hp0v).mpr ⟨h1.1, h1.2.1, h1.2.2.1⟩
    · omega
  obtain ⟨L2, b1, b2, b3, b4, b5⟩ := addLastDesc_spec hd hdom h.lv h.l29 l1 l2 l3 l4 l5 hR.fam hR.sorted (hR.upto hd h)
  have hL2 : L2 = R := by
    apply b5
    apply hR.entry hd h hlp hp1
    rcases valid_cases hd hlp hp1v with h1 | h1 | h1 | h1 | h1
    · omega
    · omega
    · rw [h1] at hlpl; omega
    · exact (anc_interval hd hlp hp1v).mpr ⟨h1.1, h1.2.1, h1.2.2.1⟩
    · omega
  subst L1 L2
  obtain ⟨L, g1, g2, g3, g4⟩ := balancePhase_spec hd hbs hdom hR.fam hR.sorted (bound := bound) (by omega)
    (le_foldl_max R (dom.level + 1)).2 fd (some fdesc) (some ldesc)
  have hfam : ∀ e, Need dom bound (· ∈ R) e → FamHead dom e := fun e he => he.fam hd hdom hR.fam
  have region : ∀ x, Valid x → inRegion fd (some fdesc) (some ldesc) x = false →
      Before x fd ∨ Before ldesc x := by
    intro x hx hin
    unfold inRegion at hin
    simp only [Option.isSome_some, Bool.true_and, Option.any_some, Bool.and_eq_false_iff, Bool.not_eq_false',
      decide_eq_true_eq] at hin
    exact hin.imp (compare_neg_iff hd hx.int32 f2.int32).mp (compare_pos_iff hd hx.int32 h.lv.int32).mp
  have hctx : FillCtx dom (some ldesc) L (stop ldesc) := by
    refine ⟨hdom, fun r hr => ⟨(hfam r (g3 r hr).1).valid, (hfam r (g3 r hr).1).inside⟩, g2, ?_,
      fun e => by simp at e, ?_⟩
    · intro r hr
      rcases (g3 r hr).2 with h1 | h1
      · exact hR.upto hd h r h1
      · by_contra hc
        unfold inRegion at h1
        simp only [Option.isSome_some, Bool.true_and, Option.any_some, Bool.and_eq_true, Bool.not_eq_true',
          decide_eq_false_iff_not] at h1
        apply h1.2
        rw [gt_iff_lt, compare_pos_iff hd (hfam r (g3 r hr).1).valid.int32 h.lv.int32,
          before_interval]
        have := start_lt_stop ldesc
        left; omega
    · intro l hl
      obtain rfl := Option.some_inj.mp hl
      exact ⟨h.lv, h.l29, d4, d5, rfl⟩
  obtain ⟨out, o1, o2, o3⟩ := fillGaps_spec hd (by omega) (first := some fdesc) hctx f2 f3 f6 (by omega)
    (fun e => by simp at e)
  rw [f4] at o2 o3
  -- each family is broken up
  have C1 : ∀ e, Need dom bound (· ∈ R) e → ∀ u ∈ out, ¬ Cells (parent e) ⊆ Cells u := by
    intro e he u hu hsub
    obtain ⟨f, hf, hef, hor⟩ := g4 e he
    have hev := hfam e he
    have hfv := hfam f hf
    have huv := (o3 u hu).valid
    have := hev.lt
    have hpe := parent_valid hev.valid (by omega)
    have hsub' := (valid_subset_iff hd huv hpe).mp hsub
    have hsubl := ((cells_subset_iff hd huv.aligned hpe.aligned).mp hsub).1
    rw [anc_interval hd hpe hfv.valid] at hef
    have huf : isAncestor u f = true := by
      rw [anc_interval hd huv hfv.valid]
      omega
    rcases hor with h1 | h1
    · rw [(o3 u hu).fine f h1] at huf
      simp at huf
    · have huw := o2.mem hu
      have hflt' := start_lt_stop f
      rcases region f hfv.valid h1 with h2 | h2
      · rw [before_interval] at h2
        have := climb_largest hd hdom f2 f3 f6 huv (o3 u hu).inside (by omega)
        omega
      · rw [before_interval] at h2
        have := hfv.valid.1
        have := h.l29
        have := start_lt_stop ldesc
        rcases valid_cases hd h.lv hfv.valid with h3 | h3 | h3 | h3 | h3
        · omega
        · omega
        · rw [h3] at h2; omega
        · omega
        · omega
  -- each quadrant is needed
  have C2 : ∀ u ∈ out, u.level = dom.level + 1 ∨ ∃ e, Need dom bound (· ∈ R) e ∧ isAncestor (parent u) e = true := by
    intro u hu
    have huv := (o3 u hu).valid
    have hul := ((anc_interval hd hdom huv).mp (o3 u hu).inside).2.2
    have hup := parent_valid huv (by omega)
    have hui := parent_interval hd huv (by omega)
    have hult := start_lt_stop u
    have huw := o2.mem hu
    rcases (o3 u hu).just with h1 | ⟨r, hr, h1⟩ | h1 | h1
    · exact Or.inl h1
    · exact Or.inr ⟨r, (g3 r hr).1, h1⟩
    · right
      obtain ⟨r, hr, h2⟩ := hR.entry hd h hup hp0 (by
        rcases valid_cases hd hup hp0v with h2 | h2 | h2 | h2 | h2
        · omega
        · omega
        · rw [h2] at h1; omega
        · exact (anc_interval hd hup hp0v).mpr ⟨h2.1, h2.2.1, h2.2.2.1⟩
        · omega)
      exact ⟨r, Need.seed hr, h2⟩
    · right
      obtain ⟨r, hr, h2⟩ := hR.entry hd h hup hp1 (by
        rcases valid_cases hd hup hp1v with h2 | h2 | h2 | h2 | h2
        · omega
        · omega
        · rw [h2] at h1; omega
        · exact (anc_interval hd hup hp1v).mpr ⟨h2.1, h2.2.1, h2.2.2.1⟩
        · omega)
      exact ⟨r, Need.seed hr, h2⟩
  have dompar : ∀ u ∈ out, u.level = dom.level + 1 → parent u = dom := by
    intro u hu hl
    rcases parent_inside hd hdom (o3 u hu).valid (o3 u hu).inside with h1 | h1
    · exact h1.symm
    · have := (isAncestor_iff_div.mp h1).1
      rw [parent_level] at this
      omega
  refine ⟨out, ?_, o2, fun u hu => (o3 u hu).valid, ?_, ?_, ?_, C1, fun u hu => (C2 u hu).imp (dompar u hu) id,
    fun u hu => (o3 u hu).inside⟩
  · unfold balanceKernel
    dsimp only
    rw [obind a1]
    dsimp only
    rw [obind b1, if_pos hb1, obind g1]
    exact o1
  · intro u hu p hp hss
    have huv := (o3 u hu).valid
    have hpv := h.valid p hp
    obtain ⟨r, hr, h1⟩ := hR.entry hd h huv hp ((isAncestor_iff hd huv.aligned hpv.aligned).mpr hss)
    exact C1 r (Need.seed hr) u hu (parent_cells hd huv (hR.fam r hr).valid h1)
  · intro q hq r hr ht
    by_contra hc
    have hqv := (o3 q hq).valid
    have hrv := (o3 r hr).valid
    have hql := ((anc_interval hd hdom hqv).mp (o3 q hq).inside).2.2
    have hrl := ((anc_interval hd hdom hrv).mp (o3 r hr).inside).2.2
    have hqin := ((isAncestor_iff hd hdom.aligned hqv.aligned).mp (o3 q hq).inside).1
    have hrin := ((isAncestor_iff hd hdom.aligned hrv.aligned).mp (o3 r hr).inside).1
    rcases C2 q hq with h1 | ⟨e, he, h1⟩
    · omega
    · have hqp := parent_valid hqv (by omega)
      have hev := (hfam e he).valid
      have hl := ((anc_interval hd hqp hev).mp h1).2.2
      have hqpl : (parent q).level = q.level - 1 := rfl
      have hn := he.touch hd hdom (fun A hA => shift_all hdim hk hbound A hA) hR.fam hqv hrv hrin hqin ht
        (by omega) (by omega) ((isAncestor_iff hd hqp.aligned hev.aligned).mp h1).1
      apply C1 _ hn r hr
      have := hqv.1
      rw [parent_child hrv.aligned (by omega)]
  · intro U hU hbal hfine v hv u hu hss
    have hvv := hU.valid v hv
    have huv := (o3 u hu).valid
    have hul := ((anc_interval hd hdom huv).mp (o3 u hu).inside).2.2
    have hup := parent_valid huv (by omega)
    have hpu := parent_cells hd hvv huv ((isAncestor_iff hd hvv.aligned huv.aligned).mpr hss)
    have leaf : ∀ p ∈ ls, ¬ Cells (parent p) ⊆ Cells v := by
      intro p hp hsub
      have hpv := h.valid p hp
      have hpl := ((anc_interval hd hdom hpv).mp (h.inside hd p hp)).2.2
      have hpp := parent_valid hpv (by omega)
      apply hfine v hv p hp
      exact ((isAncestor_iff hd hpp.aligned hpv.aligned).mp (isAncestor_parent hd hpv (by omega))).trans_subset hsub
    rcases C2 u hu with h1 | ⟨e, he, h1⟩
    · rw [dompar u hu h1] at hpu
      obtain ⟨p, hp⟩ := List.exists_mem_of_ne_nil _ h.ne
      exact leaf p hp ((parent_cells hd hdom (h.valid p hp) (h.inside hd p hp)).trans hpu)
    · have hev := (hfam e he).valid
      refine he.minimal hd hdom (fun sid hs => shift_card hdim hbound hs) hR.fam hU hbal ?_ v hv
        ((parent_cells hd hup hev h1).trans hpu)
      intro r hr w hw hsub
      obtain ⟨p, hp, q1, -, -⟩ := hR.leaf hd h hr
      rw [q1] at hsub
      have hpv := h.valid p hp
      have hpl := ((anc_interval hd hdom hpv).mp (h.inside hd p hp)).2.2
      have hpp := parent_valid hpv (by omega)
      apply hfine w hw p hp
      exact ((isAncestor_iff hd hpp.aligned hpv.aligned).mp (isAncestor_parent hd hpv (by omega))).trans_subset hsub

end P4est
