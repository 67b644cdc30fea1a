import Verif.Lemmas.BalanceSub
import Verif.Model.BalanceBorder
import Verif.Spec.BalanceSeeds

/-! # Balance inside one quadrant -/

namespace P4est
open Spec

variable {d : ℕ}

/-- Every graded division of the domain that has no quadrant around the seeds has none around the families reached. -/
theorem Need.minimalIn (hd : 0 < d) {dom : Quad d} (hdom : Valid dom) {bound k : ℕ}
    (hb : ∀ sid, sid < bound → (shiftSet d sid).card ≤ k)
    {S : Quad d → Prop} (hS : ∀ e, S e → FamHead dom e) {U : Set (Quad d)} (hU : Paves (Cells dom) U)
    (hbal : GradedBy k U) (hseed : ∀ e, S e → ∀ u ∈ U, ¬ Cells (parent e) ⊆ Cells u)
    {e : Quad d} (h : Need dom bound S e) : ∀ u ∈ U, ¬ Cells (parent e) ⊆ Cells u := by
  induction h with
  | seed h => exact hseed _ h
  | @step e sid h hl hs hin ih =>
    intro b hbU hsub
    have hf := h.fam hd hdom hS
    have hel := hf.valid.1
    obtain ⟨-, -, hpar⟩ := coarseNeighbor_inside hd hdom hf.valid (by omega) hin
    rw [hpar] at hsub
    have hPv := parent_valid hf.valid (by omega)
    have hPal := hPv.aligned
    have hPd : Cells (parent e) ⊆ Cells dom := parent_cells hd hdom hf.valid hf.inside
    have hbv := (hU.legal b hbU).1
    have hPl : (parent e).level = e.level - 1 := rfl
    have hNal := bigNeighbor_aligned hf.valid.aligned (by omega) sid
    have hbl := ((cells_subset_iff hd hbv hNal).mp hsub).1
    have hNl : (bigNeighbor e sid).level = e.level - 2 := rfl
    have sP := side_pos (parent e)
    have sG := side_parent (p := parent e) (by omega) (by omega)
    have sN := side_bigNeighbor e sid
    -- the extreme cell of the parent
    obtain ⟨x, hx⟩ : ∃ x : Fin d → ℤ, ∀ i, x i = (parent e).c i +
        (if (childId (parent e)).testBit i then side (parent e) - 1 else 0) := ⟨_, fun i => rfl⟩
    have hxP : x ∈ Cells (parent e) := by
      intro i
      rw [hx]
      split <;> constructor <;> linarith
    obtain ⟨u, huU, hxu⟩ := (hU.cover x).mp (hPd hxP)
    have huv := (hU.legal u huU).1
    have huP : Cells u ⊆ Cells (parent e) := by
      rcases laminar huv hPal ⟨x, hxu, hxP⟩ with h1 | h1
      · exact absurd h1 (ih u huU)
      · exact h1
    have hul : e.level ≤ u.level := by
      have h1 := ((cells_subset_iff hd hPal huv).mp huP).1
      by_contra hc
      apply ih u huU
      have h2 : u = parent e := by
        rw [ancestor_unique huv hPal h1 (huP (corner_mem u)), show (parent e).level = u.level by omega,
          ancestor_self huv]
      rw [h2]
    have su := side_pos u
    have sb := side_pos b
    have extP : ∀ i, (parent e).c i ≤ u.c i ∧ u.c i + side u ≤ (parent e).c i + side (parent e) := by
      intro i
      have h1 := huP (corner_mem u) i
      have h2 := huP (show (fun j => u.c j + side u - 1) ∈ Cells u from
        fun j => ⟨by dsimp only; linarith, by dsimp only; linarith⟩) i
      exact ⟨h1.1, by linarith [h2.2]⟩
    have extN : ∀ i, b.c i ≤ (bigNeighbor e sid).c i ∧
        (bigNeighbor e sid).c i + side (parent (parent e)) ≤ b.c i + side b := by
      intro i
      have h0 := side_pos (bigNeighbor e sid)
      have h1 := hsub (corner_mem _) i
      have h2 := hsub (show (fun j => (bigNeighbor e sid).c j + side (bigNeighbor e sid) - 1) ∈ Cells (bigNeighbor e sid) from
        fun j => ⟨by dsimp only; linarith, by dsimp only; linarith⟩) i
      exact ⟨h1.1, by rw [← sN]; linarith [h2.2]⟩
    have hNc : ∀ i, (bigNeighbor e sid).c i = (parent (parent e)).c i + (if shiftAxis sid i then
      (if (childId (parent e)).testBit i then side (parent (parent e)) else - side (parent (parent e)))
      else 0) := fun i => coarseNeighbor_c hf.valid.aligned (by omega) sid i
    have main : ∀ i, OverlapOn u b i ∨ (MeetOn u b i ∧ shiftAxis sid i = true) := by
      intro i
      have h1 := extP i
      have h2 := extN i
      have h3 := hNc i
      have h4 := corner_in_parent hPal (by omega) i
      have h5 := hxu i
      rw [hx i] at h5
      unfold OverlapOn MeetOn
      by_cases hsh : shiftAxis sid i = true
      · rw [if_pos hsh] at h3
        by_cases hbit : (childId (parent e)).testBit i
        · rw [if_pos hbit] at h3 h4 h5
          rcases eq_or_lt_of_le h2.1 with h6 | h6
          · exact Or.inr ⟨Or.inl (by linarith), hsh⟩
          · exact Or.inl ⟨by linarith, by linarith⟩
        · rw [if_neg hbit] at h3 h4 h5
          rcases eq_or_lt_of_le h2.2 with h6 | h6
          · exact Or.inr ⟨Or.inr (by linarith), hsh⟩
          · exact Or.inl ⟨by linarith, by linarith⟩
      · rw [if_neg hsh] at h3
        left
        split at h4 <;> rename_i hbit <;> simp only [hbit] at h5 <;> constructor <;> grind
    classical
    by_cases hall : ∀ i, OverlapOn u b i
    · have := hU.disjoint u huU b hbU (overlap_all hall)
      rw [this] at hul
      omega
    · push Not at hall
      obtain ⟨i, hi⟩ := hall
      have ht : Touch k u b := by
        refine ⟨Finset.univ.filter fun j => ¬ OverlapOn u b j, ?_, ?_, ?_, ?_⟩
        · exact Finset.card_pos.mpr ⟨i, by simp [hi]⟩
        · refine le_trans (Finset.card_le_card ?_) (hb sid hs)
          intro j hj
          rw [Finset.mem_filter] at hj
          exact mem_shiftSet.mpr ((main j).resolve_left hj.2).2
        · intro j hj
          rw [Finset.mem_filter] at hj
          exact ((main j).resolve_left hj.2).1
        · intro j hj
          by_contra hc
          exact hj (by simp [hc])
      have := hbal u huU b hbU ht
      omega

/-- The reduced list of the seeds. -/
theorem seedLoop_spec (hd : 0 < d) {dom : Quad d} (rs : List (Quad d)) {q : Quad d} (hdom : Valid dom)
    (hfam : ∀ r ∈ q :: rs, FamHead dom r) :
    (seedLoop q rs).Sublist (q :: rs) ∧ ∀ r ∈ q :: rs, ∃ x ∈ seedLoop q rs, isAncestor (parent r) x = true := by
  induction rs generalizing q with
  | nil =>
    have hq := hfam q List.mem_cons_self
    have := hq.lt
    refine ⟨List.Sublist.refl _, fun r hr => ?_⟩
    rw [List.mem_singleton] at hr
    subst hr
    exact ⟨r, List.mem_cons_self, isAncestor_parent hd hq.valid (by omega)⟩
  | cons r rs ih =>
    have hq := hfam q List.mem_cons_self
    have hr := hfam r (by simp)
    have hql := hq.lt
    have hrl := hr.lt
    have hqp := parent_valid hq.valid (by omega)
    have hrp := parent_valid hr.valid (by omega)
    have hqi := parent_interval hd hq.valid (by omega)
    have hri := parent_interval hd hr.valid (by omega)
    have lq : (parent q).level = q.level - 1 := rfl
    have lr : (parent r).level = r.level - 1 := rfl
    have hqlt := start_lt_stop q
    have hrlt := start_lt_stop r
    have sub : ∀ {a b x : Quad d}, Valid a → Valid b → Valid x → start a ≤ start b → stop b ≤ stop a →
        a.level ≤ b.level → isAncestor b x = true → isAncestor a x = true := by
      intro a b x ha hb hx h1 h2 h3 h4
      rw [anc_interval hd hb hx] at h4
      rw [anc_interval hd ha hx]
      omega
    unfold seedLoop
    split
    · rename_i hc
      split
      · rename_i hlv
        obtain ⟨a1, a2⟩ := ih (fun x hx => hfam x (List.mem_cons_of_mem _ hx))
        refine ⟨a1.trans (List.sublist_cons_self _ _), fun x hx => ?_⟩
        rcases List.mem_cons.mp hx with rfl | hx
        · have hw := nca_comm_within hd hr.valid hq.valid (by omega) (by omega)
          have hin : start (parent x) ≤ start (parent r) ∧ stop (parent r) ≤ stop (parent x) := by
            rcases valid_cases hd hqp hrp with h1 | h1 | h1 | h1 | h1
            · omega
            · omega
            · rw [h1]; exact ⟨le_rfl, le_rfl⟩
            · omega
            · have := h1.2.2.1; omega
          obtain ⟨y, y1, y2⟩ := a2 r List.mem_cons_self
          have hyv := (hfam y (List.mem_cons_of_mem _ (a1.subset y1))).valid
          exact ⟨y, y1, sub hqp hrp hyv hin.1 hin.2 (by omega) y2⟩
        · exact a2 x hx
      · rename_i hlv
        obtain ⟨a1, a2⟩ := ih (q := q) (fun x hx => hfam x (by
          rcases List.mem_cons.mp hx with h | h
          · simp [h]
          · simp [h]))
        have a1' : (seedLoop q rs).Sublist (q :: r :: rs) :=
          a1.trans ((List.sublist_cons_self r rs).cons_cons q)
        refine ⟨a1', fun x hx => ?_⟩
        rcases List.mem_cons.mp hx with rfl | hx
        · exact a2 x List.mem_cons_self
        · rcases List.mem_cons.mp hx with rfl | hx
          · have hw := nca_within hd hr.valid hq.valid (by omega) (by omega)
            have hin : start (parent x) ≤ start (parent q) ∧ stop (parent q) ≤ stop (parent x) := by
              rcases valid_cases hd hqp hrp with h1 | h1 | h1 | h1 | h1
              · omega
              · omega
              · rw [h1]; exact ⟨le_rfl, le_rfl⟩
              · have := h1.2.2.1; omega
              · omega
            obtain ⟨y, y1, y2⟩ := a2 q List.mem_cons_self
            have hyv := (hfam y (a1'.subset y1)).valid
            exact ⟨y, y1, sub hrp hqp hyv hin.1 hin.2 (by omega) y2⟩
          · exact a2 x (List.mem_cons_of_mem _ hx)
    · obtain ⟨a1, a2⟩ := ih (fun x hx => hfam x (List.mem_cons_of_mem _ hx))
      refine ⟨a1.cons_cons q, fun x hx => ?_⟩
      rcases List.mem_cons.mp hx with rfl | hx
      · exact ⟨x, List.mem_cons_self, isAncestor_parent hd hq.valid (by omega)⟩
      · obtain ⟨y, y1, y2⟩ := a2 x hx
        exact ⟨y, List.mem_cons_of_mem _ y1, y2⟩

/-- What the kernel makes of the seeds inside of one quadrant. -/
theorem kernel_border (hdim : d = 2 ∨ d = 3) {bs : (Quad d → ℤ) → List (Quad d) → Option ℕ} (hbs : Finds bs)
    {k bound : ℕ} (hk : 1 ≤ k) (hbound : balanceBound d k = some bound)
    {dom : Quad d} {R : List (Quad d)} (hdom : Valid dom) (hsort : SortedWeak R) (hR : ∀ r ∈ R, FamHead dom r)
    (hne : R ≠ []) :
    ∃ out, balanceKernel bs dom bound none none R = some out ∧
      Path (start dom) out (stop dom) ∧ (∀ u ∈ out, Valid u ∧ isAncestor dom u = true) ∧
      (∀ r ∈ R, ∀ u ∈ out, ¬ Cells (parent r) ⊆ Cells u) ∧ Balanced k out ∧
      (∀ u ∈ out, ∀ U, Paves (Cells dom) U → GradedBy k U →
        (∀ r ∈ R, ∀ v ∈ U, ¬ Cells (parent r) ⊆ Cells v) → ∀ v ∈ U, ¬ Cells (parent u) ⊆ Cells v) ∧
      ∀ u ∈ out, parent u = dom ∨ ∃ e, Need dom bound (· ∈ R) e ∧ isAncestor (parent u) e = true := by
  have hd : 0 < d := by omega
  have hb1 : 1 < bound := by
    unfold balanceBound at hbound
    rcases hdim with rfl | rfl <;> split_ifs at hbound <;> simp only [Option.some.injEq] at hbound <;> omega
  obtain ⟨r0, hr0⟩ := List.exists_mem_of_ne_nil _ hne
  have hr0f := hR r0 hr0
  have hdl := hr0f.lt
  have hr0l := hr0f.valid.1
  obtain ⟨fd, hfd⟩ : ∃ fd, firstDesc dom (dom.level + 1) = fd := ⟨_, rfl⟩
  have f2 : Valid fd := by
    rw [← hfd]
    exact valid_subset hdom (firstDesc_aligned hdom.aligned (by omega) (by omega)) (by
      rw [firstDesc_level]; omega) (corner_mem dom)
  have f4 : start fd = start dom := by rw [← hfd]; rfl
  have fl : fd.level = dom.level + 1 := by rw [← hfd]; rfl
  have f3 : isAncestor dom fd = true := by
    rw [isAncestor_iff hd hdom.aligned f2.aligned, valid_ssubset_iff hd hdom f2]
    exact ⟨by omega, cells_subset hdom.aligned f2.aligned (by omega) (by rw [← hfd]; exact corner_mem dom)⟩
  obtain ⟨L, g1, g2, g3, g4⟩ := balancePhase_spec hd hbs hdom hR hsort (bound := bound) (by omega)
    (le_foldl_max R (dom.level + 1)).2 fd none none
  have hfam : ∀ e, Need dom bound (· ∈ R) e → FamHead dom e := fun e he => he.fam hd hdom hR
  have hctx : FillCtx dom none L (stop dom) := by
    refine ⟨hdom, fun r hr => ⟨(hfam r (g3 r hr).1).valid, (hfam r (g3 r hr).1).inside⟩, g2, ?_,
      fun _ => rfl, fun l hl => by simp at hl⟩
    intro r hr
    have h1 := hfam r (g3 r hr).1
    have h2 := (anc_interval hd hdom h1.valid).mp h1.inside
    have h3 := start_lt_stop r
    omega
  have hdlt := start_lt_stop dom
  obtain ⟨out, o1, o2, o3⟩ := fillGaps_spec hd (by omega) (first := none) hctx f2 f3 (Or.inl fl) (by omega)
    (fun _ => ⟨f4, fl⟩)
  rw [f4] at o2 o3
  have C1 : ∀ e, Need dom bound (· ∈ R) e → ∀ u ∈ out, ¬ Cells (parent e) ⊆ Cells u := by
    intro e he u hu hsub
    obtain ⟨f, hf, hef, hor⟩ := g4 e he
    have hev := hfam e he
    have hfv := hfam f hf
    have huv := (o3 u hu).valid
    have := hev.lt
    have hpe := parent_valid hev.valid (by omega)
    have hsub' := (valid_subset_iff hd huv hpe).mp hsub
    have hsubl := ((cells_subset_iff hd huv.aligned hpe.aligned).mp hsub).1
    rw [anc_interval hd hpe hfv.valid] at hef
    have huf : isAncestor u f = true := by
      rw [anc_interval hd huv hfv.valid]
      omega
    rcases hor with h1 | h1
    · rw [(o3 u hu).fine f h1] at huf
      simp at huf
    · simp [inRegion] at h1
  have C2 : ∀ u ∈ out, u.level = dom.level + 1 ∨ ∃ e, Need dom bound (· ∈ R) e ∧ isAncestor (parent u) e = true := by
    intro u hu
    have huv := (o3 u hu).valid
    have hul := ((anc_interval hd hdom huv).mp (o3 u hu).inside).2.2
    have hui := parent_interval hd huv (by omega)
    rcases (o3 u hu).just with h1 | ⟨r, hr, h1⟩ | h1 | h1
    · exact Or.inl h1
    · exact Or.inr ⟨r, (g3 r hr).1, h1⟩
    all_goals
      left
      by_contra hc
      rcases parent_inside hd hdom huv (o3 u hu).inside with h2 | h2
      · apply hc
        rw [h2, parent_level]
        omega
      · have := (anc_interval hd hdom (parent_valid huv (by omega))).mp h2
        omega
  have dompar : ∀ u ∈ out, u.level = dom.level + 1 → parent u = dom := by
    intro u hu hl
    rcases parent_inside hd hdom (o3 u hu).valid (o3 u hu).inside with h1 | h1
    · exact h1.symm
    · have := (isAncestor_iff_div.mp h1).1
      rw [parent_level] at this
      omega
  refine ⟨out, ?_, o2, fun u hu => ⟨(o3 u hu).valid, (o3 u hu).inside⟩, fun r hr => C1 r (Need.seed hr), ?_, ?_,
    fun u hu => (C2 u hu).imp (dompar u hu) id⟩
  · unfold balanceKernel
    dsimp only
    rw [show addFirstDesc dom none R = some (fd, R) by rw [← hfd]; rfl]
    rw [obind rfl]
    dsimp only
    rw [show addLastDesc dom none R = some R from rfl, obind rfl, if_pos hb1, obind g1]
    exact o1
  · intro q hq r hr ht
    by_contra hc
    have hqv := (o3 q hq).valid
    have hrv := (o3 r hr).valid
    have hql := ((anc_interval hd hdom hqv).mp (o3 q hq).inside).2.2
    have hrl := ((anc_interval hd hdom hrv).mp (o3 r hr).inside).2.2
    have hqin := ((isAncestor_iff hd hdom.aligned hqv.aligned).mp (o3 q hq).inside).1
    have hrin := ((isAncestor_iff hd hdom.aligned hrv.aligned).mp (o3 r hr).inside).1
    rcases C2 q hq with h1 | ⟨e, he, h1⟩
    · omega
    · have hqp := parent_valid hqv (by omega)
      have hev := (hfam e he).valid
      have hl := ((anc_interval hd hqp hev).mp h1).2.2
      have hqpl : (parent q).level = q.level - 1 := rfl
      have hn := he.touch hd hdom (fun A hA => shift_all hdim hk hbound A hA) hR hqv hrv hrin hqin ht
        (by omega) (by omega) ((isAncestor_iff hd hqp.aligned hev.aligned).mp h1).1
      apply C1 _ hn r hr
      have := hqv.1
      rw [parent_child hrv.aligned (by omega)]
  · intro u hu U hU hbal hfine v hv hpu
    have huv := (o3 u hu).valid
    have hul := ((anc_interval hd hdom huv).mp (o3 u hu).inside).2.2
    have hup := parent_valid huv (by omega)
    rcases C2 u hu with h1 | ⟨e, he, h1⟩
    · rw [dompar u hu h1] at hpu
      exact hfine r0 hr0 v hv ((parent_cells hd hdom hr0f.valid hr0f.inside).trans hpu)
    · have hev := (hfam e he).valid
      exact he.minimalIn hd hdom (fun sid hs => shift_card hdim hbound hs) hR hU hbal hfine v hv
        ((parent_cells hd hup hev h1).trans hpu)

end P4est
