import Verif.Lemmas.BorderLoop
import Verif.Spec.BalanceBorder
import Verif.Props.Balanced
import Verif.Props.BalanceSeedsList

/-! # C92: balance along the border of a tree -/

namespace P4est
open Spec

variable {d : ℕ} {α σ : Type}

theorem dropRepeats_spec (hd : 0 < d) {p : Quad d} {ps : List (Quad d)} (hi : ∀ x ∈ p :: ps, Int32 x.c)
    (hs : SortedWeak (p :: ps)) :
    (dropRepeats p ps).Pairwise Before ∧ ∀ x, x ∈ dropRepeats p ps ↔ x ∈ p :: ps := by
  induction ps generalizing p with
  | nil => exact ⟨List.pairwise_singleton _ _, fun x => Iff.rfl⟩
  | cons q qs ih =>
    obtain ⟨s1, s2⟩ := List.pairwise_cons.mp hs
    unfold dropRepeats
    split
    · rename_i he
      rw [isEqual_iff] at he
      subst he
      obtain ⟨a1, a2⟩ := ih (fun x hx => hi x (List.mem_cons_of_mem _ hx)) s2
      refine ⟨a1, fun x => ?_⟩
      rw [a2]
      simp
    · rename_i he
      rw [isEqual_iff] at he
      obtain ⟨a1, a2⟩ := ih (fun x hx => hi x (List.mem_cons_of_mem _ hx)) s2
      have hpq : Before p q := by
        rcases compare_cases hd (hi p List.mem_cons_self) (hi q (by simp)) with h | h | h
        · exact h.1
        · exact absurd h.1.symm he
        · exact absurd h.1 (s1 q List.mem_cons_self)
      refine ⟨List.pairwise_cons.mpr ⟨fun x hx => ?_, a1⟩, fun x => ?_⟩
      · rw [a2] at hx
        rcases List.mem_cons.mp hx with rfl | hx
        · exact hpq
        · have h1 := (List.pairwise_cons.mp s2).1 x hx
          rcases compare_cases hd (hi q (by simp)) (hi x (by simp [hx])) with h | h | h
          · exact hpq.trans h.1
          · exact h.1 ▸ hpq
          · exact absurd h.1 h1
      · rw [List.mem_cons, a2, List.mem_cons (a := x) (b := p)]

/-- The counters after data were carried over. -/
theorem merged_counters (hd : 0 < d) {init : Quad d → σ → α × σ} {t : Tree d α} {s : σ} {out : List (Quad d)} {a b : ℕ}
    {st : MergeSt d α σ} (h2 : Merged init t.quads.toList out ⟨[], t.perLevel, t.maxlevel, s, []⟩ st)
    (hne : quadsOf t ≠ []) (hp : Path a out b) (hov : ∀ u ∈ out, Valid u) (hv : ∀ q ∈ quadsOf t, Valid q)
    (hin : ∀ q ∈ quadsOf t, a ≤ start q ∧ stop q ≤ b) (hf : AsFineAs out (quadsOf t)) (hc : CountersOk t) (off : ℤ) :
    CountersOk (⟨t.quads.ofList st.leaves, st.perLevel, st.maxlevel, off⟩ : Tree d α) := by
  have hlv : st.leaves = (carried init t.quads.toList out s).1 := by rw [h2.leaves]; simp
  have hq : st.leaves.map Leaf.q = out := by rw [hlv, carried_quads]
  have hqs : quadsOf (⟨t.quads.ofList st.leaves, st.perLevel, st.maxlevel, off⟩ : Tree d α) = out := by
    unfold quadsOf
    rw [ofList_toList, hq]
  unfold CountersOk
  rw [hqs]
  refine ⟨?_, ?_, ?_⟩
  · intro l
    have c1 := h2.count l
    have c2 := hc.1 l
    have c3 : t.quads.toList.countP (fun x => x.q.level = l) = (quadsOf t).countP (fun q => q.level = l) := by
      unfold quadsOf
      rw [List.countP_map]
      rfl
    dsimp only at *
    omega
  · intro q hq
    rcases h2.top q hq with h3 | h3
    · exact (hc.2.1 q h3).trans h2.maxle
    · exact h3
  · rcases h2.max with h3 | ⟨p, hp, h3⟩
    · dsimp only at h3
      rcases hc.2.2 with ⟨q, hq, h4⟩ | ⟨h4, h5⟩
      · left
        have hqi := hin q hq
        have hqv := hv q hq
        have hlt := start_lt_stop q
        obtain ⟨u, hu, hm⟩ := (hp.cover (fun r hr => ⟨(hov r hr).aligned, (hov r hr).int32⟩)
          hqv.int32).mpr ⟨hqi.1, by show start q < b; omega⟩
        refine ⟨u, hu, ?_⟩
        have huv := hov u hu
        have hul : u.level ≤ st.maxlevel := by
          rcases h2.top u hu with h5 | h5
          · exact (hc.2.1 u h5).trans h2.maxle
          · exact h5
        have hql : q.level ≤ u.level := by
          by_contra hcon
          have hsub : Cells q ⊆ Cells u := cells_subset huv.aligned hqv.aligned (by omega) hm
          exact hf u hu q hq ((valid_ssubset_iff hd huv hqv).mpr ⟨by omega, hsub⟩)
        dsimp only
        omega
      · exact absurd h4 hne
    · left; exact ⟨p, hp, h3⟩

theorem border_off {f l b : Quad d} (hlt : start f < stop l) (hf : Valid f) (hb : Extended b)
    (h : Cells b ∩ Section f l = ∅) : Off f l b := by
  by_contra hc
  unfold Off at hc
  push Not at hc
  have h1 := start_lt_stop b
  rw [Set.eq_empty_iff_forall_notMem] at h
  rcases Nat.le_total (start f) (start b) with h2 | h2
  · exact h b.c ⟨corner_mem b, hb.int32, h2, hc.2⟩
  · exact h f.c ⟨(mem_iff_pos hb.2.1 hb.int32 hf.int32).mpr ⟨h2, hc.1⟩, hf.int32, le_rfl, hlt⟩

/-- The pieces of a leaf pave it. -/
theorem LeafPart.paves (hd : 0 < d) {k : ℕ} {S : Set (Quad d)} {v : Quad d} (hv : Valid v) {qs : List (Quad d)}
    (h : LeafPart k S v qs) : Paves (Cells v) {u | u ∈ qs} ∧ ∀ u ∈ qs, Cells u ⊆ Cells v := by
  have hin : ∀ u ∈ qs, Cells u ⊆ Cells v := fun u hu =>
    (valid_subset_iff hd hv (h.valid u hu)).mpr (h.path.mem hu)
  refine ⟨⟨fun u hu => ⟨(h.valid u hu).aligned, (h.valid u hu).1⟩, ?_, ?_⟩, hin⟩
  · intro u hu w hw hne
    exact linear_eq (h.path.gapless.linear fun q hq => (h.valid q hq).extended) hu hw hne
  · intro x
    constructor
    · intro hx
      have hi := aligned_int32_cells hv.aligned hv.int32 hx
      exact (h.path.cover (fun q hq => ⟨(h.valid q hq).aligned, (h.valid q hq).int32⟩) hi).mpr
        ((mem_iff_pos hv.aligned hv.int32 hi).mp hx)
    · rintro ⟨u, hu, hx⟩
      exact hin u hu hx

/-- What the new leaves are. -/
theorem pieces_facts (hd : 0 < d) {k : ℕ} {f l : Quad d} (hf : Valid f) (hl : Valid l) {V : List (Leaf d α)}
    (hne : V ≠ []) (hT : Tiles f l (V.map Leaf.q)) {B W : List (Quad d)} (hB : BorderOf f l (V.map Leaf.q) B)
    (hW : ∀ x, x ∈ W ↔ x ∈ B) {ps : List (Quad d)} (h : LeafParts k W V ps) :
    Tiles f l ps ∧ AsFineAs ps (V.map Leaf.q) ∧ AsFineAs ps B ∧
    (∀ q ∈ V.map Leaf.q, GradedBy k {u | u ∈ ps ∧ Cells u ⊆ Cells q}) ∧
    (∀ q ∈ V.map Leaf.q, ∀ r, Aligned r → r.level ≤ 29 → Cells r ⊆ Cells q →
      ((∃ u ∈ ps, Cells r ⊆ Cells u) ↔ ¬ Divides (Cells q) k (SeedsIn B q) r)) := by
  have hin : ∀ q ∈ V.map Leaf.q, start f ≤ start q ∧ stop q ≤ stop l := fun q hq =>
    (section_iff hd (hT.valid q hq)).mp (by rw [← hT.cover]; exact fun p hp => ⟨q, hq, hp⟩)
  have hlt : start f < stop l := by
    obtain ⟨v, hv⟩ := List.exists_mem_of_ne_nil _ hne
    have := hin v.q (List.mem_map_of_mem hv)
    have := start_lt_stop v.q
    omega
  have hVp := (tiles_iff hd hf hl hlt.le hT.valid).mp hT
  have hwi : ∀ q, within W q = SeedsIn B q := fun q => by
    ext s; unfold within SeedsIn; simp only [Set.mem_ofPred_eq, hW]
  have hpv : ∀ u ∈ ps, Valid u := fun u hu => by
    obtain ⟨v, -, qs, h1, h2, -⟩ := h.source u hu
    exact h1.valid u h2
  have hpath := h.path hVp
  have hTp := (tiles_iff hd hf hl hlt.le hpv).mpr hpath
  have same : ∀ u ∈ ps, ∀ v ∈ V.map Leaf.q, ∀ x, x ∈ Cells u → x ∈ Cells v →
      ∃ qs, LeafPart k (SeedsIn B v) v qs ∧ u ∈ qs ∧ Cells u ⊆ Cells v := by
    intro u hu v hv x hxu hxv
    obtain ⟨w, w1, qs, w2, w3, -⟩ := h.source u hu
    have hwv : w.q ∈ V.map Leaf.q := List.mem_map_of_mem w1
    have h1 := (w2.paves hd (hT.valid _ hwv)).2 u w3
    have h2 := linear_eq hT.linear hwv hv ⟨x, h1 hxu, hxv⟩
    rw [h2, hwi] at w2
    exact ⟨qs, w2, w3, h2 ▸ h1⟩
  have hfine1 : AsFineAs ps (V.map Leaf.q) := by
    intro u hu v hv hss
    obtain ⟨qs, -, -, h3⟩ := same u hu v hv v.c (hss.1 (corner_mem v)) (corner_mem v)
    exact hss.2 h3
  refine ⟨hTp, hfine1, ?_, ?_, ?_⟩
  · intro u hu b hb hss
    rcases hB.cases b hb with c | c | ⟨c1, v, c2, c3, c4⟩
    · rw [Set.eq_empty_iff_forall_notMem] at c
      refine c b.c ⟨corner_mem b, ?_⟩
      rw [← hTp.cover]
      exact ⟨u, hu, hss.1 (corner_mem b)⟩
    · exact hfine1 u hu b c hss
    · obtain ⟨qs, h1, h2, -⟩ := same u hu v c2 b.c (hss.1 (corner_mem b)) (c4.1 (corner_mem b))
      exact h1.fine b ⟨hb, c4⟩ u h2 hss
  · intro v hv u hu w hw ht
    obtain ⟨qs, h1, -⟩ := same u hu.1 v hv u.c (corner_mem u) (hu.2 (corner_mem u))
    obtain ⟨v0, hv0, rfl⟩ := List.mem_map.mp hv
    obtain ⟨qs, h1, h2⟩ := h.piece v0 hv0
    have hmem : ∀ x ∈ ps, Cells x ⊆ Cells v0.q → x ∈ qs := by
      intro x hx hxv
      obtain ⟨y, hy, hxy⟩ := ((h1.paves hd (hT.valid _ hv)).1.cover x.c).mp (hxv (corner_mem x))
      have : x = y := linear_eq hTp.linear hx (h2 y hy) ⟨x.c, corner_mem x, hxy⟩
      rw [this]; exact hy
    exact h1.graded u (hmem u hu.1 hu.2) w (hmem w hw.1 hw.2) ht
  · intro v hv r hr hr29 hrv
    have hvv := hT.valid v hv
    obtain ⟨v0, hv0, rfl⟩ := List.mem_map.mp hv
    obtain ⟨qs, h1, h2⟩ := h.piece v0 hv0
    rw [hwi] at h1
    obtain ⟨p1, p2⟩ := h1.paves hd hvv
    constructor
    · rintro ⟨u, hu, hru⟩ hdv
      obtain ⟨y, hy, hxy⟩ := (p1.cover r.c).mp (hrv (corner_mem r))
      have : u = y := linear_eq hTp.linear hu (h2 y hy) ⟨r.c, hru (corner_mem r), hxy⟩
      subst this
      exact hdv {u | u ∈ qs} p1 h1.graded h1.fine u hy hru
    · intro hdv
      by_contra hno
      apply hdv
      intro U hU hg hfine w hw hrw
      obtain ⟨y, hy, hxy⟩ := (p1.cover r.c).mp (hrv (corner_mem r))
      have hyv := h1.valid y hy
      have hyr : Cells y ⊂ Cells r := by
        rcases laminar hyv.aligned hr ⟨r.c, hxy, corner_mem r⟩ with h3 | h3
        · exact absurd ⟨y, h2 y hy, h3⟩ hno
        · exact ⟨h3, fun h4 => hno ⟨y, h2 y hy, h4⟩⟩
      have hyne : y ≠ v0.q := fun h3 => hno ⟨y, h2 y hy, h3 ▸ hrv⟩
      obtain ⟨l1, l2⟩ := h1.least y hy hyne
      have hrvalid : Valid r := valid_subset hvv hr (by omega) (hrv (corner_mem r))
      refine l2 U hU hg hfine w hw (Set.Subset.trans ?_ hrw)
      exact parent_cells hd hrvalid hyv ((isAncestor_iff hd hr hyv.aligned).mpr hyr)

theorem borderBound_eq (hdim : d = 2 ∨ d = 3) {k : ℕ} (hk : 1 ≤ k) (hkd : k ≤ d) :
    balanceBound d k = some (borderBound d k) := by
  unfold balanceBound borderBound
  rcases hdim with rfl | rfl <;> interval_cases k <;> simp

/-- **C92.** `p4est_balance_border`.  Let the leaves of the tree cover the part between its first and its
last descendant, in order and without overlap, and let `B` be a border: quadrants outside of this part,
some leaves, and quadrants inside of these leaves (the seeds) that are first children.  Let `k` select the
neighborhood as in C54.  Afterwards the leaves cover the same part, in order and without overlap.  Each leaf
is replaced by the least balanced division of it that is as fine as the seeds in it: a quadrant `r` of the
leaf `q` is in a new leaf exactly if some balanced division of `q` that is as fine as the seeds does not
divide `r`.  (A leaf without seeds stays.)  Leaves that stay keep their data, the others are initialized by
the callback, in their order, and the leaves that are replaced are freed.  The counters of the tree stay
consistent. -/
theorem C92_balance_border (hdim : d = 2 ∨ d = 3) {bs : (Quad d → ℤ) → List (Quad d) → Option ℕ} (hbs : Searches bs)
    (init : Quad d → σ → α × σ) (k : ℕ) (hk : 1 ≤ k) (hkd : k ≤ d) (fdesc ldesc : Quad d)
    (hf : Valid fdesc) (hf9 : fdesc.level = 29) (hl : Valid ldesc) (hl9 : ldesc.level = 29)
    (t : Tree d α) (s : σ) (hne : quadsOf t ≠ []) (hT : Tiles fdesc ldesc (quadsOf t))
    (B : List (Quad d)) (hB : BorderOf fdesc ldesc (quadsOf t) B) :
    ∃ t' s', balanceBorder bs init k fdesc ldesc B t s =
        some (t', s', dropped t.quads.toList (quadsOf t')) ∧
      Tiles fdesc ldesc (quadsOf t') ∧ AsFineAs (quadsOf t') (quadsOf t) ∧ AsFineAs (quadsOf t') B ∧
      (∀ q ∈ quadsOf t, GradedBy k {u | u ∈ quadsOf t' ∧ Cells u ⊆ Cells q}) ∧
      (∀ q ∈ quadsOf t, ∀ r, Aligned r → r.level ≤ 29 → Cells r ⊆ Cells q →
        ((∃ u ∈ quadsOf t', Cells r ⊆ Cells u) ↔ ¬ Divides (Cells q) k (SeedsIn B q) r)) ∧
      (t'.quads.toList, s') = carried init t.quads.toList (quadsOf t') s ∧
      t'.offset = t.offset ∧ (CountersOk t → CountersOk t') := by
  have hd : 0 < d := by omega
  have hneV : t.quads.toList ≠ [] := fun h => hne (by unfold quadsOf; rw [h]; rfl)
  have hin : ∀ q ∈ quadsOf t, start fdesc ≤ start q ∧ stop q ≤ stop ldesc := fun q hq =>
    (section_iff hd (hT.valid q hq)).mp (by rw [← hT.cover]; exact fun p hp => ⟨q, hq, hp⟩)
  have hlt : start fdesc < stop ldesc := by
    obtain ⟨q, hq⟩ := List.exists_mem_of_ne_nil _ hne
    have := hin q hq
    have := start_lt_stop q
    omega
  have hVp := (tiles_iff hd hf hl hlt.le hT.valid).mp hT
  cases hS : sortQuads B with
  | nil =>
    have hnone : ∀ x, x ∉ B := fun x hx => by
      have := mem_sortQuads.mpr hx
      rw [hS] at this
      simp at this
    have hp := pieces_keep (k := k) (W := B) t.quads.toList (fun v hv => hT.valid v.q (List.mem_map_of_mem hv))
      (fun v _ s hs => hnone s hs.1)
    obtain ⟨f1, f2, f3, f4, f5⟩ := pieces_facts hd hf hl hneV hT hB (fun x => Iff.rfl) hp
    refine ⟨t, s, ?_, f1, f2, f3, f4, f5, (carried_self init _ (path_nodup hVp) s).symm, rfl, id⟩
    unfold balanceBorder
    rw [hS]
    dsimp only
    have : dropped t.quads.toList (quadsOf t) = [] := by
      unfold dropped
      rw [List.filter_eq_nil_iff]
      intro x hx
      have : x.q ∈ quadsOf t := List.mem_map_of_mem hx
      simpa using this
    rw [this]
  | cons p ps =>
    have hext : ∀ x ∈ p :: ps, Extended x := fun x hx => hB.extended x (mem_sortQuads.mp (by rw [hS]; exact hx))
    have hsort : SortedWeak (p :: ps) := by
      rw [← hS]
      exact sortQuads_sorted hd fun x hx => (hB.extended x hx).int32
    obtain ⟨w1, w2⟩ := dropRepeats_spec hd (fun x hx => (hext x hx).int32) hsort
    obtain ⟨W, hW⟩ : ∃ W, dropRepeats p ps = W := ⟨_, rfl⟩
    rw [hW] at w1 w2
    have hWB : ∀ x, x ∈ W ↔ x ∈ B := fun x => by rw [w2, ← hS, mem_sortQuads]
    have hinv : BorderInv fdesc ldesc (start fdesc) W t.quads.toList := by
      refine ⟨hVp, le_rfl, fun v hv => hT.valid v.q (List.mem_map_of_mem hv), w1,
        fun w hw => ⟨(hB.extended w ((hWB w).mp hw)).2.1, (hB.extended w ((hWB w).mp hw)).int32⟩, ?_⟩
      intro w hw
      have hwB := (hWB w).mp hw
      have hwe := hB.extended w hwB
      rcases hB.cases w hwB with c | c | ⟨c1, v, c2, c3, c4⟩
      · exact Or.inl (border_off hlt hf hwe c)
      · exact Or.inr (Or.inl c)
      · exact Or.inr (Or.inr ⟨valid_subset (hT.valid v c2) hwe.2.1 (by have := hwe.1; omega) (c4.1 (corner_mem w)),
          c1, v, c2, (hWB v).mpr c3, c4⟩)
    obtain ⟨M', V', qs, r1, r2, r3, -⟩ := borderLoop_spec hdim hbs init hk (borderBound_eq hdim hk hkd) hf hf9 hl hl9
      W.length W ⟨[], t.perLevel, t.maxlevel, s, []⟩ t.quads.toList (start fdesc) le_rfl hinv
    obtain ⟨f1, f2, f3, f4, f5⟩ := pieces_facts hd hf hl hneV hT hB hWB r3
    have hlv : M'.leaves ++ V' = (carried init t.quads.toList qs s).1 := by
      have := r2.leaves
      simpa using this
    have hq : quadsOf (⟨t.quads.ofList (M'.leaves ++ V'), M'.perLevel, M'.maxlevel, t.offset⟩ : Tree d α) = qs := by
      unfold quadsOf
      rw [ofList_toList, hlv, carried_quads]
    refine ⟨⟨t.quads.ofList (M'.leaves ++ V'), M'.perLevel, M'.maxlevel, t.offset⟩, M'.s, ?_, ?_, ?_, ?_, ?_, ?_, ?_, rfl, ?_⟩
    · unfold balanceBorder
      rw [hS]
      dsimp only
      rw [hW, obind r1, hq]
      have := r2.freed
      dsimp only at this ⊢
      rw [this]
      simp
    · rw [hq]; exact f1
    · rw [hq]; exact f2
    · rw [hq]; exact f3
    · rw [hq]; exact f4
    · rw [hq]; exact f5
    · rw [hq, ofList_toList, hlv]
      have := r2.state
      dsimp only at this ⊢
      rw [this]
    · intro hc
      exact merged_counters hd r2 hne ((tiles_iff hd hf hl hlt.le f1.valid).mp f1) f1.valid hT.valid hin f2 hc _

/-- A quadrant is properly inside another exactly if its parent is inside. -/
theorem inside_iff_parent (hd : 0 < d) {s u : Quad d} (hs : Aligned s) (h1 : 0 < s.level) (hu : Aligned u) :
    Cells s ⊂ Cells u ↔ Cells (parent s) ⊆ Cells u := by
  have hp := parent_aligned hs h1
  have hsp : Cells s ⊂ Cells (parent s) :=
    (isAncestor_iff hd hp hs).mp (by
      rw [isAncestor_iff hd hp hs]
      refine ⟨by rw [parent_eq_ancestor hs h1]; exact cells_subset_ancestor hs (by omega), fun h => ?_⟩
      have := ((cells_subset_iff hd hs hp).mp h).1
      rw [parent_level] at this
      omega)
  constructor
  · intro h
    have hl : u.level < s.level := by
      have h2 := ((cells_subset_iff hd hu hs).mp h.1).1
      rcases Nat.lt_or_ge u.level s.level with h3 | h3
      · exact h3
      · exact absurd (cells_subset hs hu h3 (by
          rw [← cells_inj hd hu hs ?_]
          · exact corner_mem u
          · refine Set.Subset.antisymm ?_ h.1
            have he : u.level = s.level := by omega
            rcases laminar hu hs ⟨s.c, h.1 (corner_mem s), corner_mem s⟩ with h4 | h4
            · intro x hx
              by_contra hc
              have h5 := (mem_cells hu).mp (h.1 (corner_mem s))
              have h6 := (mem_cells hu).mp hx
              apply hc
              rw [mem_cells hs]
              intro i
              have h5 := h5 i
              have h6 := h6 i
              rw [← he]
              omega
            · exact h4)) h.2
    rcases laminar hu hp ⟨s.c, h.1 (corner_mem s), hsp.1 (corner_mem s)⟩ with h2 | h2
    · exact h2
    · have h3 := ((cells_subset_iff hd hp hu).mp h2).1
      rw [parent_level] at h3
      have he : (parent s).level = u.level := by rw [parent_level]; omega
      refine (cells_subset_iff hd hu hp).mpr ⟨he.ge, ?_⟩
      rw [mem_cells hu]
      intro i
      have h5 := (mem_cells hp).mp (h2 (corner_mem u)) i
      rw [← he]
      exact h5.symm
  · intro h
    exact Set.ssubset_of_ssubset_of_subset hsp h

/-- Seeds may be replaced by their first siblings. -/
theorem divides_siblings (hd : 0 < d) {D : Set (Fin d → ℤ)} {k : ℕ} {S : Set (Quad d)}
    (hS : ∀ s ∈ S, Aligned s ∧ 0 < s.level) {r : Quad d} :
    Divides D k {b | ∃ s ∈ S, b = sibling s 0} r ↔ Divides D k S r := by
  have key : ∀ U, Paves D U →
      ((∀ b ∈ {b | ∃ s ∈ S, b = sibling s 0}, ∀ u ∈ U, ¬ Cells b ⊂ Cells u) ↔ ∀ s ∈ S, ∀ u ∈ U, ¬ Cells s ⊂ Cells u) := by
    intro U hU
    have h1 : ∀ s ∈ S, ∀ u ∈ U, (Cells (sibling s 0) ⊂ Cells u ↔ Cells s ⊂ Cells u) := by
      intro s hs u hu
      obtain ⟨a1, a2⟩ := hS s hs
      have hua := (hU.legal u hu).1
      have hp := parent_aligned a1 a2
      have h30 := a1.1
      have hl : (parent s).level < 30 := by rw [parent_level]; omega
      rw [sibling_eq a1 a2, inside_iff_parent hd (child_aligned hp hl 0) (by simp) hua, parent_child hp hl,
        inside_iff_parent hd a1 a2 hua]
    constructor
    · intro h s hs u hu hc
      exact h _ ⟨s, hs, rfl⟩ u hu ((h1 s hs u hu).mpr hc)
    · rintro h b ⟨s, hs, rfl⟩ u hu hc
      exact h s hs u hu ((h1 s hs u hu).mp hc)
  unfold Divides
  refine forall_congr' fun U => forall_congr' fun hU => forall_congr' fun hg => ?_
  rw [key U hU]

/-- **C92, with C91.** Let the seeds in the leaf `p` be those of the quadrants `Q`: what `p4est_balance_seeds`
returns for `q` in `Q` and `p`, replaced by the first siblings as `p4est_tree_compute_overlap` does.  Then the
function divides `p` exactly as these quadrants demand: a quadrant `r` of `p` stays within a leaf exactly
if no quadrant of `Q` divides `r` in all balanced meshes of the trees.  Excepted are the cases where the seeds are
not enough (C91). -/
theorem C92_forced_partial (hdim : d = 2 ∨ d = 3) {bs : (Quad d → ℤ) → List (Quad d) → Option ℕ} (hbs : Searches bs)
    (init : Quad d → σ → α × σ) (k : ℕ) (hk : 1 ≤ k) (hkd : k ≤ d) (fdesc ldesc : Quad d)
    (hf : Valid fdesc) (hf9 : fdesc.level = 29) (hl : Valid ldesc) (hl9 : ldesc.level = 29)
    (t : Tree d α) (s : σ) (hT : Tiles fdesc ldesc (quadsOf t))
    (B : List (Quad d)) (hB : BorderOf fdesc ldesc (quadsOf t) B)
    {lo hi : Fin d → ℤ} (hw : WholeTrees lo hi) (p : Quad d) (hp : p ∈ quadsOf t) (hpb : Cells p ⊆ BoxOf lo hi)
    (Q : List (Quad d)) (hQ : ∀ q ∈ Q, Aligned q ∧ q.level ≤ 29 ∧ Cells q ⊆ BoxOf lo hi ∧
      ¬ (Cells q ⊆ Cells p ∧ q.level = p.level + 1) ∧ ¬ (d = 3 ∧ k = 2 ∧ axesOutside q p = 2))
    (hseeds : SeedsIn B p = {b | ∃ q ∈ Q, ∃ o ss, balanceSeeds q p k true = some (o, ss) ∧ ∃ u ∈ ss, b = sibling u 0}) :
    ∃ t' s' fr, balanceBorder bs init k fdesc ldesc B t s = some (t', s', fr) ∧
      ∀ r, Aligned r → r.level ≤ 29 → Cells r ⊆ Cells p →
        ((∃ u ∈ quadsOf t', Cells r ⊆ Cells u) ↔ ∀ q ∈ Q, ¬ Divides (BoxOf lo hi) k {q} r) := by
  have hd : 0 < d := by omega
  obtain ⟨t', s', h1, -, -, -, -, h2, -⟩ := C92_balance_border hdim hbs init k hk hkd fdesc ldesc hf hf9 hl hl9 t s
    (List.ne_nil_of_mem hp) hT B hB
  have hpv := hT.valid p hp
  refine ⟨t', s', _, h1, ?_⟩
  intro r hr hr29 hrp
  have hSe : SeedsIn B p = {b | ∃ u ∈ {u | ∃ q ∈ Q, ∃ o ss, balanceSeeds q p k true = some (o, ss) ∧ u ∈ ss}, b = sibling u 0} := by
    rw [hseeds]
    ext b
    constructor
    · rintro ⟨q, hq, o, ss, h3, u, hu, rfl⟩
      exact ⟨u, ⟨q, hq, o, ss, h3, hu⟩, rfl⟩
    · rintro ⟨u, ⟨q, hq, o, ss, h3, hu⟩, rfl⟩
      exact ⟨q, hq, o, ss, h3, u, hu, rfl⟩
  have hall : ∀ u ∈ {u | ∃ q ∈ Q, ∃ o ss, balanceSeeds q p k true = some (o, ss) ∧ u ∈ ss},
      Aligned u ∧ u.level ≤ 29 ∧ p.level < u.level ∧ Cells u ⊆ Cells p := by
    rintro u ⟨q, hq, o, ss, h3, hu⟩
    obtain ⟨a1, a2, a3, a4, a5⟩ := hQ q hq
    obtain ⟨b1, b2, b3, b4⟩ := (C91_seeds_partial hdim hk hkd hw a1 a2 a3 hpv.aligned hpv.1 hpb a4 a5 h3).1 u hu
    exact ⟨b1, by omega, b3, b4⟩
  rw [h2 p hp r hr hr29 hrp, hSe, divides_siblings hd fun u hu => ⟨(hall u hu).1, by have := (hall u hu).2.2.1; omega⟩,
    divides_inside hd hpv.aligned hpv.1 hall hr hr29 hrp]
  constructor
  · intro h q hq hdv
    obtain ⟨a1, a2, a3, a4, a5⟩ := hQ q hq
    obtain ⟨⟨o, ss⟩, h3⟩ := Option.ne_none_iff_exists'.mp
      fun hn => Bool.noConfusion ((C90_returns a1 hpv.aligned k true).mp hn).1
    have h4 := ((C91_seeds_partial hdim hk hkd hw a1 a2 a3 hpv.aligned hpv.1 hpb a4 a5 h3).2 r hr hr29 hrp).mpr hdv
    rw [divides_inside hd hpv.aligned hpv.1 (S := {u | u ∈ ss}) (fun u hu => hall u ⟨q, hq, o, ss, h3, hu⟩) hr hr29 hrp] at h4
    obtain ⟨u, hu, h5⟩ := h4
    exact h ⟨u, ⟨q, hq, o, ss, h3, hu⟩, h5⟩
  · rintro h ⟨u, ⟨q, hq, o, ss, h3, hu⟩, h5⟩
    obtain ⟨a1, a2, a3, a4, a5⟩ := hQ q hq
    refine h q hq (((C91_seeds_partial hdim hk hkd hw a1 a2 a3 hpv.aligned hpv.1 hpb a4 a5 h3).2 r hr hr29 hrp).mp ?_)
    rw [divides_inside hd hpv.aligned hpv.1 (S := {u | u ∈ ss}) (fun u hu => hall u ⟨q, hq, o, ss, h3, hu⟩) hr hr29 hrp]
    exact ⟨u, hu, h5⟩

/-- Beside C92: the four children of the root. -/
def quarterTree : Tree 2 Unit :=
  ⟨⟨fun i => ⟨child (root 2) i, ()⟩, 4⟩, fun l => if l = 1 then 4 else 0, 1, 0⟩

/-- Small quadrants at the right of the tree. -/
def rightQuads : List (Quad 2) := [⟨![2 ^ 30, 2 ^ 28], 5⟩, ⟨![2 ^ 30 + 2 ^ 25, 0], 5⟩]

/-- Its border: the quadrants at the right, the second leaf and the seeds in it; one is listed twice. -/
def quarterBorder : List (Quad 2) :=
  rightQuads ++ [⟨![2 ^ 30 - 2 ^ 27, 2 ^ 28], 4⟩, child (root 2) 1, ⟨![2 ^ 30 - 2 ^ 27, 0], 4⟩, ⟨![2 ^ 30 - 2 ^ 27, 2 ^ 28], 4⟩]

theorem off_border {f l b : Quad d} (hb : Extended b) (h : Off f l b) : Cells b ∩ Section f l = ∅ := by
  rw [Set.eq_empty_iff_forall_notMem]
  rintro x ⟨hx, hi, h1, h2⟩
  have := (mem_iff_pos hb.2.1 hb.int32 hi).mp hx
  unfold Off at h
  omega

theorem quarterTree_tiles : Tiles (firstDesc (root 2) 29) (lastDesc (root 2) 29) (quadsOf quarterTree) := by
  have h0 : start (firstDesc (root 2) 29) = 0 := by decide +kernel
  have h1 : stop (lastDesc (root 2) 29) = 2 ^ (2 * 30) := by decide +kernel
  rw [root_ends (by decide) h0 h1]
  have e : quadsOf quarterTree = [child (root 2) 0, child (root 2) 1, child (root 2) 2, child (root 2) 3] := rfl
  have hv : ∀ q ∈ quadsOf quarterTree, Valid q := by
    intro q hq
    rw [← isValid_iff]
    revert q
    rw [e]
    decide +kernel
  apply treeComplete_of_path hv
  rw [e]
  simp only [Path]
  decide +kernel

theorem quarterBorder_of :
    BorderOf (firstDesc (root 2) 29) (lastDesc (root 2) 29) (quadsOf quarterTree) quarterBorder := by
  have hext : ∀ b ∈ quarterBorder, Extended b := by
    intro b hb
    rw [← isExtended_iff]
    revert b
    decide +kernel
  refine ⟨hext, ?_⟩
  intro b hb
  have h : Off (firstDesc (root 2) 29) (lastDesc (root 2) 29) b ∨ b = child (root 2) 1 ∨
      (childId b = 0 ∧ isAncestor (child (root 2) 1) b = true) := by
    revert b
    unfold Off
    decide +kernel
  have e : quadsOf quarterTree = [child (root 2) 0, child (root 2) 1, child (root 2) 2, child (root 2) 3] := rfl
  rcases h with h | h | ⟨h1, h2⟩
  · exact Or.inl (off_border (hext b hb) h)
  · right; left; rw [e, h]; decide +kernel
  · right; right
    refine ⟨h1, child (root 2) 1, by rw [e]; decide +kernel, by decide +kernel, ?_⟩
    exact (isAncestor_iff (by decide) (by constructor <;> decide +kernel) (hext b hb).2.1).mp h2

/-- The hypotheses of C92 hold of the example. -/
example : Valid (firstDesc (root 2) 29) ∧ Valid (lastDesc (root 2) 29) ∧ quadsOf quarterTree ≠ [] ∧
    Tiles (firstDesc (root 2) 29) (lastDesc (root 2) 29) (quadsOf quarterTree) ∧
    BorderOf (firstDesc (root 2) 29) (lastDesc (root 2) 29) (quadsOf quarterTree) quarterBorder ∧
    CountersOk quarterTree ∧ Searches (d := 2) fun f l => binSearch f l l.length 0 l.length := by
  refine ⟨by rw [← isValid_iff]; decide +kernel, by rw [← isValid_iff]; decide +kernel, ?_, quarterTree_tiles,
    quarterBorder_of, ⟨?_, ?_, ?_⟩, binSearch_searches⟩
  · intro h; exact absurd (congrArg List.length h) (by decide +kernel)
  · intro l
    have e : quadsOf quarterTree = [child (root 2) 0, child (root 2) 1, child (root 2) 2, child (root 2) 3] := rfl
    rw [e]
    by_cases h : l = 1
    · subst h; decide +kernel
    · have : ¬ 1 = l := fun h' => h h'.symm
      simp [quarterTree, child, root, h, this]
  · decide +kernel
  · left
    exact ⟨child (root 2) 0, by decide +kernel, by decide +kernel⟩

/-- So do those of the theorem with C91. -/
example : WholeTrees (d := 2) (fun _ => 0) (fun _ => 2 ^ 31) ∧ child (root 2) 1 ∈ quadsOf quarterTree ∧
    Cells (child (root 2) 1) ⊆ BoxOf (fun _ => 0) (fun _ => 2 ^ 31) ∧
    (∀ q ∈ rightQuads, Aligned q ∧ q.level ≤ 29 ∧ Cells q ⊆ BoxOf (fun _ => 0) (fun _ => 2 ^ 31) ∧
      ¬ (Cells q ⊆ Cells (child (root 2) 1) ∧ q.level = (child (root 2) 1).level + 1) ∧
      ¬ (2 = 3 ∧ 1 = 2 ∧ axesOutside q (child (root 2) 1) = 2)) ∧
    SeedsIn quarterBorder (child (root 2) 1) = {b | ∃ q ∈ rightQuads, ∃ o ss,
      balanceSeeds q (child (root 2) 1) 1 true = some (o, ss) ∧ ∃ u ∈ ss, b = sibling u 0} := by
  refine ⟨fun i => by norm_num, by decide +kernel, by rw [cells_sub_box]; decide +kernel, ?_, ?_⟩
  · have h : ∀ q ∈ rightQuads, isExtended q = true ∧
        (∀ i, 0 ≤ q.c i ∧ q.c i + side q ≤ 2 ^ 31) ∧ q.level ≠ 2 := by decide +kernel
    intro q hq
    obtain ⟨h1, h2, h3⟩ := h q hq
    rw [isExtended_iff] at h1
    refine ⟨h1.2.1, h1.1, by rw [cells_sub_box]; exact h2, fun h => h3 h.2, fun h => absurd h.1 (by decide)⟩
  · have hs : ∀ b, b ∈ SeedsIn quarterBorder (child (root 2) 1) ↔
        b ∈ quarterBorder.filter (isAncestor (child (root 2) 1)) := by
      intro b
      rw [List.mem_filter]
      refine and_congr_right fun hb => ?_
      exact (isAncestor_iff (by decide) (by constructor <;> decide +kernel) (quarterBorder_of.extended b hb).2.1).symm
    have e1 : quarterBorder.filter (isAncestor (child (root 2) 1)) =
      [⟨![2 ^ 30 - 2 ^ 27, 2 ^ 28], 4⟩, ⟨![2 ^ 30 - 2 ^ 27, 0], 4⟩, ⟨![2 ^ 30 - 2 ^ 27, 2 ^ 28], 4⟩] := by decide +kernel
    have e2 : rightQuads.map (fun q => balanceSeeds q (child (root 2) 1) 1 true) =
      [some (true, [⟨![2 ^ 30 - 2 ^ 26, 2 ^ 28], 4⟩]), some (true, [⟨![2 ^ 30 - 2 ^ 26, 0], 4⟩])] := by decide +kernel
    ext b
    rw [hs, e1]
    have hl : rightQuads = [⟨![2 ^ 30, 2 ^ 28], 5⟩, ⟨![2 ^ 30 + 2 ^ 25, 0], 5⟩] := rfl
    rw [hl] at e2
    simp only [List.map_cons, List.map_nil, List.cons.injEq, and_true] at e2
    have f1 : sibling (⟨![2 ^ 30 - 2 ^ 26, 2 ^ 28], 4⟩ : Quad 2) 0 = ⟨![2 ^ 30 - 2 ^ 27, 2 ^ 28], 4⟩ := by decide +kernel
    have f2 : sibling (⟨![2 ^ 30 - 2 ^ 26, 0], 4⟩ : Quad 2) 0 = ⟨![2 ^ 30 - 2 ^ 27, 0], 4⟩ := by decide +kernel
    constructor
    · intro h
      have h : b = ⟨![2 ^ 30 - 2 ^ 27, 2 ^ 28], 4⟩ ∨ b = ⟨![2 ^ 30 - 2 ^ 27, 0], 4⟩ := by
        rcases List.mem_cons.mp h with h | h
        · exact Or.inl h
        rcases List.mem_cons.mp h with h | h
        · exact Or.inr h
        · exact Or.inl (List.mem_singleton.mp h)
      rcases h with h | h
      · exact ⟨_, by rw [hl]; exact List.mem_cons_self, _, _, e2.1, _, List.mem_singleton_self _, by rw [f1]; exact h⟩
      · exact ⟨_, by rw [hl]; exact List.mem_cons_of_mem _ (List.mem_singleton_self _), _, _, e2.2, _,
          List.mem_singleton_self _, by rw [f2]; exact h⟩
    · rintro ⟨q, hq, o, ss, h1, u, hu, rfl⟩
      rw [hl] at hq
      rcases List.mem_cons.mp hq with hq | hq
      · subst hq
        rw [e2.1] at h1
        injection h1 with h1
        injection h1 with h1 h3
        subst h3
        rw [List.mem_singleton.mp hu, f1]
        exact List.mem_cons_self
      · have hq := List.mem_singleton.mp hq
        subst hq
        rw [e2.2] at h1
        injection h1 with h1
        injection h1 with h1 h3
        subst h3
        rw [List.mem_singleton.mp hu, f2]
        exact List.mem_cons_of_mem _ List.mem_cons_self

end P4est
