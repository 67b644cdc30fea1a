import Verif.Props.BalanceBorder

/-! # C95: the first pass of balance, seen from the whole tree -/

namespace P4est
open Spec

variable {d : ℕ} {α σ : Type} {k : ℕ}

theorem wholeTrees_root : WholeTrees (d := d) (fun _ => 0) (fun _ => 2 ^ 30) :=
  fun _ => ⟨dvd_zero _, dvd_rfl⟩

theorem valid_treeBox {q : Quad d} (hq : Valid q) : Cells q ⊆ TreeBox d := by
  unfold TreeBox
  rw [cells_sub_box]
  intro i
  have h1 := hq.2.2 i
  have h2 := hq.2.1.2 i
  have h3 : side q ∣ (2 : ℤ) ^ 30 := by
    have : side q = 2 ^ (30 - q.level) := rfl
    rw [this]
    exact pow_dvd_pow _ (by omega)
  refine ⟨h1.1, ?_⟩
  have h4 : side q ∣ (2 : ℤ) ^ 30 - q.c i := dvd_sub h3 h2
  have h5 : q.c i < 2 ^ 30 := h1.2
  have := Int.le_of_dvd (by omega) h4
  omega

theorem valid_of_treeBox {q : Quad d} (hq : Aligned q) (h29 : q.level ≤ 29) (h : Cells q ⊆ TreeBox d) : Valid q :=
  ⟨h29, hq, fun i => h (corner_mem q) i⟩

/-- What a set divides in the trees, in numbers. -/
theorem divides_set (hd : 0 < d) {lo hi : Fin d → ℤ} (hw : WholeTrees lo hi) {S : Set (Quad d)}
    (hS : ∀ s ∈ S, Aligned s ∧ s.level ≤ 29 ∧ Cells s ⊆ BoxOf lo hi) {r : Quad d} (hr : Aligned r)
    (hr29 : r.level ≤ 29) (hrb : Cells r ⊆ BoxOf lo hi) :
    Divides (BoxOf lo hi) k S r ↔ ∃ s ∈ S, Forces k s r := by
  have hD := dom_trees hw
  have hS' : ∀ s ∈ S, SplitSource 0 lo hi s :=
    fun s hs => ⟨(hS s hs).1, (hS s hs).2.1, fun h => Nat.pos_of_ne_zero h, (hS s hs).2.2⟩
  rw [divides_iff hd hD hS' hr hr29 hrb]
  constructor
  · intro h
    obtain ⟨s, hs, h1⟩ := split_exists h
    exact ⟨s, hs, (split_forces hD (hS' s hs) hr (Nat.zero_le _) hrb).mp h1⟩
  · rintro ⟨s, hs, h⟩
    exact split_mono (S := {s}) (by simpa using hs) ((split_forces hD (hS' s hs) hr (Nat.zero_le _) hrb).mpr h)

theorem divides_treeBox (hd : 0 < d) {S : Set (Quad d)} (hS : ∀ s ∈ S, Valid s) {r : Quad d} (hr : Valid r) :
    Divides (TreeBox d) k S r ↔ ∃ s ∈ S, Forces k s r :=
  divides_set hd wholeTrees_root (fun s hs => ⟨(hS s hs).aligned, (hS s hs).1, valid_treeBox (hS s hs)⟩) hr.aligned hr.1
    (valid_treeBox hr)

/-- A quadrant divides what it is properly inside of. -/
theorem divides_around {D : Set (Fin d → ℤ)} {S : Set (Quad d)} {y r : Quad d} (hy : y ∈ S) (h : Cells y ⊂ Cells r) :
    Divides D k S r :=
  fun _ _ _ hf u hu hc => hf y hy u hu (lt_of_lt_of_le h hc)

theorem path_paves (hd : 0 < d) {dom : Quad d} {out : List (Quad d)} (hdom : Valid dom)
    (h : Path (start dom) out (stop dom)) (hv : ∀ u ∈ out, Valid u) : Paves (Cells dom) {u | u ∈ out} where
  legal u hu := ⟨(hv u hu).aligned, (hv u hu).1⟩
  disjoint u hu v hv' hm := by
    have hl : Linear out := h.gapless.linear fun q hq => (hv q hq).extended
    exact linear_eq hl hu hv' hm
  cover x := by
    have he : ∀ q ∈ out, Aligned q ∧ Int32 q.c := fun q hq => ⟨(hv q hq).aligned, (hv q hq).int32⟩
    constructor
    · intro hx
      have hx32 := aligned_int32_cells hdom.aligned hdom.int32 hx
      have := (mem_cells_iff_curve hdom.aligned hdom.int32 hx32).mp hx
      exact (h.cover he hx32).mpr ⟨this.1, by rw [stop_eq]; exact this.2⟩
    · rintro ⟨u, hu, hx⟩
      have h1 := h.mem hu
      exact (valid_subset_iff hd hdom (hv u hu)).mpr h1 hx

/-- **C95.** The first pass of balance, which each process does for itself, already takes into account everything
that its own leaves require, even where it acts by way of leaves of other processes: a quadrant in its part of the
tree is inside of a leaf of the result exactly if it is not divided, in every balanced mesh of the whole tree that is
as fine as the given leaves. -/
theorem C95_first_pass (hdim : d = 2 ∨ d = 3) {bs : (Quad d → ℤ) → List (Quad d) → Option ℕ} (hbs : Finds bs)
    (init : Quad d → σ → α × σ) (k : ℕ) (hk : 1 ≤ k) (hkd : k ≤ d) (fdesc ldesc : Quad d)
    (hf : Valid fdesc) (hf9 : fdesc.level = 29) (hl : Valid ldesc) (hl9 : ldesc.level = 29)
    (t : Tree d α) (s : σ) (hne : quadsOf t ≠ []) (hT : Tiles fdesc ldesc (quadsOf t)) :
    ∃ t' s' fr, balanceSubtree bs init k fdesc ldesc t s = some (t', s', fr) ∧ Tiles fdesc ldesc (quadsOf t') ∧
      ∀ r, Valid r → Cells r ⊆ Section fdesc ldesc →
        ((∃ u ∈ quadsOf t', Cells r ⊆ Cells u) ↔ ¬ Divides (TreeBox d) k {y | y ∈ quadsOf t} r) := by
  have hd : 0 < d := by omega
  have hv := hT.valid
  have hin : ∀ q ∈ quadsOf t, Cells q ⊆ Section fdesc ldesc := fun q hq => by
    rw [← hT.cover]
    exact fun p hp => ⟨q, hq, hp⟩
  have hw : ∀ q ∈ quadsOf t, start fdesc ≤ start q ∧ stop q ≤ stop ldesc := fun q hq =>
    (section_iff hd (hv q hq)).mp (hin q hq)
  obtain ⟨q0, hq0⟩ := List.exists_mem_of_ne_nil _ hne
  have hlt : start fdesc ≤ stop ldesc := by
    have := hw q0 hq0
    have := start_lt_stop q0
    omega
  obtain ⟨bound, hb⟩ : ∃ bound, balanceBound d k = some bound := by
    unfold balanceBound
    split_ifs <;> first | exact ⟨_, rfl⟩ | omega
  -- the second half
  have half : ∀ {out : List (Quad d)}, Tiles fdesc ldesc out →
      (∀ u ∈ out, u ∈ quadsOf t ∨ (0 < u.level ∧ Divides (TreeBox d) k {y | y ∈ quadsOf t} (parent u))) →
      ∀ r, Valid r → Cells r ⊆ Section fdesc ldesc → ¬ Divides (TreeBox d) k {y | y ∈ quadsOf t} r →
      ∃ u ∈ out, Cells r ⊆ Cells u := by
    intro out hO hor r hr hrs hnd
    obtain ⟨u, hu, hm⟩ : r.c ∈ Cover out := by rw [hO.cover]; exact hrs (corner_mem r)
    refine ⟨u, hu, ?_⟩
    have huv := hO.valid u hu
    rcases laminar hr.aligned huv.aligned ⟨r.c, corner_mem r, hm⟩ with h1 | h1
    · by_contra hc
      have hss : Cells u ⊂ Cells r := ⟨h1, hc⟩
      rcases hor u hu with h2 | ⟨h2, h3⟩
      · exact hnd (divides_around h2 hss)
      · exact hnd (divides_outer (parent_cells hd hr huv ((isAncestor_iff hd hr.aligned huv.aligned).mpr hss)) h3)
    · exact h1
  rcases subtree_cases hd hf hf9 hl hl9 hne hv hT.linear hin with ⟨h1, h2⟩ | h
  · refine ⟨t, s, _, completeOrBalance_single hb h1, hT, fun r hr hrs => ⟨?_, ?_⟩⟩
    · rintro ⟨u, hu, hru⟩ hdv
      obtain ⟨y, hy, m, hm, -⟩ := (divides_treeBox hd (S := {y | y ∈ quadsOf t}) hv hr).mp hdv
      have hyu : y = u := by
        have hy' : y ∈ quadsOf t := hy
        rw [h1, List.mem_singleton] at hu hy'
        rw [hu, hy']
      subst hyu
      have := ((cells_subset_iff hd (hv y hu).aligned hr.aligned).mp hru).1
      omega
    · exact half hT (fun u hu => Or.inl hu) r hr hrs
  · obtain ⟨R, hR, hrun⟩ := completeOrBalance_run (bs := bs) (init := init) (s := s) hd hb h
    obtain ⟨out, k1, k2, k3, k4, k5, k6, C1, C2, k9⟩ := kernel_balance hdim hbs hk hb h hR ((tiles_iff hd hf hl hlt hv).mp hT)
    obtain ⟨st, m1, m2, m3, m4, m5⟩ := merge_tree hd init (s := s) hne k2 k3 hv hw (linear_stops hv hT.linear) k4
    have hq : quadsOf (⟨t.quads.ofList st.leaves, st.perLevel, st.maxlevel, t.offset⟩ : Tree d α) = out := by
      unfold quadsOf
      rw [ofList_toList, m4]
    have hTo : Tiles fdesc ldesc out := (tiles_iff hd hf hl hlt k3).mpr k2
    obtain ⟨hdom, -⟩ := h.domv hd
    obtain ⟨r1, hr1, -⟩ := hR.covers q0 hq0
    obtain ⟨out', o1, o2, o3, o4, o5, o6, o7⟩ := kernel_border hdim hbs hk hb hdom hR.sorted hR.fam (List.ne_nil_of_mem hr1)
    have hins : ∀ y ∈ quadsOf t, Cells y ⊂ Cells (nca fdesc ldesc) := fun y hy =>
      (isAncestor_iff hd hdom.aligned (hv y hy).aligned).mp (h.inside hd y hy)
    have hlev : ∀ y ∈ quadsOf t, (nca fdesc ldesc).level < y.level := fun y hy =>
      ((valid_ssubset_iff hd hdom (hv y hy)).mp (hins y hy)).1
    have hS : ∀ y ∈ {y | y ∈ quadsOf t}, Aligned y ∧ y.level ≤ 29 ∧ (nca fdesc ldesc).level < y.level ∧
        Cells y ⊆ Cells (nca fdesc ldesc) := fun y hy => ⟨(hv y hy).aligned, (hv y hy).1, hlev y hy, (hins y hy).1⟩
    refine ⟨_, _, _, hrun out st k1 m1, by rw [hq]; exact hTo, fun r hr hrs => ?_⟩
    rw [hq]
    constructor
    · rintro ⟨u, hu, hru⟩ hdv
      have huv := k3 u hu
      have hud := ((isAncestor_iff hd hdom.aligned huv.aligned).mp (k9 u hu)).1
      rw [divides_treeBox hd (S := {y | y ∈ quadsOf t}) hv hr,
        ← divides_inside hd hdom.aligned hdom.1 hS hr.aligned hr.1 (hru.trans hud)] at hdv
      have hP := path_paves hd hdom o2 (fun v hv => (o3 v hv).1)
      have hno := hdv {v | v ∈ out'} hP (fun a ha b hb => o5 a ha b hb) (by
        intro y hy v hv' hss
        have hvv := (o3 v hv').1
        have hyv := hv y hy
        obtain ⟨e, he, h2⟩ := hR.entry hd h hvv hy ((isAncestor_iff hd hvv.aligned hyv.aligned).mpr hss)
        exact o4 e he v hv' (parent_cells hd hvv (hR.fam e he).valid h2))
      obtain ⟨v, hvo, hm⟩ := (hP.cover r.c).mp (hud (hru (corner_mem r)))
      have hvv := (o3 v hvo).1
      rcases laminar hvv.aligned hr.aligned ⟨r.c, hm, corner_mem r⟩ with h2 | h2
      · exact hno v hvo h2
      · by_cases hc : Cells r ⊆ Cells v
        · exact hno v hvo hc
        have hvu : Cells v ⊂ Cells u := lt_of_lt_of_le (show Cells v ⊂ Cells r from ⟨h2, hc⟩) hru
        have hpv := parent_cells hd huv hvv ((isAncestor_iff hd huv.aligned hvv.aligned).mpr hvu)
        have hvl := ((valid_ssubset_iff hd huv hvv).mp hvu).1
        rcases o7 v hvo with h3 | ⟨e, he, h3⟩
        · rw [h3] at hpv
          exact C1 r1 (Need.seed hr1) u hu ((parent_cells hd hdom (hR.fam r1 hr1).valid (hR.fam r1 hr1).inside).trans hpv)
        · exact C1 e he u hu ((parent_cells hd (parent_valid hvv (by omega)) (he.fam hd hdom hR.fam).valid h3).trans hpv)
    · refine half hTo (fun u hu => Or.inr ?_) r hr hrs
      have huv := k3 u hu
      have hul := ((valid_ssubset_iff hd hdom huv).mp ((isAncestor_iff hd hdom.aligned huv.aligned).mp (k9 u hu))).1
      refine ⟨by omega, ?_⟩
      have hup := parent_valid huv (by omega)
      rcases C2 u hu with h3 | ⟨e, he, h3⟩
      · rw [h3]
        exact divides_around hq0 (hins q0 hq0)
      · rw [divides_treeBox hd (S := {y | y ∈ quadsOf t}) hv hup,
          ← divides_inside hd hdom.aligned hdom.1 hS hup.aligned hup.1 (parent_cells hd hdom huv (k9 u hu))]
        intro U hU hG hfine v hvU hsub
        refine he.minimalIn hd hdom (fun sid hs => shift_card hdim hb hs) hR.fam hU hG ?_ v hvU
          ((parent_cells hd hup (he.fam hd hdom hR.fam).valid h3).trans hsub)
        intro e' he' w hw' hsub'
        obtain ⟨p, hp, q1, -, -⟩ := hR.leaf hd h he'
        rw [q1] at hsub'
        have hpl := hlev p hp
        have hpp := parent_valid (hv p hp) (by omega)
        exact hfine p hp w hw' (((isAncestor_iff hd hpp.aligned (hv p hp).aligned).mp
          (isAncestor_parent hd (hv p hp) (by omega))).trans_subset hsub')

/-- Beside C95: the part of a tree with the leaves in the first child of the root. -/
def sevenTree : Tree 2 Unit :=
  let l := [child (child (root 2) 0) 0, child (child (root 2) 0) 1, child (child (root 2) 0) 2] ++
    (List.range 4).map (child (child (child (root 2) 0) 3))
  ⟨⟨fun i => ⟨(l[i]?).getD (root 2), ()⟩, 7⟩, fun l => if l = 2 then 3 else if l = 3 then 4 else 0, 3, 0⟩

theorem sevenTree_quads : quadsOf sevenTree =
    [child (child (root 2) 0) 0, child (child (root 2) 0) 1, child (child (root 2) 0) 2] ++
    (List.range 4).map (child (child (child (root 2) 0) 3)) := rfl

theorem sevenTree_tiles : Tiles (firstDesc (root 2) 29) (lastDesc (child (root 2) 0) 29) (quadsOf sevenTree) := by
  have hv : ∀ q ∈ quadsOf sevenTree, Valid q := by
    intro q hq
    rw [← isValid_iff]
    revert q
    rw [sevenTree_quads]
    decide +kernel
  refine (tiles_iff (by decide) (by rw [← isValid_iff]; decide +kernel) (by rw [← isValid_iff]; decide +kernel)
    (by decide +kernel) hv).mpr ?_
  rw [sevenTree_quads]
  have e : List.range 4 = [0, 1, 2, 3] := rfl
  rw [e]
  simp only [List.map_cons, List.map_nil, List.cons_append, List.nil_append, Path]
  decide +kernel

/-- The hypotheses of C95 hold of the example. -/
example : Valid (firstDesc (root 2) 29) ∧ (firstDesc (root 2) 29).level = 29 ∧ Valid (lastDesc (child (root 2) 0) 29) ∧
    (lastDesc (child (root 2) 0) 29).level = 29 ∧ quadsOf sevenTree ≠ [] ∧
    Tiles (firstDesc (root 2) 29) (lastDesc (child (root 2) 0) 29) (quadsOf sevenTree) ∧
    Finds (d := 2) fun f l => l.findIdx? fun q => f q = 0 := by
  refine ⟨by rw [← isValid_iff]; decide +kernel, rfl, by rw [← isValid_iff]; decide +kernel, rfl, ?_, sevenTree_tiles,
    findIdx_finds⟩
  intro h
  exact absurd (congrArg List.length h) (by decide +kernel)

end P4est
