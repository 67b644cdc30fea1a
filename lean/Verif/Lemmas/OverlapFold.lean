import Verif.Lemmas.OverlapSearch
import Verif.Props.BalanceSeeds
import Mathlib.Data.Fintype.Pi
import Mathlib.Data.Fintype.BigOperators

/-! # The loop over the insulation layer -/

namespace P4est
open Spec

variable {d : ℕ} {k : ℕ}

/-- The point of the parent of a quadrant in the insulation layer. -/
theorem parent_point {inq x : Quad d} (hq : Aligned inq) (hx : Aligned x) (hlev : x.level + 1 < inq.level) {w : ℕ}
    (h : Cells (insulQuad inq w) ⊆ Cells x) :
    (fun i => 2 * qlen inq.level * ((inq.c i / qlen inq.level + insulOff d w i) / 2)) ∈ Cells x := by
  intro i
  have h1 := h (corner_mem _) i
  have hp : 0 < qlen inq.level := side_pos inq
  have h30 := hq.1
  have e1 : side x = qlen inq.level * 2 * 2 ^ (inq.level - x.level - 1) := by
    show qlen x.level = _
    rw [qlen_mul (show x.level ≤ inq.level by omega) h30, mul_assoc, ← pow_succ', show inq.level - x.level - 1 + 1 = inq.level - x.level by omega]
  obtain ⟨m, hm⟩ := hx.2 i
  obtain ⟨n, hn⟩ := hq.2 i
  have e2 : side inq = qlen inq.level := rfl
  rw [e2] at hn
  rw [insulQuad_c] at h1
  have hdiv : inq.c i / qlen inq.level = n := by rw [hn, Int.mul_ediv_cancel_left _ hp.ne']
  show x.c i ≤ 2 * qlen inq.level * ((inq.c i / qlen inq.level + insulOff d w i) / 2) ∧
    2 * qlen inq.level * ((inq.c i / qlen inq.level + insulOff d w i) / 2) < x.c i + side x
  rw [hdiv]
  rw [hn] at h1
  set o := insulOff d w i
  set A := qlen inq.level
  set B : ℤ := 2 ^ (inq.level - x.level - 1) with hB
  have hBp : 0 < B := by positivity
  rw [e1] at hm h1
  rw [hm] at h1
  rw [hm, e1]
  have h2 : A * 2 * B * m ≤ A * (n + o) ∧ A * (n + o) < A * 2 * B * m + A * 2 * B := by
    constructor <;> nlinarith
  have h3 : 2 * (B * m) ≤ n + o := by
    have : A * (2 * (B * m)) ≤ A * (n + o) := by nlinarith
    exact le_of_mul_le_mul_left this hp
  have h4 : n + o < 2 * (B * m + B) := by
    have : A * (n + o) < A * (2 * (B * m + B)) := by nlinarith
    exact lt_of_mul_lt_mul_left this hp.le
  have h5 : B * m ≤ (n + o) / 2 := by omega
  have h6 : (n + o) / 2 < B * m + B := by omega
  show A * 2 * B * m ≤ 2 * A * ((n + o) / 2) ∧ 2 * A * ((n + o) / 2) < A * 2 * B * m + A * 2 * B
  constructor
  · have := mul_le_mul_of_nonneg_left h5 (show 0 ≤ 2 * A by omega)
    nlinarith
  · have := mul_lt_mul_of_pos_left h6 (show 0 < 2 * A by omega)
    nlinarith

theorem nodup_of_linear {L : List (Quad d)} (h : Linear L) : L.Nodup := by
  refine List.Pairwise.imp (fun {a b} hab => ?_) h
  rintro rfl
  exact hab.1.asymm hab.1

/-- At most 2^d leaves contain a quadrant of the insulation layer strictly and are two levels coarser. -/
theorem neigh_bound {inq : Quad d} {L : List (Quad d)} (hq : Aligned inq) (hv : ∀ x ∈ L, Valid x) (hlin : Linear L)
    {N : List ℕ} (hN : N.Nodup) (h : ∀ j ∈ N, ∃ hj : j < L.length, L[j].level + 1 < inq.level ∧
      ∃ w, Cells (insulQuad inq w) ⊆ Cells L[j]) : N.length ≤ 2 ^ d := by
  classical
  have h' : ∀ j ∈ N, ∃ w, ∃ hj : j < L.length, L[j].level + 1 < inq.level ∧ Cells (insulQuad inq w) ⊆ Cells L[j] := by
    intro j hj
    obtain ⟨a, b, w, c⟩ := h j hj
    exact ⟨w, a, b, c⟩
  choose! W hW using h'
  let g : ℕ → (Fin d → Bool) := fun j i =>
    decide ((inq.c i / qlen inq.level + insulOff d (W j) i) / 2 = (inq.c i / qlen inq.level - 1) / 2)
  have hcard : N.toFinset.card ≤ (Finset.univ : Finset (Fin d → Bool)).card := by
    refine Finset.card_le_card_of_injOn g (fun j _ => Finset.mem_univ _) ?_
    intro j hj j' hj' hgg
    have hj := List.mem_toFinset.mp hj
    have hj' := List.mem_toFinset.mp hj'
    obtain ⟨a, b, c⟩ := hW j hj
    obtain ⟨a', b', c'⟩ := hW j' hj'
    have p := parent_point hq (hv _ (List.getElem_mem a)).aligned b c
    have p' := parent_point hq (hv _ (List.getElem_mem a')).aligned b' c'
    have hpp : (fun i => 2 * qlen inq.level * ((inq.c i / qlen inq.level + insulOff d (W j) i) / 2)) =
        (fun i => 2 * qlen inq.level * ((inq.c i / qlen inq.level + insulOff d (W j') i) / 2)) := by
      funext i
      have h1 : decide _ = decide _ := congrFun hgg i
      rw [decide_eq_decide] at h1
      congr 1
      rcases insulOff_cases (W j) i with e | e | e <;> rcases insulOff_cases (W j') i with e' | e' | e' <;>
        rw [e, e'] at h1 <;> rw [e, e'] <;> omega
    rw [← hpp] at p'
    have := linear_eq_of_meet hlin (List.getElem_mem a) (List.getElem_mem a') ⟨_, p, p'⟩
    exact (List.Nodup.getElem_inj_iff (nodup_of_linear hlin)).mp this
  rw [List.toFinset_card_of_nodup hN] at hcard
  simpa using hcard

/-- What the loop has collected after the quadrants `ws` of the insulation layer. -/
structure Collected (k : ℕ) (inq : Quad d) (L : List (Quad d)) (ws : List ℕ) (st : OverlapSt d) : Prop where
  nodup : st.neigh.Nodup
  neigh : ∀ j, j ∈ st.neigh ↔ ∃ hj : j < L.length, L[j].level + 1 < inq.level ∧
    ∃ w ∈ ws, w ≠ 3 ^ d / 2 ∧ Cells (insulQuad inq w) ⊆ Cells L[j]
  inseeds : ∀ u, u ∈ st.inseeds ↔ ∃ j ∈ st.neigh, ∃ hj : j < L.length, ∃ ss,
    balanceSeeds inq L[j] k true = some (true, ss) ∧ u ∈ ss
  sound : ∀ u ∈ st.seeds, ∃ tq ∈ L, ∃ w ∈ ws, w ≠ 3 ^ d / 2 ∧ Cells tq ⊆ Cells (insulQuad inq w) ∧ Acts k inq tq ∧
    u ∈ (seedsOutside tq inq k).2
  complete : ∀ tq ∈ L, ∀ w ∈ ws, w ≠ 3 ^ d / 2 → Cells tq ⊆ Cells (insulQuad inq w) → Acts k inq tq →
    ∀ u ∈ (seedsOutside tq inq k).2, ∃ u' ∈ st.seeds, Cells u' ⊆ Cells u

/-- Nothing changes when the quadrant has no effect. -/
theorem Collected.same {inq : Quad d} {L : List (Quad d)} {ws : List ℕ} {st : OverlapSt d} {w : ℕ}
    (h : Collected k inq L ws st)
    (h1 : w ≠ 3 ^ d / 2 → ∀ j (hj : j < L.length), L[j].level + 1 < inq.level → Cells (insulQuad inq w) ⊆ Cells L[j] →
      j ∈ st.neigh)
    (h2 : w ≠ 3 ^ d / 2 → ∀ x ∈ L, Cells x ⊆ Cells (insulQuad inq w) → ¬ Acts k inq x) :
    Collected k inq L (ws ++ [w]) st where
  nodup := h.nodup
  neigh := by
    intro j
    constructor
    · intro hj
      obtain ⟨a, b, w', hw', c, e⟩ := (h.neigh j).mp hj
      exact ⟨a, b, w', List.mem_append_left _ hw', c, e⟩
    · rintro ⟨a, b, w', hw', c, e⟩
      rcases List.mem_append.mp hw' with hw' | hw'
      · exact (h.neigh j).mpr ⟨a, b, w', hw', c, e⟩
      · rw [List.mem_singleton] at hw'
        subst hw'
        exact h1 c j a b e
  inseeds := h.inseeds
  sound := by
    intro u hu
    obtain ⟨tq, a, w', hw', b⟩ := h.sound u hu
    exact ⟨tq, a, w', List.mem_append_left _ hw', b⟩
  complete := by
    intro tq htq w' hw' hm hsub hact
    rcases List.mem_append.mp hw' with hw' | hw'
    · exact h.complete tq htq w' hw' hm hsub hact
    · rw [List.mem_singleton] at hw'
      subst hw'
      exact absurd hact (h2 hm tq htq hsub)

theorem collected_step (hdim : d = 2 ∨ d = 3) (hk1 : 1 ≤ k) (hkd : k ≤ d) {f l inq : Quad d} {L : List (Quad d)}
    (hf : Valid f) (hl : Valid l) (hf29 : f.level = 29) (hl29 : l.level = 29) (hq : Aligned inq)
    (hq29 : inq.level ≤ 29) (hL : LeavesFor f l inq L) (hret : ∀ x ∈ L, ∃ r, balanceSeeds inq x k true = some r)
    {ws : List ℕ} {st : OverlapSt d} (h : Collected k inq L ws st) {w : ℕ} (hw : w < 3 ^ d) :
    ∃ st', overlapWhich k L f l inq st w = some st' ∧ Collected k inq L (ws ++ [w]) st' := by
  by_cases hm : w = 3 ^ d / 2
  · refine ⟨st, by unfold overlapWhich; simp [hm], h.same (fun hc => absurd hm hc) (fun hc => absurd hm hc)⟩
  have hdup := nodup_of_linear hL.linear
  rcases which_spec (k := k) hdim hf hl hf29 hl29 hq hq29 hL hw hm st with ⟨e, h1, h2⟩ | ⟨T, e, h1, h2⟩ | ⟨j, hj, e, h1, h2⟩
  · exact ⟨st, e, h.same (fun _ j hj _ hc => absurd hc (h1 _ (List.getElem_mem hj)))
      (fun _ x hx hc => absurd hc (h2 x hx))⟩
  · refine ⟨_, e, ?_⟩
    have hT : ∀ x ∈ T, Aligned x ∧ Cells x ⊆ Cells (insulQuad inq w) := fun x hx =>
      ⟨(hL.valid x ((h1 x).mp hx).1).aligned, ((h1 x).mp hx).2⟩
    obtain ⟨s1, s2, s3⟩ := scan_spec hdim hk1 hkd hq hw hm T hT st.seeds
    have hneigh : ∀ j, j ∈ st.neigh ↔ ∃ hj : j < L.length, L[j].level + 1 < inq.level ∧
        ∃ w' ∈ ws ++ [w], w' ≠ 3 ^ d / 2 ∧ Cells (insulQuad inq w') ⊆ Cells L[j] := by
      intro j
      constructor
      · intro hj
        obtain ⟨a, b, w', hw', c, e⟩ := (h.neigh j).mp hj
        exact ⟨a, b, w', List.mem_append_left _ hw', c, e⟩
      · rintro ⟨a, b, w', hw', c, e'⟩
        rcases List.mem_append.mp hw' with hw' | hw'
        · exact (h.neigh j).mpr ⟨a, b, w', hw', c, e'⟩
        · rw [List.mem_singleton] at hw'
          subst hw'
          have := h2 _ (List.getElem_mem a) e'
          omega
    refine ⟨h.nodup, hneigh, h.inseeds, ?_, ?_⟩
    · intro u hu
      rcases s1 u hu with h3 | ⟨tq, htq, h4, h5⟩
      · obtain ⟨tq, a, w', hw', b⟩ := h.sound u h3
        exact ⟨tq, a, w', List.mem_append_left _ hw', b⟩
      · exact ⟨tq, ((h1 tq).mp htq).1, w, List.mem_append_right _ (List.mem_singleton_self w), hm,
          ((h1 tq).mp htq).2, h4, h5⟩
    · intro tq htq w' hw' hm' hsub hact u hu
      rcases List.mem_append.mp hw' with hw' | hw'
      · obtain ⟨u', h3, h4⟩ := h.complete tq htq w' hw' hm' hsub hact u hu
        exact ⟨u', s2 u' h3, h4⟩
      · rw [List.mem_singleton] at hw'
        subst hw'
        exact s3 tq ((h1 tq).mpr ⟨htq, hsub⟩) hact u hu
  · have hact : ∀ x ∈ L, Cells x ⊆ Cells (insulQuad inq w) → ¬ Acts k inq x := by
      intro x hx hsub hact
      have := h2 x hx hsub
      have := hact.1
      omega
    have huniq : ∀ j' (hj' : j' < L.length), Cells (insulQuad inq w) ⊆ Cells L[j'] → j' = j := by
      intro j' hj' hs
      have := linear_eq_of_meet hL.linear (List.getElem_mem hj') (List.getElem_mem hj)
        ⟨_, hs (corner_mem _), h1 (corner_mem _)⟩
      exact (List.Nodup.getElem_inj_iff hdup).mp this
    rw [e]
    unfold overlapCoarse
    by_cases hc : L[j].level + 1 < inq.level ∧ j ∉ st.neigh
    swap
    · rw [if_neg hc]
      refine ⟨st, rfl, h.same (fun _ j' hj' hlev hs => ?_) (fun _ => hact)⟩
      have := huniq j' hj' hs
      subst this
      by_contra hn
      exact hc ⟨hlev, hn⟩
    · rw [if_pos hc]
      obtain ⟨r, hr⟩ := hret _ (List.getElem_mem hj)
      have hnd : (st.neigh ++ [j]).Nodup := by
        rw [List.nodup_append]
        refine ⟨h.nodup, List.nodup_singleton j, fun a ha b hb => ?_⟩
        rw [List.mem_singleton] at hb
        subst hb
        rintro rfl
        exact hc.2 ha
      have hneigh : ∀ j', j' ∈ st.neigh ++ [j] ↔ ∃ hj' : j' < L.length, L[j'].level + 1 < inq.level ∧
          ∃ w' ∈ ws ++ [w], w' ≠ 3 ^ d / 2 ∧ Cells (insulQuad inq w') ⊆ Cells L[j'] := by
        intro j'
        rw [List.mem_append, List.mem_singleton]
        constructor
        · rintro (hj' | rfl)
          · obtain ⟨a, b, w', hw', c, e⟩ := (h.neigh j').mp hj'
            exact ⟨a, b, w', List.mem_append_left _ hw', c, e⟩
          · exact ⟨hj, hc.1, w, List.mem_append_right _ (List.mem_singleton_self w), hm, h1⟩
        · rintro ⟨a, b, w', hw', c, e'⟩
          rcases List.mem_append.mp hw' with hw' | hw'
          · exact Or.inl ((h.neigh j').mpr ⟨a, b, w', hw', c, e'⟩)
          · rw [List.mem_singleton] at hw'
            subst hw'
            exact Or.inr (huniq j' a e')
      have hb : st.neigh.length < 2 ^ d := by
        have := neigh_bound hq hL.valid hL.linear hnd (fun j' hj' => by
          obtain ⟨a, b, w', _, _, e⟩ := (hneigh j').mp hj'
          exact ⟨a, b, w', e⟩)
        rw [List.length_append, List.length_singleton] at this
        omega
      simp only [hr, Option.bind_eq_bind, Option.bind_some, if_pos hb]
      refine ⟨_, rfl, hnd, hneigh, ?_, ?_, ?_⟩
      · intro u
        have hold : (u ∈ st.inseeds ∨ (r.1 = true ∧ u ∈ r.2)) ↔ ∃ j' ∈ st.neigh ++ [j], ∃ hj' : j' < L.length, ∃ ss,
            balanceSeeds inq L[j'] k true = some (true, ss) ∧ u ∈ ss := by
          constructor
          · rintro (hu | ⟨h3, h4⟩)
            · obtain ⟨j', a, b⟩ := (h.inseeds u).mp hu
              exact ⟨j', List.mem_append_left _ a, b⟩
            · refine ⟨j, List.mem_append_right _ (List.mem_singleton_self j), hj, r.2, ?_, h4⟩
              rw [hr, ← h3]
          · rintro ⟨j', a, hj', ss, h3, h4⟩
            rcases List.mem_append.mp a with a | a
            · exact Or.inl ((h.inseeds u).mpr ⟨j', a, hj', ss, h3, h4⟩)
            · rw [List.mem_singleton] at a
              subst a
              rw [hr] at h3
              have h5 := Option.some.inj h3
              right
              rw [h5]
              exact ⟨rfl, h4⟩
        rw [← hold]
        by_cases h3 : r.1 = true
        · simp [h3]
        · simp [h3]
      · intro u hu
        obtain ⟨tq, a, w', hw', b⟩ := h.sound u hu
        exact ⟨tq, a, w', List.mem_append_left _ hw', b⟩
      · intro tq htq w' hw' hm' hsub hact'
        rcases List.mem_append.mp hw' with hw' | hw'
        · exact h.complete tq htq w' hw' hm' hsub hact'
        · rw [List.mem_singleton] at hw'
          subst hw'
          exact absurd hact' (hact tq htq hsub)

theorem collected_all (hdim : d = 2 ∨ d = 3) (hk1 : 1 ≤ k) (hkd : k ≤ d) {f l inq : Quad d} {L : List (Quad d)}
    (hf : Valid f) (hl : Valid l) (hf29 : f.level = 29) (hl29 : l.level = 29) (hq : Aligned inq)
    (hq29 : inq.level ≤ 29) (hL : LeavesFor f l inq L) (hret : ∀ x ∈ L, ∃ r, balanceSeeds inq x k true = some r) :
    ∃ st, overlapQuad k L f l inq = some st ∧ Collected k inq L (List.range (3 ^ d)) st := by
  have hgen : ∀ n ≤ 3 ^ d, ∃ st, (List.range n).foldlM (overlapWhich k L f l inq) ⟨[], [], []⟩ = some st ∧
      Collected k inq L (List.range n) st := by
    intro n
    induction n with
    | zero =>
      intro _
      exact ⟨_, rfl, by simp, by simp, by simp, by simp, by simp⟩
    | succ n ih =>
      intro hn
      obtain ⟨st, e, hst⟩ := ih (by omega)
      obtain ⟨st', e', hst'⟩ := collected_step hdim hk1 hkd hf hl hf29 hl29 hq hq29 hL hret hst (show n < 3 ^ d by omega)
      rw [List.range_succ]
      refine ⟨st', ?_, hst'⟩
      rw [List.foldlM_append, e]
      simp only [List.foldlM_cons, List.foldlM_nil, Option.bind_eq_bind, Option.bind_some, e']
      rfl
  exact hgen _ le_rfl

end P4est
