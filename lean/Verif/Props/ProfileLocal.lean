import Verif.Lemmas.ProfileTurns

/-! # C55: balance of the layers in several columns -/

namespace P4est
open Spec

/-- The first columns of the run, and the outcome. -/
private theorem run {m : ProfileMesh} {nodes : ℕ} {layers : ℕ → List ℕ} (hL : LayerSetup m nodes layers) {turns : ℕ}
    {c : ℕ → List ℕ} (h : balanceLayers m layers turns = some c) :
    ∃ s s', profileNewLocal m layers = some s ∧ balanceTurns m turns s = some s' ∧
      c = fun e => s'.prof (m.en e 4) := by
  obtain ⟨s, h1, _⟩ := newLocal_base hL
  unfold balanceLayers at h
  rw [obind h1] at h
  cases h2 : balanceTurns m turns s with
  | none => rw [h2] at h; exact absurd h (by simp)
  | some s' =>
    rw [obind h2] at h
    exact ⟨s, s', h1, h2, (Option.some.inj h).symm⟩

/-- C55: the balance of the layers ends.  Every column is then a refinement of the given one and is balanced in
itself, and it is nowhere finer than in any balanced refinement of all columns.  What is missing is that columns
with a common node are balanced, see `C55_layers_not_balanced`. -/
theorem C55_layers_partial {m : ProfileMesh} {nodes : ℕ} {layers : ℕ → List ℕ} (hL : LayerSetup m nodes layers) :
    ∃ N c, (∀ turns, N ≤ turns → balanceLayers m layers turns = some c) ∧
      ∀ e < m.num, Column 0 (c e) (2 ^ 30 - m.diff) ∧ Finer (layers e) (c e) ∧ Graded (c e) ∧
        ∀ c', BalancedLayers m.num (2 ^ 30 - m.diff) (touching m) layers c' → Finer (c e) (c' e) := by
  obtain ⟨s, h1, h2, h3, _⟩ := newLocal_base hL
  obtain ⟨s', h4, h5, h6⟩ := balanceTurns_keeps hL.mesh (nodes * 2 ^ 30 + 1) s h2 h3 (by omega)
  refine ⟨nodes * 2 ^ 30 + 1, fun e => s'.prof (m.en e 4), fun turns ht => ?_, fun e he => ?_⟩
  · unfold balanceLayers
    rw [obind h1, obind (balanceTurns_more h4 ht)]
  · have hok := (h5 (m.en e 4)).resolve_left ((h6 e he).1 4 (by omega) (used_center m))
    exact ⟨hok.1, (h6 e he).2, hok.2.1, fun c' hc' => hok.2.2 c' hc' e he 4 (by omega) (used_center m) rfl⟩

/-- C55: layers that are balanced stay as they are. -/
theorem C55_layers_idempotent {m : ProfileMesh} {nodes : ℕ} {layers : ℕ → List ℕ} (hL : LayerSetup m nodes layers)
    (hb : BalancedLayers m.num (2 ^ 30 - m.diff) (touching m) layers layers) :
    ∃ N c, (∀ turns, N ≤ turns → balanceLayers m layers turns = some c) ∧ ∀ e < m.num, c e = layers e := by
  obtain ⟨N, c, h1, h2⟩ := C55_layers_partial hL
  refine ⟨N, c, h1, fun e he => ?_⟩
  obtain ⟨h3, h4, _, h5⟩ := h2 e he
  exact C41_unique h3 (hL.column e he) fun x => le_antisymm (h5 layers hb x) (h4 x)

/-- C55: if at most two turns are made, that is, if the first or the second turn reports no change, then the result is
the coarsest balanced refinement of all columns.  What is missing is the same for more turns, see
`C55_layers_not_balanced`. -/
theorem C55_two_turns_partial {m : ProfileMesh} {nodes : ℕ} {layers : ℕ → List ℕ} (hL : LayerSetup m nodes layers)
    {c : ℕ → List ℕ} (h : balanceLayers m layers 2 = some c) :
    BalancedLayers m.num (2 ^ 30 - m.diff) (touching m) layers c ∧
      ∀ c', BalancedLayers m.num (2 ^ 30 - m.diff) (touching m) layers c' → ∀ e < m.num, Finer (c e) (c' e) := by
  constructor
  · obtain ⟨s, h1, h2, h3, h4, h5⟩ := newLocal_base hL
    obtain ⟨s0, s', a1, a2, rfl⟩ := run hL h
    rw [h1] at a1
    obtain rfl := Option.some.inj a1
    obtain ⟨t, any, b1, b2, b3, b4⟩ := turn_first hL.mesh h2 h3 h4 h5
    have hfin : ∀ {s s' : Profiles}, AllOk m layers s → (∀ e < m.num, Started m layers e s) →
        (∀ e < m.num, Sent m e s ∧ Seen m s.changed e s) → balanceTurn m s = some (s', false) →
        Goal m layers fun e => s'.prof (m.en e 4) := by
      intro s s' h1 h2 h3 h4
      obtain ⟨c1, c2, c3⟩ := turn_last hL.mesh h1 h2 h3 h4
      exact goal_of_done c1 c2 c3
    rw [balanceTurns, obind b1] at a2
    dsimp only at a2
    cases any with
    | false =>
      obtain rfl := Option.some.inj a2
      refine hfin h2 h3 (fun e he => ⟨(h4 e he).1, fun k hk => ?_⟩) b1
      have d1 := ((h4 e he).1 k hk).2
      by_cases hc : s.counts e k = (s.prof (m.en e k)).length
      · exact .inl ((h4 e he).2 k hk hc)
      · exact .inr ⟨h5 _, by omega⟩
    | true =>
      rw [if_pos rfl, balanceTurns] at a2
      cases hb : balanceTurn m t with
      | none => rw [hb] at a2; exact absurd a2 (by simp)
      | some r =>
        obtain ⟨u, any⟩ := r
        rw [obind hb] at a2
        cases any with
        | false =>
          obtain rfl := Option.some.inj a2
          exact hfin b2 b3 b4 hb
        | true => simp [balanceTurns] at a2
  · obtain ⟨N, c', h1, h2⟩ := C55_layers_partial hL
    have : c' = c := by
      obtain ⟨s, s', a1, a2, a3⟩ := run hL h
      have := h1 (max N 2) (by omega)
      unfold balanceLayers at this
      rw [obind a1, obind (balanceTurns_more a2 (by omega : 2 ≤ max N 2))] at this
      rw [a3]
      exact (Option.some.inj this).symm
    subst this
    exact fun c'' hc'' e he => (h2 e he).2.2.2 c'' hc''

theorem balanceLayers_more {m : ProfileMesh} {layers : ℕ → List ℕ} {turns : ℕ} {c : ℕ → List ℕ}
    (h : balanceLayers m layers turns = some c) {turns' : ℕ} (hle : turns ≤ turns') :
    balanceLayers m layers turns' = some c := by
  unfold balanceLayers at h ⊢
  cases h1 : profileNewLocal m layers with
  | none => rw [h1] at h; exact absurd h (by simp)
  | some s =>
    rw [obind h1] at h
    rw [obind rfl]
    cases h2 : balanceTurns m turns s with
    | none => rw [h2] at h; exact absurd h (by simp)
    | some s' =>
      rw [obind h2] at h
      rw [obind (balanceTurns_more h2 hle)]
      exact h

/-! ### The counterexample -/

/-- Six columns in a row, numbered so that number `e` is at the place `pos e`; the columns at neighboring places have
the three nodes of a face in common. -/
def rowMesh (btype : LayerBalance) : ProfileMesh where
  en e k := (2 * ([2, 3, 1, 4, 0, 5].getD e 0) + k % 3) + 13 * (k / 3)
  num := 6
  btype := btype
  diff := 0

/-- The columns number 4 and 5 at both ends of the row are refined towards the bottom. -/
def rowLayers (e : ℕ) : List ℕ := [[0], [0], [0], [0], [5, 5, 4, 3, 2, 1], [3, 3, 2, 1]].getD e []

theorem row_setup (btype : LayerBalance) : LayerSetup (rowMesh btype) 39 rowLayers where
  mesh := {
    bound := by
      have : ∀ e < 6, ∀ k < 9, 2 * ([2, 3, 1, 4, 0, 5].getD e 0) + k % 3 + 13 * (k / 3) < 39 := by decide
      exact this
    center := by
      have : ∀ e < 6, ∀ e' < 6, ∀ k < 9, 2 * ([2, 3, 1, 4, 0, 5].getD e 0) + 4 % 3 + 13 * (4 / 3) =
          2 * ([2, 3, 1, 4, 0, 5].getD e' 0) + k % 3 + 13 * (k / 3) → e = e' ∧ k = 4 := by decide
      exact this
    height := by show 0 < 2 ^ 30; decide }
  column := by
    intro e he
    have he : e < 6 := he
    obtain rfl | rfl | rfl | rfl | rfl | rfl : e = 0 ∨ e = 1 ∨ e = 2 ∨ e = 3 ∨ e = 4 ∨ e = 5 := by omega
    all_goals norm_num [rowLayers, rowMesh, Column]

/-- C55 is not true of the code: `p6est_balance` may return columns that have a face in common and differ by two
levels at the bottom, whatever the balance type. -/
theorem C55_layers_not_balanced (btype : LayerBalance) :
    LayerSetup (rowMesh btype) 39 rowLayers ∧ touching (rowMesh btype) 0 1 ∧
      ∃ c, (∀ turns, 5 ≤ turns → balanceLayers (rowMesh btype) rowLayers turns = some c) ∧
        c 0 = [3, 3, 2, 1] ∧ c 1 = [1, 1] ∧ ¬ FaceBalanced (c 0) (c 1) := by
  refine ⟨row_setup btype, ⟨5, by omega, 3, by omega, ?_, ?_, rfl⟩, ?_⟩
  · cases btype <;> (intro h; exact absurd h.1 (by decide))
  · cases btype <;> (intro h; exact absurd h.1 (by decide))
  have h : (balanceLayers (rowMesh btype) rowLayers 5).map (fun f => (f 0, f 1)) = some ([3, 3, 2, 1], [1, 1]) := by
    cases btype <;> decide +kernel
  cases hc : balanceLayers (rowMesh btype) rowLayers 5 with
  | none => rw [hc] at h; exact absurd h (by simp)
  | some c =>
    rw [hc] at h
    obtain ⟨h0, h1⟩ := Prod.mk.inj (Option.some.inj h)
    refine ⟨c, fun turns ht => balanceLayers_more hc ht, h0, h1, fun hf => ?_⟩
    have := hf 0
    rw [h0, h1] at this
    simp [levelAt] at this

/-- The hypotheses of `C55_layers_partial` hold for the six columns, and there is a balanced refinement to compare
with. -/
example : LayerSetup (rowMesh .full) 39 rowLayers ∧
    BalancedLayers 6 (2 ^ 30) (touching (rowMesh .full)) rowLayers fun _ => [5, 5, 4, 3, 2, 1] := by
  refine ⟨row_setup .full, fun e _ => by norm_num [Column], fun e he => ?_, fun e _ => by norm_num [Graded],
    fun e _ e' _ _ x => Nat.le_succ _⟩
  obtain rfl | rfl | rfl | rfl | rfl | rfl : e = 0 ∨ e = 1 ∨ e = 2 ∨ e = 3 ∨ e = 4 ∨ e = 5 := by omega
  all_goals
    intro x
    simp only [rowLayers, List.getD_cons_zero, List.getD_cons_succ, levelAt]
    norm_num
    try (split_ifs <;> omega)

/-- Three columns in a row. -/
def shortRow : ProfileMesh where
  en e k := (2 * e + k % 3) + 7 * (k / 3)
  num := 3
  btype := .full
  diff := 0

theorem shortRow_ok : MeshOk shortRow 21 where
  bound := by
    have : ∀ e < 3, ∀ k < 9, 2 * e + k % 3 + 7 * (k / 3) < 21 := by decide
    exact this
  center := by
    have : ∀ e < 3, ∀ e' < 3, ∀ k < 9, 2 * e + 4 % 3 + 7 * (4 / 3) = 2 * e' + k % 3 + 7 * (k / 3) →
        e = e' ∧ k = 4 := by decide
    exact this
  height := by show 0 < 2 ^ 30; decide

/-- The hypotheses of `C55_two_turns_partial`: the refinement goes from the first column to the last. -/
example : LayerSetup shortRow 21 (fun e => [[5, 5, 4, 3, 2, 1], [0], [0]].getD e []) ∧
    (balanceLayers shortRow (fun e => [[5, 5, 4, 3, 2, 1], [0], [0]].getD e []) 2).map
      (fun f => (f 0, f 1, f 2)) = some ([5, 5, 4, 3, 2, 1], [4, 4, 3, 2, 1], [3, 3, 2, 1]) := by
  refine ⟨⟨shortRow_ok, fun e he => ?_⟩, by decide +kernel⟩
  obtain rfl | rfl | rfl : e = 0 ∨ e = 1 ∨ e = 2 := by have : e < 3 := he; omega
  all_goals norm_num [shortRow, Column]

/-- The hypotheses of `C55_layers_idempotent`. -/
example : LayerSetup shortRow 21 (fun e => [[2, 2, 1], [1, 1], [1, 2, 2]].getD e []) ∧
    BalancedLayers 3 (2 ^ 30) (touching shortRow) (fun e => [[2, 2, 1], [1, 1], [1, 2, 2]].getD e [])
      fun e => [[2, 2, 1], [1, 1], [1, 2, 2]].getD e [] := by
  have hcol : ∀ e < 3, Column 0 ([[2, 2, 1], [1, 1], [1, 2, 2]].getD e []) (2 ^ 30) := by
    intro e he
    obtain rfl | rfl | rfl : e = 0 ∨ e = 1 ∨ e = 2 := by omega
    all_goals norm_num [Column]
  refine ⟨⟨shortRow_ok, hcol⟩, hcol, fun e _ x => le_refl _, fun e he => ?_, fun e he e' he' _ x => ?_⟩
  · obtain rfl | rfl | rfl : e = 0 ∨ e = 1 ∨ e = 2 := by omega
    all_goals norm_num [Graded]
  · obtain rfl | rfl | rfl : e = 0 ∨ e = 1 ∨ e = 2 := by omega
    all_goals obtain rfl | rfl | rfl : e' = 0 ∨ e' = 1 ∨ e' = 2 := by omega
    all_goals
      simp only [List.getD_cons_zero, List.getD_cons_succ, levelAt]
      norm_num
      try (split_ifs <;> omega)

end P4est
