import Verif.Lemmas.NewForest

/-! # C36: creation of a forest -/

namespace P4est
open Spec

variable {d : ℕ} {α σ : Type}

/-! ### A gapless sequence from the first to the last position is a forest -/

theorem gpath_pairwise {a b : ℕ} {L : List (ℕ × Quad d)} (h : GPath a L b) : L.Pairwise (fun x y => gstop x ≤ gstart y) := by
  rw [List.pairwise_iff_getElem]
  intro i j hi hj hij
  exact h.get_lt hij (List.getElem?_eq_getElem hi) (List.getElem?_eq_getElem hj)

theorem forest_of_gpath (hd : 0 < d) {G : List (ℕ × (Quad d × α))} {T : ℕ} (hv : ∀ x ∈ G, Valid x.2.1)
    (h : GPath 0 (bare G) (T * 2 ^ (d * 30))) :
    G = forestLeaves ((List.range T).map (leavesIn G)) ∧ ∀ t, t < T → TreeComplete ((leavesIn G t).map Prod.fst) := by
  have hM : 0 < 2 ^ (d * 30) := by positivity
  have hst : ∀ x ∈ G, start x.2.1 < stop x.2.1 ∧ stop x.2.1 ≤ 2 ^ (d * 30) := fun x hx =>
    ⟨start_lt_stop _, valid_stop_le hd (hv x hx)⟩
  have hmem : ∀ x ∈ G, (x.1, x.2.1) ∈ bare G := fun x hx => List.mem_map_of_mem hx
  have hT : ∀ x ∈ G, x.1 < T := by
    intro x hx
    have := (h.mem (hmem x hx)).2
    unfold gstop at this
    have h2 := (hst x hx).1
    dsimp only at this
    by_contra hge
    have := Nat.mul_le_mul_right (2 ^ (d * 30)) (Nat.le_of_not_lt hge)
    omega
  have hpw : G.Pairwise (fun x y => gstop (x.1, x.2.1) ≤ gstart (y.1, y.2.1)) :=
    List.pairwise_map.mp (gpath_pairwise h)
  have hsorted : TreeSorted G := by
    refine List.Pairwise.imp_of_mem ?_ hpw
    intro x y hx hy hxy
    unfold gstop gstart at hxy
    have h1 := hst x hx
    have h2 := hst y hy
    dsimp only at hxy
    by_contra hlt
    have := Nat.mul_le_mul_right (2 ^ (d * 30)) (Nat.lt_of_not_le hlt)
    have e : y.1.succ * 2 ^ (d * 30) = y.1 * 2 ^ (d * 30) + 2 ^ (d * 30) := Nat.succ_mul _ _
    omega
  refine ⟨hsorted.eq_forest T hT, fun t ht => ?_⟩
  have hin : ∀ q, q ∈ (leavesIn G t).map Prod.fst ↔ ∃ x ∈ G, x.1 = t ∧ x.2.1 = q := by
    intro q
    simp only [leavesIn, List.mem_map, List.mem_filter, decide_eq_true_eq]
    constructor
    · rintro ⟨y, ⟨x, ⟨h1, h2⟩, rfl⟩, rfl⟩; exact ⟨x, h1, h2, rfl⟩
    · rintro ⟨x, h1, h2, rfl⟩; exact ⟨x.2, ⟨x, ⟨h1, h2⟩, rfl⟩, rfl⟩
  apply treeComplete_of_path
  · intro q hq
    obtain ⟨x, hx, -, rfl⟩ := (hin q).mp hq
    exact hv x hx
  · apply path_of_cover (Nat.zero_le _)
    · unfold leavesIn
      rw [List.map_map, List.pairwise_map]
      refine List.Pairwise.imp_of_mem ?_ (hpw.filter fun x => decide (x.1 = t))
      intro x y hx hy hxy
      have e1 : x.1 = t := by simpa using (List.mem_filter.mp hx).2
      have e2 : y.1 = t := by simpa using (List.mem_filter.mp hy).2
      unfold gstop gstart at hxy
      dsimp only at hxy
      rw [e1, e2] at hxy
      simp only [Function.comp_apply]; omega
    · intro q hq
      obtain ⟨x, hx, -, rfl⟩ := (hin q).mp hq
      exact ⟨Nat.zero_le _, (hst x hx).2⟩
    · intro n _ hn
      obtain ⟨y, hy, h1, h2⟩ := h.find (n := t * 2 ^ (d * 30) + n) (Nat.zero_le _) (by
        have := Nat.mul_le_mul_right (2 ^ (d * 30)) ht
        have e : t.succ * 2 ^ (d * 30) = t * 2 ^ (d * 30) + 2 ^ (d * 30) := Nat.succ_mul _ _
        omega)
      obtain ⟨x, hx, rfl⟩ := List.mem_map.mp hy
      have h3 := hst x hx
      unfold gstart at h1
      unfold gstop at h2
      dsimp only at h1 h2
      have hxt : x.1 = t := by
        rcases Nat.lt_trichotomy x.1 t with hlt | heq | hgt
        · have := Nat.mul_le_mul_right (2 ^ (d * 30)) hlt
          have e : x.1.succ * 2 ^ (d * 30) = x.1 * 2 ^ (d * 30) + 2 ^ (d * 30) := Nat.succ_mul _ _
          omega
        · exact heq
        · have := Nat.mul_le_mul_right (2 ^ (d * 30)) hgt
          have e : t.succ * 2 ^ (d * 30) = t * 2 ^ (d * 30) + 2 ^ (d * 30) := Nat.succ_mul _ _
          omega
      rw [hxt] at h1 h2
      exact ⟨x.2.1, (hin _).mpr ⟨x, hx, hxt, rfl⟩, by omega, by omega⟩

/-- Sequences that continue each other. -/
theorem gpath_ranks {leaves : ℕ → List (ℕ × Quad d)} {c : ℕ → ℕ} (P : ℕ)
    (h : ∀ p, p < P → GPath (c p) (leaves p) (c (p + 1))) : GPath (c 0) ((List.range P).flatMap leaves) (c P) := by
  induction P with
  | zero => rfl
  | succ P ih =>
    rw [List.range_succ, List.flatMap_append, gpath_append]
    refine ⟨c P, ih fun p hp => h p (by omega), ?_⟩
    rw [List.flatMap_singleton]
    exact h P (by omega)

/-- The first quadrant of a level has its corner at the origin. -/
theorem setMorton_zero (l : ℕ) : (setMorton l 0 : Quad d).c = fun _ => 0 := by
  funext i
  simp [setMorton, i32]

theorem gpath_length {l : ℕ} {L : List (ℕ × Quad d)} {a b : ℕ}
    (h : GPath (2 ^ (d * (30 - l)) * a) L (2 ^ (d * (30 - l)) * b)) (hl : ∀ x ∈ L, x.2.level = l) : a + L.length = b := by
  have hpos : 0 < 2 ^ (d * (30 - l)) := by positivity
  induction L generalizing a with
  | nil => exact Nat.eq_of_mul_eq_mul_left hpos h
  | cons x L ih =>
    obtain ⟨h1, h2⟩ := h
    have hv : volume x.2 = 2 ^ (d * (30 - l)) := by unfold volume; rw [hl x (by simp)]
    have hs : gstop x = gstart x + volume x.2 := by unfold gstop gstart; rw [stop_eq]; omega
    rw [hs, ← h1, hv, ← Nat.mul_succ] at h2
    have := ih h2 (fun q hq => hl q (List.mem_cons_of_mem _ hq))
    rw [List.length_cons]; omega

/-- The cells of a gapless sequence. -/
theorem gpath_cells {l : ℕ} (hl : l ≤ 30) {L : List (ℕ × Quad d)} {a b : ℕ}
    (h : GPath (2 ^ (d * (30 - l)) * a) L (2 ^ (d * (30 - l)) * b)) (hd : 0 < d) (hv : ∀ x ∈ L, Valid x.2) {t : ℕ} {c : Fin d → ℤ}
    (hc : InTree c) :
    (∃ x ∈ L, x.1 = t ∧ c ∈ Cells x.2) ↔ a ≤ t * 2 ^ (d * l) + blockIndex l c ∧ t * 2 ^ (d * l) + blockIndex l c < b := by
  have hpos : 0 < 2 ^ (d * (30 - l)) := by positivity
  have hM := blocks_total d hl
  have hcell : ∀ x ∈ L, (c ∈ Cells x.2 ↔ start x.2 ≤ curve c ∧ curve c < stop x.2) := fun x hx =>
    mem_cells_iff_curve (hv x hx).aligned (hv x hx).int32 hc.int32
  have hcur : curve c < 2 ^ (d * 30) := by
    have := blockIndex_root (d := d) (level := 30) le_rfl hc
    unfold blockIndex at this
    simpa using this
  have hg : ∀ x : ℕ × Quad d, gstart x = x.1 * 2 ^ (d * 30) + start x.2 ∧ gstop x = x.1 * 2 ^ (d * 30) + stop x.2 := fun x => ⟨rfl, rfl⟩
  have hpos2 : a ≤ t * 2 ^ (d * l) + blockIndex l c ∧ t * 2 ^ (d * l) + blockIndex l c < b ↔
      2 ^ (d * (30 - l)) * a ≤ t * 2 ^ (d * 30) + curve c ∧ t * 2 ^ (d * 30) + curve c < 2 ^ (d * (30 - l)) * b := by
    have e : t * 2 ^ (d * 30) + curve c = 2 ^ (d * (30 - l)) * (t * 2 ^ (d * l)) + curve c := by rw [← hM]; ring
    have e2 : (t * 2 ^ (d * 30) + curve c) / 2 ^ (d * (30 - l)) = t * 2 ^ (d * l) + blockIndex l c := by
      rw [e, Nat.mul_add_div hpos]; rfl
    rw [← e2, Nat.le_div_iff_mul_le hpos, Nat.div_lt_iff_lt_mul hpos, Nat.mul_comm a, Nat.mul_comm b]
  rw [hpos2]
  constructor
  · rintro ⟨x, hx, rfl, hcx⟩
    have h1 := h.mem hx
    rw [(hg x).1, (hg x).2] at h1
    have h2 := (hcell x hx).mp hcx
    omega
  · rintro ⟨h1, h2⟩
    obtain ⟨x, hx, h3, h4⟩ := h.find h1 h2
    rw [(hg x).1] at h3
    rw [(hg x).2] at h4
    have h5 := start_lt_stop x.2
    have h6 := valid_stop_le hd (hv x hx)
    have hxt : x.1 = t := by
      rcases Nat.lt_trichotomy x.1 t with hlt | heq | hgt
      · have := Nat.mul_le_mul_right (2 ^ (d * 30)) hlt
        have e : x.1.succ * 2 ^ (d * 30) = x.1 * 2 ^ (d * 30) + 2 ^ (d * 30) := Nat.succ_mul _ _
        omega
      · exact heq
      · have := Nat.mul_le_mul_right (2 ^ (d * 30)) hgt
        have e : t.succ * 2 ^ (d * 30) = t * 2 ^ (d * 30) + 2 ^ (d * 30) := Nat.succ_mul _ _
        omega
    rw [hxt] at h3 h4
    exact ⟨x, hx, hxt, (hcell x hx).mpr ⟨by omega, by omega⟩⟩

/-- The parts of an even division differ by at most one. -/
theorem div_even {n P : ℕ} (hP : 0 < P) (p q a b : ℕ) (ha : n * p / P + a = n * (p + 1) / P)
    (hb : n * q / P + b = n * (q + 1) / P) : a ≤ b + 1 := by
  have key : ∀ p a, n * p / P + a = n * (p + 1) / P → a = n / P ∨ a = n / P + 1 := by
    intro p a h
    have h1 : n * (p + 1) = n * p + n := by ring
    rw [h1, Nat.add_div hP] at h
    split at h <;> omega
  rcases key p a ha with h | h <;> rcases key q b hb with h' | h' <;> omega

/-- C36. `p4est_new_ext` creates a forest of complete trees on `P` processes.  The level `l` is the smallest
one that is at least `min_level` and gives at least `min_quadrants` quadrants of this level for each process.
Process `p` gets the quadrants of level `l` with numbers from `⌊N p / P⌋` to `⌊N (p + 1) / P⌋`, where
`N` is their total number: as leaves in a uniform forest, whose numbers then differ by at
most one between processes, otherwise as coarser leaves that cover
the same cells.  A leaf of a forest that is not uniform cannot be replaced by a larger quadrant that
contains neither the first quadrant of level `l` of the process or of the tree nor the last one of the
tree nor the first one of the next process.  The user data come from the callback, called once for each
local leaf in order.  `global_first_quadrant`, `global_first_position`, `global_num_quadrants` and the
members of the trees are those of these leaves, and the revision is zero. -/
theorem C36_new (hd : 0 < d) (hd3 : d ≤ 3) (m : ℕ) (rnd : ℚ → ℚ) (hr : Rounding (m + 1) rnd) (mem : ℕ → Leaf d α) (P T : ℕ)
    (hP : 0 < P) (hT : 0 < T) (hfew : (T : ℤ) ≤ topidxMax) (minQuadrants minLevel : ℤ) (uniform : Bool)
    (init : ℕ → Quad d → σ → α × σ) (s : ℕ → σ) (l : ℕ) (hl : StartLevel d P T minQuadrants minLevel l) (hl29 : l ≤ 29)
    (hsize : (2 ^ (d * l) * T + 1) * P ≤ 2 ^ m) :
    ∃ out trees leaves, newExt rnd mem P T minQuadrants minLevel uniform init s = some out ∧ trees.length = T ∧
      ForestHolds out.forest trees P leaves ∧ out.forest.revision = 0 ∧
      out.gfp = globalPartition (fun p => bare (leaves p)) P T ∧
      (∀ p, p < P → ∀ t, ∀ c, InTree c → ((∃ x ∈ leaves p, x.1 = t ∧ c ∈ Cells x.2.1) ↔
        2 ^ (d * l) * T * p / P ≤ t * 2 ^ (d * l) + blockIndex l c ∧
        t * 2 ^ (d * l) + blockIndex l c < 2 ^ (d * l) * T * (p + 1) / P)) ∧
      (∀ p, p < P → ∀ x ∈ leaves p, x.2.1.level ≤ l ∧ (uniform = true → x.2.1.level = l)) ∧
      (uniform = true → ∀ p, p < P → 2 ^ (d * l) * T * p / P + (leaves p).length = 2 ^ (d * l) * T * (p + 1) / P) ∧
      (uniform = true → ∀ p q, p < P → q < P → (leaves p).length ≤ (leaves q).length + 1) ∧
      (uniform = false → ∀ p, p < P → ∀ x ∈ leaves p, ∀ r : Quad d, Valid r → Cells x.2.1 ⊂ Cells r →
        ∃ c ∈ Cells r, InTree c ∧ (x.1 * 2 ^ (d * l) + blockIndex l c = 2 ^ (d * l) * T * p / P ∨
          x.1 * 2 ^ (d * l) + blockIndex l c = 2 ^ (d * l) * T * (p + 1) / P ∨ blockIndex l c = 0 ∨
          blockIndex l c + 1 = 2 ^ (d * l))) ∧
      (∀ p, p < P → (createAll init (bare (leaves p)) (s p)).1 = leaves p) ∧
      (∀ p, p < P → (out.ranks p).localNum = (leaves p).length ∧ (out.ranks p).trees.length = T ∧
        ∀ t tree, (out.ranks p).trees[t]? = some tree →
          TreeStored (leavesIn (leaves p) t) (((out.ranks p).trees.take t).map fun x => x.quads.length).sum tree) := by
  set N := 2 ^ (d * l) with hN
  have hNpos : 0 < N := by positivity
  set c : ℕ → ℕ := fun p => N * T * p / P with hc
  have hcut : ∀ p, p ≤ P → partitionCut rnd (N * T) p P = (c p : ℤ) := fun p hp =>
    C28_cut_exact m rnd hr (N * T) p P hP hp hsize
  have hc0 : c 0 = 0 := by simp [hc]
  have hcP : c P = N * T := Nat.mul_div_cancel _ hP
  have hmono : ∀ p, c p ≤ c (p + 1) := fun p => Nat.div_le_div_right (Nat.mul_le_mul_left _ (by omega))
  have hle : ∀ p, p ≤ P → c p ≤ N * T := fun p hp => by
    rw [← hcP]; exact Nat.div_le_div_right (Nat.mul_le_mul_left _ hp)
  have hex : ∀ p, ∃ rk L, (p < P → newRank rnd mem init uniform P T l N p (s p) = some rk ∧ Holds T L rk.trees' ∧
      NewLeaves init uniform l (c p) (c (p + 1)) (s p) L ∧ rk.localNum = L.length ∧ rk.trees.length = T ∧
      ∀ t tree, rk.trees[t]? = some tree →
        TreeStored (leavesIn L t) ((rk.trees.take t).map (fun x => x.quads.length)).sum tree) ∧
      (¬ p < P → rk = ⟨[], -1, -2, 0⟩ ∧ L = []) := by
    intro p
    by_cases hp : p < P
    · obtain ⟨rk, L, h⟩ := newRank_spec hd hd3 rnd mem init uniform P T hl29 p (c p) (c (p + 1)) (hcut p hp.le)
        (hcut (p + 1) hp) (hmono p) (hle _ hp) (s p)
      exact ⟨rk, L, fun _ => h, fun h => absurd hp h⟩
    · exact ⟨_, _, fun h => absurd h hp, fun _ => ⟨rfl, rfl⟩⟩
  choose rk leaves hin hout using hex
  have hmap : (List.range P).mapM (fun p => newRank rnd mem init uniform P T l N p (s p)) = some ((List.range P).map rk) :=
    mapM_some fun p hp => (hin p (List.mem_range.mp hp)).1
  have hgetD : ∀ p, ((List.range P).map rk).getD p ⟨[], -1, -2, 0⟩ = rk p := by
    intro p
    rw [List.getD_eq_getElem?_getD, List.getElem?_map]
    by_cases hp : p < P
    · rw [List.getElem?_range hp]; rfl
    · rw [List.getElem?_eq_none (by simp; omega), (hout p hp).1]; rfl
  have hloc : ∀ p, (rk p).localNum = ((leaves p).length : ℤ) := by
    intro p
    by_cases hp : p < P
    · exact (hin p hp).2.2.2.1
    · rw [(hout p hp).1, (hout p hp).2]; rfl
  -- the forest
  have hpath : GPath 0 (bare ((List.range P).flatMap leaves)) (T * 2 ^ (d * 30)) := by
    have := gpath_ranks (leaves := fun p => bare (leaves p)) (c := fun p => 2 ^ (d * (30 - l)) * c p) P
      (fun p hp => (hin p hp).2.2.1.path)
    rw [hc0, hcP, Nat.mul_zero, ← Nat.mul_assoc, blocks_total d (by omega), Nat.mul_comm] at this
    have e : bare ((List.range P).flatMap leaves) = (List.range P).flatMap fun p => bare (leaves p) := by
      unfold bare; rw [List.map_flatMap]
    rw [e]; exact this
  have hvalid : ∀ x ∈ (List.range P).flatMap leaves, Valid x.2.1 := by
    intro x hx
    obtain ⟨p, hp, hx⟩ := List.mem_flatMap.mp hx
    exact (hin p (List.mem_range.mp hp)).2.2.1.valid x hx
  obtain ⟨f1, f2⟩ := forest_of_gpath hd hvalid hpath
  set trees := (List.range T).map (leavesIn ((List.range P).flatMap leaves)) with htrees
  have htl : trees.length = T := by rw [htrees]; simp
  -- lengths
  have hlen : uniform = true ∨ l = 0 → ∀ p, p < P → c p + (leaves p).length = c (p + 1) := by
    intro hu p hp
    have := gpath_length (hin p hp).2.2.1.path (by
      intro x hx
      obtain ⟨y, hy, rfl⟩ := List.mem_map.mp hx
      exact ((hin p hp).2.2.1.level y hy).2 hu)
    rw [bare, List.length_map] at this
    exact this
  have hsum : uniform = true ∨ l = 0 → ∀ p, p ≤ P → c p = ∑ i ∈ Finset.range p, (leaves i).length := by
    intro hu p
    induction p with
    | zero => intro _; simp [hc0]
    | succ p ih =>
      intro hp
      rw [Finset.sum_range_succ, ← ih (by omega), hlen hu p hp]
  have htotal : (forestLeaves trees).length = ∑ i ∈ Finset.range P, (leaves i).length := by
    rw [← f1, List.length_flatMap]
    rfl
  have hcq := (C28_count_quadrants (fun p => (leaves p).length) P).1
  have hmode : ¬ (¬ uniform = true ∧ l > 0) → uniform = true ∨ l = 0 := by
    intro h
    cases uniform
    · right; simp at h; exact h
    · left; rfl
  -- positions
  have hpos : ∀ p, p ≤ P → (newPosition rnd P T l N p : GPos d) = ⟨((c p / N : ℕ) : ℤ), (setMorton l (c p % N) : Quad d).c⟩ := by
    intro p hp
    unfold newPosition
    rw [hcut p hp]
    dsimp only
    have e1 : ((c p : ℤ)).tdiv (N : ℤ) = ((c p / N : ℕ) : ℤ) := by
      rw [Int.tdiv_eq_ediv_of_nonneg (by positivity)]; push_cast; rfl
    have e2 : ((c p : ℤ) - ((c p / N : ℕ) : ℤ) * (N : ℤ)).toNat = c p % N := by
      have := Nat.div_add_mod (c p) N
      have h2 : N * (c p / N) = c p / N * N := Nat.mul_comm _ _
      have h3 : ((c p / N : ℕ) : ℤ) * (N : ℤ) = ((c p / N * N : ℕ) : ℤ) := by push_cast; rfl
      rw [h3]
      omega
    rw [e1, e2]
  have hgp : ∀ n p, p + n = P → (globalPartition (fun p => bare (leaves p)) P T)[p]? =
      some ⟨((c p / N : ℕ) : ℤ), (setMorton l (c p % N) : Quad d).c⟩ := by
    intro n
    induction n with
    | zero =>
      intro p hp
      have : p = P := by omega
      subst this
      rw [(C29_first_positions _ p T).2.1, hcP, Nat.mul_div_cancel_left _ hNpos, Nat.mul_mod_right, setMorton_zero]
    | succ n ih =>
      intro p hp
      rcases Nat.eq_or_lt_of_le (hmono p) with h | h
      · have hnil : leaves p = [] := by
          by_contra hne
          have := (hin p (by omega)).2.2.1.path.lt (by simpa [bare] using hne)
          rw [h] at this; exact absurd this (Nat.lt_irrefl _)
        rw [(C29_first_positions _ P T).2.2.2 p (by omega) (by rw [hnil]; rfl), ih (p + 1) (by omega), h]
      · obtain ⟨data, rest, e⟩ := (hin p (by omega)).2.2.1.head h
        exact (C29_first_positions _ P T).2.2.1 p (by omega) _ _ (bare rest) (by rw [e]; rfl)
  have hgfp : (List.range (P + 1)).map (newPosition (d := d) rnd P T l N) = globalPartition (fun p => bare (leaves p)) P T := by
    apply List.ext_getElem?
    intro i
    rw [List.getElem?_map]
    by_cases hi : i < P + 1
    · rw [List.getElem?_range hi, Option.map_some, hpos i (by omega), hgp (P - i) i (by omega)]
    · rw [List.getElem?_eq_none (by simp; omega), List.getElem?_eq_none (by rw [(C29_first_positions _ P T).1]; omega)]
      rfl
  have hrun : newExt rnd mem P T minQuadrants minLevel uniform init s = some
      { forest :=
          { ranks := fun p => (rk p).trees', gfq := newGfq rnd uniform P T l N fun p => (rk p).localNum,
            gfpTree := ((List.range (P + 1)).map (newPosition (d := d) rnd P T l N)).map GPos.tree,
            globalNum := if ¬ uniform ∧ l > 0 then (newGfq rnd uniform P T l N (fun p => (rk p).localNum) P).toNat else N * T,
            numTrees := T, revision := 0 }
        gfp := (List.range (P + 1)).map (newPosition (d := d) rnd P T l N), ranks := rk } := by
    unfold newExt
    rw [newLevel_spec hT hl hl29]
    simp only [Option.bind_eq_bind, Option.bind_some]
    rw [← hN, hmap]
    simp only [Option.bind_some, hgetD]
  refine ⟨_, trees, leaves, hrun, htl, ⟨⟨?_, ?_, f1⟩, ?_, ?_, ?_, ?_, ?_, ?_⟩, ?_, ?_, ?_, ?_, ?_, ?_, ?_, ?_, ?_⟩
  · intro ls hls
    rw [htrees] at hls
    obtain ⟨t, ht, rfl⟩ := List.mem_map.mp hls
    exact f2 t (List.mem_range.mp ht)
  · intro h; rw [h] at htl; simp at htl; omega
  · exact htl.symm
  · rw [htl]; exact hfew
  · intro p hp
    rw [htl]; exact (hin p hp).2.1
  · intro p hp
    dsimp only
    unfold newGfq
    split
    · rw [← hcq p hp]
      congr 1
      funext p
      exact hloc p
    · rename_i h
      show partitionCut rnd (N * T) p P = _
      rw [hcut p hp, hsum (hmode h) p hp]
  · rw [htl, ← hgfp]
  · dsimp only
    split
    · rename_i h
      unfold newGfq
      rw [if_pos h]
      have e : (fun p => (rk p).localNum) = fun p => ((leaves p).length : ℤ) := funext hloc
      rw [e, hcq P le_rfl, htotal]; rfl
    · rename_i h
      rw [htotal, ← hsum (hmode h) P le_rfl, hcP]
  · rfl
  · exact hgfp
  · intro p hp t cc hcc
    have := gpath_cells (by omega : l ≤ 30) (hin p hp).2.2.1.path hd (by
      intro x hx
      obtain ⟨y, hy, rfl⟩ := List.mem_map.mp hx
      exact (hin p hp).2.2.1.valid y hy) (t := t) hcc
    rw [← this]
    constructor
    · rintro ⟨x, h1, h2, h3⟩; exact ⟨(x.1, x.2.1), List.mem_map_of_mem h1, h2, h3⟩
    · rintro ⟨x, h1, h2, h3⟩
      obtain ⟨y, hy, rfl⟩ := List.mem_map.mp h1
      exact ⟨y, hy, h2, h3⟩
  · intro p hp x hx
    have := (hin p hp).2.2.1.level x hx
    exact ⟨this.1, fun h => this.2 (Or.inl h)⟩
  · intro hu p hp
    exact hlen (Or.inl hu) p hp
  · intro hu p q hp hq
    exact div_even hP p q _ _ (hlen (Or.inl hu) p hp) (hlen (Or.inl hu) q hq)
  · intro hu p hp
    exact (hin p hp).2.2.1.coarse hu
  · intro p hp
    exact (hin p hp).2.2.1.calls
  · intro p hp
    exact (hin p hp).2.2.2

/-- The hypotheses hold for two trees on three processes that want five quadrants each: the level is 2, since
two trees of level 1 have only eight quadrants. -/
example : Rounding 64 id ∧ StartLevel 2 3 2 5 (-1) 2 ∧ (2 ^ (2 * 2) * 2 + 1) * 3 ≤ 2 ^ 63 ∧ ((2 : ℕ) : ℤ) ≤ topidxMax := by
  refine ⟨⟨fun _ _ h => h, fun _ _ _ => rfl⟩, ⟨by norm_num, by norm_num, fun k _ h => ?_⟩, by norm_num, by decide⟩
  by_contra hk
  have : k = 0 ∨ k = 1 := by omega
  rcases this with rfl | rfl <;> norm_num at h

/-- Two trees of level 1 on three processes, with data that count the calls of the callback. -/
def newExample : Option (NewForest 2 ℕ) :=
  newExt (σ := ℕ) id (fun _ => ⟨⟨fun _ => 0, 0⟩, 0⟩) 3 2 2 1 true (fun t _ s => (10 * t + s, s + 1)) (fun _ => 0)

/-- Process 1 has the last two quadrants of the first tree and the first one of the second. -/
example : newExample.map (fun out => ((out.forest.ranks 1).trees.map fun l => l.map fun x => (x.1.c 0, x.1.c 1, x.2))) =
    some [[(0, 2 ^ 29, 0), (2 ^ 29, 2 ^ 29, 1)], [(0, 0, 12)]] := by decide +kernel

example : newExample.map (fun out => ((List.range 4).map out.forest.gfq, out.forest.gfpTree, (out.ranks 1).trees.map NewTree.offset)) =
    some ([0, 2, 5, 8], [0, 0, 1, 2], [0, 2]) := by decide +kernel

end P4est
