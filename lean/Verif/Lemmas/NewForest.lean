import Verif.Lemmas.New

/-! # The trees of one rank of a new forest -/

namespace P4est
open Spec

variable {d : ℕ} {α σ : Type}

/-! ### Calls of the callback -/

theorem createAll_append (init : ℕ → Quad d → σ → α × σ) (a b : List (ℕ × Quad d)) (s : σ) :
    createAll init (a ++ b) s = ((createAll init a s).1 ++ (createAll init b (createAll init a s).2).1,
      (createAll init b (createAll init a s).2).2) := by
  induction a generalizing s with
  | nil => rfl
  | cons x a ih =>
    obtain ⟨t, q⟩ := x
    simp only [List.cons_append, createAll, ih]

theorem createAll_tree (init : ℕ → Quad d → σ → α × σ) (t : ℕ) (ms : List (Quad d)) (s : σ) :
    createAll init (ms.map fun q => (t, q)) s =
      ((initAll (init t) ms s).1.map (fun x => (t, (x.q, x.data))), (initAll (init t) ms s).2) := by
  induction ms generalizing s with
  | nil => rfl
  | cons q ms ih => simp only [List.map_cons, createAll, initAll, ih]

theorem FilledTree.createAll {init : ℕ → Quad d → σ → α × σ} {t : ℕ} {uniform : Bool} {l lo hi : ℕ} {s s' : σ}
    {tree : NewTree d α} (h : FilledTree (init t) uniform l lo hi s s' tree) :
    Spec.createAll init (bare (tree.quads.map fun x => (t, x))) s = (tree.quads.map (fun x => (t, x)), s') := by
  have e : bare (tree.quads.map fun x => (t, x)) = (tree.quads.map Prod.fst).map fun q => (t, q) := by
    simp [bare, List.map_map, Function.comp_def]
  rw [e, createAll_tree, h.calls]
  simp [List.map_map, Function.comp_def]

/-! ### The loop over the trees -/

theorem newTreesLoop_spec (mem : ℕ → Leaf d α) (init : ℕ → Quad d → σ → α × σ) (uniform : Bool) (l tnq : ℕ)
    (r : NewRange) (lo hi : ℕ → ℕ) (n t : ℕ) (trees : List (NewTree d α)) (localNum : ℤ) (s : σ)
    (hT : t + n ≤ trees.length)
    (H : ∀ i, t ≤ i → i < t + n → ∀ s, ∃ tree s', newTreeFill mem (init i) uniform l tnq r (i : ℤ) s = some (tree, s') ∧
      FilledTree (init i) uniform l (lo i) (hi i) s s' tree) :
    ∃ (F : ℕ → NewTree d α) (S : ℕ → σ) (trees' : List (NewTree d α)),
      newTreesLoop mem init uniform l tnq r n (t : ℤ) trees localNum s =
        some (trees', localNum + ((∑ j ∈ Finset.Ico t (t + n), (F j).quads.length : ℕ) : ℤ), S (t + n)) ∧
      S t = s ∧ trees'.length = trees.length ∧
      (∀ i, t ≤ i → i < t + n → FilledTree (init i) uniform l (lo i) (hi i) (S i) (S (i + 1)) (F i)) ∧
      (∀ i, trees'[i]? = if t ≤ i ∧ i < t + n then
          some { F i with offset := localNum + ((∑ j ∈ Finset.Ico t i, (F j).quads.length : ℕ) : ℤ) }
        else trees[i]?) := by
  induction n generalizing t trees localNum s with
  | zero =>
    refine ⟨fun _ => emptyTree, fun _ => s, trees, by simp [newTreesLoop], rfl, rfl, fun i h1 h2 => by omega, fun i => ?_⟩
    rw [if_neg (by omega)]
  | succ n ih =>
    obtain ⟨tree, s1, h1, h2⟩ := H t le_rfl (by omega) s
    obtain ⟨F, S, trees', g1, g2, g3, g4, g5⟩ := ih (t + 1) (trees.set t { tree with offset := localNum })
      (localNum + tree.quads.length) s1 (by rw [List.length_set]; omega)
      (fun i h3 h4 s => H i (by omega) (by omega) s)
    have hF : ∀ j, j ≠ t → Function.update F t tree j = F j := fun j hj => Function.update_of_ne hj _ _
    have hsum : ∀ i, t + 1 ≤ i → ∑ j ∈ Finset.Ico t i, (Function.update F t tree j).quads.length =
        tree.quads.length + ∑ j ∈ Finset.Ico (t + 1) i, (F j).quads.length := by
      intro i hi
      rw [Finset.sum_eq_sum_Ico_succ_bot (by omega), Function.update_self]
      congr 1
      apply Finset.sum_congr rfl
      intro j hj
      rw [hF j (by have := (Finset.mem_Ico.mp hj).1; omega)]
    refine ⟨Function.update F t tree, Function.update S t s, trees', ?_, Function.update_self _ _ _, by rw [g3, List.length_set], ?_, ?_⟩
    · rw [newTreesLoop, if_pos (by omega)]
      simp only [Option.bind_eq_bind, Int.toNat_natCast, h1, Option.bind_some]
      have : ((t : ℤ) + 1) = ((t + 1 : ℕ) : ℤ) := by push_cast; rfl
      rw [this, g1, hsum _ (by omega), Function.update_of_ne (by omega), show t + 1 + n = t + (n + 1) by omega]
      push_cast
      rw [add_assoc]
    · intro i hi1 hi2
      rcases Nat.eq_or_lt_of_le hi1 with rfl | hi3
      · rw [Function.update_self, Function.update_self, Function.update_of_ne (by omega), g2]; exact h2
      · rw [hF i (by omega), Function.update_of_ne (by omega), Function.update_of_ne (by omega)]
        exact g4 i hi3 (by omega)
    · intro i
      rw [g5 i]
      by_cases hi : t + 1 ≤ i ∧ i < t + 1 + n
      · rw [if_pos hi, if_pos (by omega), hF i (by omega), hsum i hi.1]
        push_cast
        rw [add_assoc]
      · rw [if_neg hi]
        by_cases hit : i = t
        · subst hit
          rw [List.getElem?_set_self (by omega), if_pos (by omega), Function.update_self]
          simp
        · rw [List.getElem?_set_ne (by omega), if_neg (by omega)]

/-! ### The range of a rank -/

/-- Where the part of a rank with the blocks `[A, B)` begins in tree `t`. -/
def cutAt (A B N t : ℕ) : ℕ := min B (max A (t * N))

theorem newRange_spec (rnd : ℚ → ℚ) (P T N rank A B : ℕ) (hN : 0 < N)
    (hA : partitionCut rnd (N * T) rank P = (A : ℤ)) (hB : partitionCut rnd (N * T) (rank + 1) P = (B : ℤ)) :
    newRange rnd P T N rank =
      if A < B then ⟨(A / N : ℕ), (A % N : ℕ), ((B - 1) / N : ℕ), ((B - 1) % N : ℕ)⟩ else ⟨-1, (A % N : ℕ), -2, -1⟩ := by
  have hdiv : ∀ a : ℕ, (a : ℤ).tdiv (N : ℤ) = ((a / N : ℕ) : ℤ) := fun a => by
    rw [Int.tdiv_eq_ediv_of_nonneg (by positivity)]; push_cast; rfl
  have hmod : ∀ a : ℕ, (a : ℤ) - ((a / N : ℕ) : ℤ) * (N : ℤ) = ((a % N : ℕ) : ℤ) := fun a => by
    have := Nat.div_add_mod a N
    have h2 : ((N * (a / N) + a % N : ℕ) : ℤ) = (a : ℤ) := by rw [this]
    push_cast at h2 ⊢
    linarith [mul_comm (N : ℤ) ((a : ℤ) / N)]
  unfold newRange
  rw [hA, hB]
  dsimp only
  by_cases h : A < B
  · rw [if_pos h, if_pos (by omega), show ((B : ℤ) - 1) = ((B - 1 : ℕ) : ℤ) by omega, hdiv, hdiv, hmod, hmod]
  · rw [if_neg h, if_neg (by omega), hdiv, hmod]

theorem div_bounds {a N : ℕ} (hN : 0 < N) : a / N * N ≤ a ∧ a < (a / N + 1) * N := by
  have h1 := Nat.div_add_mod a N
  have h2 := Nat.mod_lt a hN
  have h3 : N * (a / N) = a / N * N := Nat.mul_comm _ _
  constructor
  · omega
  · rw [Nat.add_mul, Nat.one_mul]; omega

/-- The range of a rank in one of its trees. -/
theorem range_tree {A B N t : ℕ} (hN : 0 < N) (hAB : A < B) (h1 : A / N ≤ t) (h2 : t ≤ (B - 1) / N) :
    ∃ lo hi, lo < hi ∧ hi ≤ N ∧ t * N + lo = cutAt A B N t ∧ t * N + hi = cutAt A B N (t + 1) ∧
      (if (t : ℤ) = ((A / N : ℕ) : ℤ) then ((A % N : ℕ) : ℤ) else 0) = (lo : ℤ) ∧
      (if (t : ℤ) = (((B - 1) / N : ℕ) : ℤ) then (((B - 1) % N : ℕ) : ℤ) else (N : ℤ) - 1) = (hi : ℤ) - 1 := by
  obtain ⟨a1, a2⟩ := div_bounds (a := A) hN
  obtain ⟨b1, b2⟩ := div_bounds (a := B - 1) hN
  have a3 := Nat.div_add_mod A N
  have b3 := Nat.div_add_mod (B - 1) N
  have a4 : N * (A / N) = A / N * N := Nat.mul_comm _ _
  have b4 : N * ((B - 1) / N) = (B - 1) / N * N := Nat.mul_comm _ _
  have m1 : A / N * N ≤ t * N := Nat.mul_le_mul_right N h1
  have m2 : t * N ≤ (B - 1) / N * N := Nat.mul_le_mul_right N h2
  have e1 : (t + 1) * N = t * N + N := by ring
  have e2 : (A / N + 1) * N = A / N * N + N := by ring
  have e3 : ((B - 1) / N + 1) * N = (B - 1) / N * N + N := by ring
  have m3 : A / N ≠ t → (A / N + 1) * N ≤ t * N := fun h => Nat.mul_le_mul_right N (by omega)
  have m4 : t ≠ (B - 1) / N → (t + 1) * N ≤ (B - 1) / N * N := fun h => Nat.mul_le_mul_right N (by omega)
  have hcast : ∀ x : ℕ, (t : ℤ) = (x : ℤ) ↔ t = x := fun x => by omega
  have hA : t = A / N → t * N = A / N * N := fun h => by rw [h]
  have hB : t = (B - 1) / N → t * N = (B - 1) / N * N := fun h => by rw [h]
  refine ⟨cutAt A B N t - t * N, cutAt A B N (t + 1) - t * N, ?_, ?_, ?_, ?_, ?_, ?_⟩
  · unfold cutAt; omega
  · unfold cutAt; omega
  · unfold cutAt; omega
  · unfold cutAt; omega
  · by_cases h : t = A / N
    · rw [if_pos ((hcast _).mpr h)]; have := hA h; unfold cutAt; omega
    · rw [if_neg (fun k => h ((hcast _).mp k))]; have := m3 (Ne.symm h); unfold cutAt; omega
  · by_cases h : t = (B - 1) / N
    · rw [if_pos ((hcast _).mpr h)]; have := hB h; unfold cutAt; omega
    · rw [if_neg (fun k => h ((hcast _).mp k))]; have := m4 h; unfold cutAt; omega

theorem newTreeFill_spec (hd : 0 < d) (hd3 : d ≤ 3) (mem : ℕ → Leaf d α) (init : Quad d → σ → α × σ) (uniform : Bool)
    {l : ℕ} (hl : l ≤ 29) {A B t lo hi : ℕ}
    (hlo : (if (t : ℤ) = ((A / 2 ^ (d * l) : ℕ) : ℤ) then ((A % 2 ^ (d * l) : ℕ) : ℤ) else 0) = (lo : ℤ))
    (hhi : (if (t : ℤ) = (((B - 1) / 2 ^ (d * l) : ℕ) : ℤ) then (((B - 1) % 2 ^ (d * l) : ℕ) : ℤ)
      else ((2 ^ (d * l) : ℕ) : ℤ) - 1) = (hi : ℤ) - 1) (hlt : lo < hi) (hle : hi ≤ 2 ^ (d * l)) (s : σ) :
    ∃ tree s', newTreeFill mem init uniform l (2 ^ (d * l)) ⟨(A / 2 ^ (d * l) : ℕ), (A % 2 ^ (d * l) : ℕ),
        ((B - 1) / 2 ^ (d * l) : ℕ), ((B - 1) % 2 ^ (d * l) : ℕ)⟩ (t : ℤ) s = some (tree, s') ∧
      FilledTree init uniform l lo hi s s' tree := by
  unfold newTreeFill
  cases uniform
  · rw [if_neg (by simp)]
    exact newTreeCoarse_spec hd hd3 mem init hl (by positivity) (by positivity) hlo hhi hlt hle s
  · rw [if_pos rfl]
    exact newTreeUniform_spec hd hd3 init hl hlo hhi hlt hle s

/-! ### One rank -/

theorem sum_take {γ : Type} (l : List γ) (f : γ → ℕ) (g : ℕ → ℕ) (h : ∀ j x, l[j]? = some x → f x = g j) (t : ℕ)
    (ht : t ≤ l.length) : ((l.take t).map f).sum = ∑ j ∈ Finset.range t, g j := by
  induction t with
  | zero => simp
  | succ t ih =>
    rw [List.take_succ, List.getElem?_eq_getElem (by omega), List.map_append, List.sum_append, ih (by omega),
      Finset.sum_range_succ]
    simp [h t _ (List.getElem?_eq_getElem (by omega))]

theorem sum_window (g : ℕ → ℕ) (a b t : ℕ) :
    ∑ j ∈ Finset.range t, (if a ≤ j ∧ j < b then g j else 0) = ∑ j ∈ Finset.Ico a (min t b), g j := by
  rw [← Finset.sum_filter]
  apply Finset.sum_congr _ fun _ _ => rfl
  ext j
  simp only [Finset.mem_filter, Finset.mem_range, Finset.mem_Ico]
  omega

/-- What is stored for one tree with the local leaves `ls` and `before` local leaves in the trees before. -/
structure Spec.TreeStored (ls : List (Quad d × α)) (before : ℕ) (tree : NewTree d α) : Prop where
  quads : tree.quads = ls
  perLevel : ∀ k, tree.perLevel k = (ls.countP (fun x => x.1.level = k) : ℕ)
  maxle : ∀ x ∈ ls, x.1.level ≤ tree.maxlevel
  maxeq : (∃ x ∈ ls, x.1.level = tree.maxlevel) ∨ ls = [] ∧ tree.maxlevel = 0
  offset : tree.offset = before
  firstDesc : ls ≠ [] → ∃ x f, ls.head? = some x ∧ tree.firstDesc = some f ∧ Valid f ∧ f.level = 29 ∧ start f = start x.1
  lastDesc : ls ≠ [] → ∃ x f, ls.getLast? = some x ∧ tree.lastDesc = some f ∧ Valid f ∧ f.level = 29 ∧ stop f = stop x.1

theorem FilledTree.stored (hd : 0 < d) {init : Quad d → σ → α × σ} {uniform : Bool} {l lo hi : ℕ} {s s' : σ} {tree : NewTree d α}
    (h : FilledTree init uniform l lo hi s s' tree) (before : ℕ) :
    TreeStored tree.quads before { tree with offset := (before : ℤ) } where
  quads := rfl
  perLevel := h.perLevel
  maxle := h.maxle
  maxeq := Or.inl h.maxeq
  offset := rfl
  firstDesc _ := by
    obtain ⟨x, h1, h2⟩ := h.firstDesc
    have hv := h.valid x (List.mem_of_mem_head? h1)
    exact ⟨x, _, h1, h2, ((C10_descendants_bound hd x.1 hv.extended 29 hv.1 le_rfl).2.2.1 hv).1, rfl, rfl⟩
  lastDesc _ := by
    obtain ⟨x, h1, h2⟩ := h.lastDesc
    have hv := h.valid x (List.mem_of_getLast? h1)
    exact ⟨x, _, h1, h2, ((C10_descendants_bound hd x.1 hv.extended 29 hv.1 le_rfl).2.2.1 hv).2, rfl,
      stop_lastDesc hv.aligned hv.int32 hv.1 (by norm_num)⟩

theorem emptyTree_stored : TreeStored ([] : List (Quad d × α)) 0 emptyTree where
  quads := rfl
  perLevel k := rfl
  maxle x hx := by simp at hx
  maxeq := Or.inr ⟨rfl, rfl⟩
  offset := rfl
  firstDesc h := absurd rfl h
  lastDesc h := absurd rfl h

theorem Spec.TreeStored.empty_offset {tree : NewTree d α} (h : TreeStored [] 0 tree) (n : ℕ) :
    TreeStored [] n { tree with offset := (n : ℤ) } where
  quads := h.quads
  perLevel := h.perLevel
  maxle := h.maxle
  maxeq := h.maxeq
  offset := rfl
  firstDesc h := absurd rfl h
  lastDesc h := absurd rfl h

/-- The leaves of consecutive trees. -/
theorem filled_gpath {init : ℕ → Quad d → σ → α × σ} {uniform : Bool} {l : ℕ} (hl : l ≤ 30) {A B : ℕ} {F : ℕ → NewTree d α}
    {S : ℕ → σ} {lo hi : ℕ → ℕ} (n t : ℕ) (hend : B ≤ (t + n) * 2 ^ (d * l))
    (hF : ∀ i, t ≤ i → i < t + n → FilledTree (init i) uniform l (lo i) (hi i) (S i) (S (i + 1)) (F i))
    (hlo : ∀ i, t ≤ i → i < t + n → i * 2 ^ (d * l) + lo i = cutAt A B (2 ^ (d * l)) i ∧
      i * 2 ^ (d * l) + hi i = cutAt A B (2 ^ (d * l)) (i + 1)) :
    GPath (2 ^ (d * (30 - l)) * cutAt A B (2 ^ (d * l)) t) (bare (tagFrom t ((List.range n).map fun i => (F (t + i)).quads)))
      (2 ^ (d * (30 - l)) * B) ∧
    createAll init (bare (tagFrom t ((List.range n).map fun i => (F (t + i)).quads))) (S t) =
      (tagFrom t ((List.range n).map fun i => (F (t + i)).quads), S (t + n)) := by
  induction n generalizing t with
  | zero =>
    refine ⟨?_, rfl⟩
    show _ = _
    rw [cutAt, Nat.min_eq_left]
    exact le_trans hend (le_max_right _ _)
  | succ n ih =>
    rw [List.range_succ_eq_map, List.map_cons, List.map_map, tagFrom, Nat.add_zero]
    have e : ((fun i => (F (t + i)).quads) ∘ Nat.succ) = fun i => (F (t + 1 + i)).quads := by
      funext i; simp only [Function.comp_apply]; rw [show t + i.succ = t + 1 + i by omega]
    rw [e]
    obtain ⟨h1, h2⟩ := ih (t + 1) (by rw [show t + 1 + n = t + (n + 1) by omega]; exact hend)
      (fun i k1 k2 => hF i (by omega) (by omega)) (fun i k1 k2 => hlo i (by omega) (by omega))
    have hft := hF t le_rfl (by omega)
    obtain ⟨p1, p2⟩ := hlo t le_rfl (by omega)
    have hb : bare ((F t).quads.map (fun q => (t, q)) ++ tagFrom (t + 1) ((List.range n).map fun i => (F (t + 1 + i)).quads)) =
        bare ((F t).quads.map (fun q => (t, q))) ++ bare (tagFrom (t + 1) ((List.range n).map fun i => (F (t + 1 + i)).quads)) :=
      List.map_append
    rw [hb]
    refine ⟨?_, ?_⟩
    · rw [gpath_append]
      refine ⟨_, ?_, h1⟩
      have := gpath_map t hft.path
      rw [← blocks_total d hl] at this
      rw [← p1, ← p2]
      have e1 : bare ((F t).quads.map fun q => (t, q)) = ((F t).quads.map Prod.fst).map fun q => (t, q) := by
        simp [bare, List.map_map, Function.comp_def]
      rw [e1]
      convert this using 1 <;> ring
    · rw [createAll_append, hft.createAll, h2, show t + 1 + n = t + (n + 1) by omega]

/-- What is known of the new leaves `L` of one rank. -/
structure NewLeaves (init : ℕ → Quad d → σ → α × σ) (uniform : Bool) (l A B : ℕ) (s : σ) (L : List (ℕ × (Quad d × α))) : Prop where
  path : GPath (2 ^ (d * (30 - l)) * A) (bare L) (2 ^ (d * (30 - l)) * B)
  valid : ∀ x ∈ L, Valid x.2.1
  level : ∀ x ∈ L, x.2.1.level ≤ l ∧ (uniform = true ∨ l = 0 → x.2.1.level = l)
  head : A < B → ∃ data rest, L = (A / 2 ^ (d * l), (setMorton l (A % 2 ^ (d * l)), data)) :: rest
  calls : (createAll init (bare L) s).1 = L
  coarse : uniform = false → ∀ x ∈ L, ∀ r : Quad d, Valid r → Cells x.2.1 ⊂ Cells r →
    ∃ c ∈ Cells r, InTree c ∧ (x.1 * 2 ^ (d * l) + blockIndex l c = A ∨ x.1 * 2 ^ (d * l) + blockIndex l c = B ∨
      blockIndex l c = 0 ∨ blockIndex l c + 1 = 2 ^ (d * l))

theorem newRank_spec (hd : 0 < d) (hd3 : d ≤ 3) (rnd : ℚ → ℚ) (mem : ℕ → Leaf d α) (init : ℕ → Quad d → σ → α × σ)
    (uniform : Bool) (P T : ℕ) {l : ℕ} (hl : l ≤ 29) (rank A B : ℕ)
    (hA : partitionCut rnd (2 ^ (d * l) * T) rank P = (A : ℤ))
    (hB : partitionCut rnd (2 ^ (d * l) * T) (rank + 1) P = (B : ℤ)) (hAB : A ≤ B) (hBT : B ≤ 2 ^ (d * l) * T) (s : σ) :
    ∃ rk L, newRank rnd mem init uniform P T l (2 ^ (d * l)) rank s = some rk ∧ Holds T L rk.trees' ∧
      NewLeaves init uniform l A B s L ∧ rk.localNum = L.length ∧ rk.trees.length = T ∧
      ∀ t tree, rk.trees[t]? = some tree →
        TreeStored (leavesIn L t) ((rk.trees.take t).map (fun x => x.quads.length)).sum tree := by
  have hN : 0 < 2 ^ (d * l) := by positivity
  have hr := newRange_spec rnd P T (2 ^ (d * l)) rank A B hN hA hB
  unfold newRank
  rw [hr]
  rcases Nat.eq_or_lt_of_le hAB with hAB | hAB
  · subst hAB
    rw [if_neg (Nat.lt_irrefl _)]
    dsimp only
    rw [show ((-2 : ℤ) - -1 + 1).toNat = 0 by rfl]
    simp only [newTreesLoop, Option.bind_eq_bind, Option.bind_some]
    rw [if_neg (by norm_num)]
    have e0 : ∀ n T : ℕ, tagFrom n (List.replicate T ([] : List (Quad d × α))) = [] := by
      intro n T
      induction T generalizing n with
      | zero => rfl
      | succ T ih => rw [List.replicate_succ, tagFrom, ih]; rfl
    refine ⟨_, [], rfl, ⟨by simp [NewRank.trees'], ?_, rfl, rfl⟩, ⟨rfl, by simp, by simp, fun h => absurd h (Nat.lt_irrefl _), rfl, by simp⟩,
      rfl, by simp, ?_⟩
    · simp only [NewRank.trees', List.map_replicate, emptyTree]
      exact e0 0 T
    · intro t tree ht
      rw [List.getElem?_replicate] at ht
      split at ht
      · simp only [Option.some.injEq] at ht
        subst ht
        have : ((((List.replicate T (emptyTree : NewTree d α)).take t).map fun x => x.quads.length).sum) = 0 := by
          rw [List.take_replicate, List.map_replicate]; simp [emptyTree]
        rw [this]
        exact emptyTree_stored
      · cases ht
  · rw [if_pos hAB]
    dsimp only
    set N := 2 ^ (d * l) with hNdef
    obtain ⟨a1, a2⟩ := div_bounds (a := A) hN
    obtain ⟨b1, b2⟩ := div_bounds (a := B - 1) hN
    set t0 := A / N with ht0
    set tl := (B - 1) / N with htl
    have h0l : t0 ≤ tl := Nat.div_le_div_right (by omega)
    have hlT : tl < T := by
      rw [htl, Nat.div_lt_iff_lt_mul hN, Nat.mul_comm]; omega
    obtain ⟨n, hn⟩ : ∃ n, t0 + (n + 1) = tl + 1 := ⟨tl - t0, by omega⟩
    rw [show ((tl : ℤ) - (t0 : ℤ) + 1).toNat = n + 1 by omega]
    have hex : ∀ i, ∃ lo hi, t0 ≤ i → i < t0 + (n + 1) → lo < hi ∧ hi ≤ N ∧ i * N + lo = cutAt A B N i ∧ i * N + hi = cutAt A B N (i + 1) ∧
      (if (i : ℤ) = ((A / N : ℕ) : ℤ) then ((A % N : ℕ) : ℤ) else 0) = (lo : ℤ) ∧
      (if (i : ℤ) = (((B - 1) / N : ℕ) : ℤ) then (((B - 1) % N : ℕ) : ℤ) else (N : ℤ) - 1) = (hi : ℤ) - 1 := by
      intro i
      by_cases h : t0 ≤ i ∧ i < t0 + (n + 1)
      · obtain ⟨lo, hi, h'⟩ := range_tree hN hAB h.1 (by omega)
        exact ⟨lo, hi, fun _ _ => h'⟩
      · exact ⟨0, 0, fun h1 h2 => absurd ⟨h1, h2⟩ h⟩
    choose lo hi hlohi using hex
    obtain ⟨F, S, trees', g1, g2, g3, g4, g5⟩ := newTreesLoop_spec mem init uniform l N
      ⟨(t0 : ℤ), ((A % N : ℕ) : ℤ), (tl : ℤ), (((B - 1) % N : ℕ) : ℤ)⟩ lo hi (n + 1) t0 (List.replicate T emptyTree) 0 s
      (by rw [List.length_replicate]; omega)
      (fun i h1 h2 s => by
        obtain ⟨k1, k2, k3, k4, k5, k6⟩ := hlohi i h1 h2
        exact newTreeFill_spec hd hd3 mem (init i) uniform hl k5 k6 k1 k2 s)
    rw [g1]
    simp only [Option.bind_eq_bind, Option.bind_some]
    rw [if_pos (by positivity)]
    obtain ⟨p1, p2⟩ := filled_gpath (A := A) (B := B) (by omega : l ≤ 30) (n + 1) t0 (by rw [hn]; show B ≤ (tl + 1) * N; omega) g4
      (fun i h1 h2 => ⟨(hlohi i h1 h2).2.2.1, (hlohi i h1 h2).2.2.2.1⟩)
    set L := tagFrom t0 ((List.range (n + 1)).map fun i => (F (t0 + i)).quads) with hL
    rw [List.length_replicate] at g3
    have hlv : ∀ i, leavesIn L i = if t0 ≤ i ∧ i < t0 + (n + 1) then (F i).quads else [] := by
      intro i
      rw [hL, leavesIn_tagFrom]
      by_cases h1 : t0 ≤ i
      · rw [if_pos h1]
        by_cases h2 : i < t0 + (n + 1)
        · rw [if_pos ⟨h1, h2⟩, List.getD_eq_getElem?_getD, List.getElem?_map, List.getElem?_range (by omega)]
          simp only [Option.map_some, Option.getD_some]
          rw [show t0 + (i - t0) = i by omega]
        · rw [if_neg (by omega), List.getD_eq_getElem?_getD, List.getElem?_eq_none (by simp; omega)]; rfl
      · rw [if_neg h1, if_neg (by omega)]
    have hmem : ∀ x ∈ L, ∃ i, (t0 ≤ i ∧ i < t0 + (n + 1)) ∧ x.1 = i ∧ x.2 ∈ (F i).quads := by
      intro x hx
      have h1 : x.2 ∈ leavesIn L x.1 := by
        unfold leavesIn
        exact List.mem_map.mpr ⟨x, List.mem_filter.mpr ⟨hx, by simp⟩, rfl⟩
      rw [hlv] at h1
      split at h1
      · rename_i h; exact ⟨x.1, h, rfl, h1⟩
      · simp at h1
    set tr := trees'.mapIdx fun jt t => if (tl : ℤ) + 1 ≤ (jt : ℤ) then
      { t with offset := 0 + ((∑ j ∈ Finset.Ico t0 (t0 + (n + 1)), (F j).quads.length : ℕ) : ℤ) } else t with htr
    have hget : ∀ i, tr[i]? = if t0 ≤ i ∧ i < t0 + (n + 1) then
          some { F i with offset := 0 + ((∑ j ∈ Finset.Ico t0 i, (F j).quads.length : ℕ) : ℤ) }
        else if i < T then (if i < t0 then some emptyTree else
          some { (emptyTree : NewTree d α) with offset := 0 + ((∑ j ∈ Finset.Ico t0 (t0 + (n + 1)), (F j).quads.length : ℕ) : ℤ) })
        else none := by
      intro i
      rw [htr, List.getElem?_mapIdx, g5 i]
      by_cases h : t0 ≤ i ∧ i < t0 + (n + 1)
      · rw [if_pos h, if_pos h, Option.map_some, if_neg (by omega)]
      · rw [if_neg h, if_neg h, List.getElem?_replicate]
        by_cases h2 : i < T
        · rw [if_pos h2, if_pos h2, Option.map_some]
          by_cases h3 : i < t0
          · rw [if_pos h3, if_neg (by omega)]
          · rw [if_neg h3, if_pos (by omega)]
        · rw [if_neg h2, if_neg h2]; rfl
    have hlen : tr.length = T := by rw [htr, List.length_mapIdx, g3]
    have hquads : ∀ (i : ℕ) (x : NewTree d α), tr[i]? = some x → x.quads = leavesIn L i := by
      intro i x hx
      rw [hget i] at hx
      rw [hlv]
      split at hx
      · rename_i h
        rw [if_pos h]
        cases hx; rfl
      · rename_i h
        rw [if_neg h]
        split at hx
        · split at hx <;> · cases hx; rfl
        · cases hx
    have hsorted : TreeSorted L := treeSorted_tagFrom _ _
    have hLT : ∀ x ∈ L, x.1 < T := fun x hx => by
      obtain ⟨i, h1, h2, -⟩ := hmem x hx; omega
    have htrees : tr.map NewTree.quads = (List.range T).map (leavesIn L) := by
      apply List.ext_getElem?
      intro i
      rw [List.getElem?_map, List.getElem?_map]
      by_cases h : i < T
      · rw [List.getElem?_range h]
        have hi : tr[i]? = some tr[i] := List.getElem?_eq_getElem (by omega)
        rw [hi, Option.map_some, hquads i _ hi]; rfl
      · rw [List.getElem?_eq_none (by omega), List.getElem?_eq_none (by simp; omega)]
        rfl
    have hfirst : cutAt A B N t0 = A := by unfold cutAt; omega
    have hhead : ∃ data rest, L = (t0, (setMorton l (A % N), data)) :: rest := by
      obtain ⟨data, rest, hF⟩ := (g4 t0 le_rfl (by omega)).head
      have hlo0 : lo t0 = A % N := by
        have := (hlohi t0 le_rfl (by omega)).2.2.2.2.1
        rw [if_pos rfl] at this; omega
      rw [hL, List.range_succ_eq_map, List.map_cons, tagFrom, Nat.add_zero, hF, hlo0]
      exact ⟨_, _, rfl⟩
    have hlast : ∃ y, L.getLast? = some y ∧ y.1 = tl := by
      obtain ⟨data, rest, hF⟩ := (g4 tl h0l (by omega)).head
      have hne : leavesIn L tl ≠ [] := by rw [hlv, if_pos ⟨h0l, by omega⟩, hF]; simp
      obtain ⟨x, hx, hx1⟩ := leavesIn_pos.mp (List.length_pos_iff.mpr hne)
      obtain ⟨y, hy⟩ : ∃ y, L.getLast? = some y := by
        obtain ⟨data, rest, e⟩ := hhead
        rw [e]; exact ⟨_, List.getLast?_eq_some_getLast (by simp)⟩
      refine ⟨y, hy, ?_⟩
      obtain ⟨i, h1, h2, -⟩ := hmem y (List.mem_of_getLast? hy)
      have hle : x.1 ≤ y.1 := by
        obtain ⟨L', hL'⟩ := List.getLast?_eq_some_iff.mp hy
        rw [hL'] at hx hsorted
        rcases List.mem_append.mp hx with h | h
        · exact (List.pairwise_append.mp hsorted).2.2 x h y (by simp)
        · rw [List.mem_singleton] at h; rw [h]
      omega
    have hnum : ((L.length : ℕ) : ℤ) = 0 + ((∑ j ∈ Finset.Ico t0 (t0 + (n + 1)), (F j).quads.length : ℕ) : ℤ) := by
      rw [zero_add]
      congr 1
      have : ∀ (n t : ℕ), (tagFrom t ((List.range n).map fun i => (F (t + i)).quads)).length =
          ∑ j ∈ Finset.Ico t (t + n), (F j).quads.length := by
        intro n
        induction n with
        | zero => intro t; simp [tagFrom]
        | succ n ih =>
          intro t
          rw [List.range_succ_eq_map, List.map_cons, List.map_map, tagFrom, Nat.add_zero, List.length_append, List.length_map]
          have e : ((fun i => (F (t + i)).quads) ∘ Nat.succ) = fun i => (F (t + 1 + i)).quads := by
            funext i; simp only [Function.comp_apply]; rw [show t + i.succ = t + 1 + i by omega]
          rw [e, ih (t + 1), Finset.sum_eq_sum_Ico_succ_bot (show t < t + (n + 1) by omega), show t + 1 + n = t + (n + 1) by omega]
      rw [hL]; exact this (n + 1) t0
    refine ⟨_, L, rfl, ⟨?_, ?_, ?_, ?_⟩, ⟨?_, ?_, ?_, fun _ => hhead, ?_, ?_⟩, hnum.symm, hlen, ?_⟩
    · simp [NewRank.trees', hlen]
    · show forestLeaves (tr.map NewTree.quads) = L
      rw [htrees]; exact (hsorted.eq_forest T hLT).symm
    · obtain ⟨data, rest, e⟩ := hhead
      rw [e]; rfl
    · obtain ⟨y, hy, hy1⟩ := hlast
      rw [hy, ← hy1]; rfl
    · rw [← hfirst]; exact p1
    · intro x hx
      obtain ⟨i, h1, -, h2⟩ := hmem x hx
      exact (g4 i h1.1 h1.2).valid _ h2
    · intro x hx
      obtain ⟨i, h1, -, h2⟩ := hmem x hx
      exact (g4 i h1.1 h1.2).level _ h2
    · rw [← g2, p2]
    · intro hu x hx r hr hsub
      obtain ⟨i, h1, h2, h3⟩ := hmem x hx
      obtain ⟨c, hc1, hc2, hc3⟩ := (g4 i h1.1 h1.2).coarse hu _ h3 r hr hsub
      have hbl := blockIndex_root (d := d) (level := l) (by omega) hc2
      obtain ⟨k1, k2, k3, k4, -, -⟩ := hlohi i h1.1 h1.2
      refine ⟨c, hc1, hc2, ?_⟩
      rw [h2]
      rw [← hNdef] at hbl hc3 ⊢
      have e1 : (i + 1) * N = i * N + N := by ring
      have m1 : t0 * N ≤ i * N := Nat.mul_le_mul_right N h1.1
      have e2 : (t0 + 1) * N = t0 * N + N := by ring
      unfold cutAt at k3 k4
      rcases hc3 with h | h | h
      · rw [h] at hbl ⊢; omega
      · rw [h] at hbl ⊢; omega
      · omega
    · intro t tree ht
      show TreeStored (leavesIn L t) ((tr.take t).map (fun x => x.quads.length)).sum tree
      have htT : t < T := by
        rw [← hlen]
        exact (List.getElem?_eq_some_iff.mp ht).1
      rw [sum_take tr (fun x => x.quads.length) (fun j => if t0 ≤ j ∧ j < t0 + (n + 1) then (F j).quads.length else 0)
        (fun j x hx => by
          rw [hquads j x hx, hlv]
          split <;> rfl) t (by omega), sum_window]
      have ht' : tr[t]? = some tree := ht
      rw [hget t] at ht'
      rw [hlv]
      by_cases h : t0 ≤ t ∧ t < t0 + (n + 1)
      · rw [if_pos h] at ht' ⊢
        rw [Nat.min_eq_left (by omega)]
        simp only [Option.some.injEq, zero_add] at ht'
        rw [← ht']
        exact (g4 t h.1 h.2).stored hd _
      · rw [if_neg h, if_pos htT] at ht'
        rw [if_neg h]
        by_cases h2 : t < t0
        · rw [if_pos h2] at ht'
          rw [Finset.Ico_eq_empty (by omega), Finset.sum_empty]
          simp only [Option.some.injEq] at ht'
          rw [← ht']; exact emptyTree_stored
        · rw [if_neg h2] at ht'
          rw [Nat.min_eq_right (by omega)]
          simp only [Option.some.injEq, zero_add] at ht'
          rw [← ht']; exact emptyTree_stored.empty_offset _

end P4est
