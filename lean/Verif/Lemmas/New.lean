import Verif.Model.New
import Verif.Spec.New
import Verif.Props.Curve
import Verif.Props.Complete
import Verif.Props.PartitionExt

/-! # Trees of a new forest -/

namespace P4est
open Spec

variable {d : ℕ} {α σ : Type}

/-! ### The level -/

theorem levelLoop_spec (d : ℕ) (need : ℤ) (n level : ℕ) :
    ∃ l, levelLoop d need n level (2 ^ (d * level)) = (l, 2 ^ (d * l)) ∧ level ≤ l ∧ l ≤ level + n ∧
      (∀ k, level ≤ k → k < l → ¬ need ≤ ((2 ^ (d * k) : ℕ) : ℤ)) ∧ (need ≤ ((2 ^ (d * l) : ℕ) : ℤ) ∨ l = level + n) := by
  induction n generalizing level with
  | zero => exact ⟨level, rfl, le_rfl, le_rfl, fun k h1 h2 => by omega, Or.inr rfl⟩
  | succ n ih =>
    rw [levelLoop]
    by_cases h : need ≤ ((2 ^ (d * level) : ℕ) : ℤ)
    · rw [if_pos h]
      exact ⟨level, rfl, le_rfl, by omega, fun k h1 h2 => by omega, Or.inl h⟩
    · rw [if_neg h]
      obtain ⟨l, h1, h2, h3, h4, h5⟩ := ih (level + 1)
      rw [show 2 ^ (d * level) * 2 ^ d = 2 ^ (d * (level + 1)) by rw [← pow_add]; rfl]
      refine ⟨l, h1, by omega, by omega, fun k k1 k2 => ?_, ?_⟩
      · rcases Nat.eq_or_lt_of_le k1 with rfl | k3
        · exact h
        · exact h4 k k3 k2
      · rcases h5 with h5 | h5
        · exact Or.inl h5
        · exact Or.inr (by omega)

theorem levelLoop2_spec (d : ℕ) (minLevel : ℤ) (n level : ℕ) (hn : minLevel ≤ level + n) :
    levelLoop2 d minLevel n level (2 ^ (d * level)) =
      (max level minLevel.toNat, 2 ^ (d * max level minLevel.toNat)) := by
  induction n generalizing level with
  | zero =>
    rw [levelLoop2, Nat.max_eq_left (by omega)]
  | succ n ih =>
    rw [levelLoop2]
    split
    · rw [show 2 ^ (d * level) * 2 ^ d = 2 ^ (d * (level + 1)) by rw [← pow_add]; rfl,
        ih (level + 1) (by push_cast at hn ⊢; omega),
        show max (level + 1) minLevel.toNat = max level minLevel.toNat by omega]
    · rw [Nat.max_eq_left (by omega)]

/-- The comparison with the rounded up quotient. -/
theorem need_iff (P T : ℕ) (hT : 0 < T) (m : ℤ) (x : ℕ) (hx : 0 < x) :
    (((P : ℤ) * m + ((T : ℤ) - 1)).tdiv T ≤ (x : ℤ)) ↔ (P : ℤ) * m ≤ T * x := by
  have hT' : (0:ℤ) < T := by exact_mod_cast hT
  have hx' : (0:ℤ) < x := by exact_mod_cast hx
  rcases le_or_gt 0 ((P : ℤ) * m + ((T : ℤ) - 1)) with h | h
  · rw [Int.tdiv_eq_ediv_of_nonneg h, ← Int.lt_add_one_iff, Int.ediv_lt_iff_lt_mul hT']
    constructor
    · intro k; nlinarith
    · intro k; nlinarith
  · have h1 : ((P : ℤ) * m + ((T : ℤ) - 1)).tdiv T ≤ 0 := by
      have := Int.tdiv_nonneg (a := -((P : ℤ) * m + ((T : ℤ) - 1))) (b := T) (by omega) hT'.le
      rw [Int.neg_tdiv] at this; omega
    have h2 : (P : ℤ) * m < 0 := by omega
    exact ⟨fun _ => by nlinarith, fun _ => by omega⟩

theorem newLevel_spec {P T : ℕ} (hT : 0 < T) {m minLevel : ℤ} {l : ℕ}
    (h : StartLevel d P T m minLevel l) (hl : l ≤ 29) : newLevel d P T m minLevel = some (l, 2 ^ (d * l)) := by
  obtain ⟨l1, h1, h2, h3, h4, h5⟩ := levelLoop_spec d (((P : ℤ) * m + ((T : ℤ) - 1)).tdiv T) QMAXLEVEL 0
  have hc : ∀ k : ℕ, (((P : ℤ) * m + ((T : ℤ) - 1)).tdiv T ≤ ((2 ^ (d * k) : ℕ) : ℤ)) ↔
      P * m ≤ T * 2 ^ (d * k) := fun k => by
    rw [need_iff P T hT m _ (by positivity)]; push_cast; rfl
  rw [Nat.mul_zero, pow_zero] at h1
  have hq : QMAXLEVEL = 29 := rfl
  have hle : l1 ≤ l := by
    by_contra hlt
    exact h4 l (Nat.zero_le _) (by omega) ((hc l).mpr h.enough)
  have hen : P * m ≤ T * 2 ^ (d * l1) := by
    rcases h5 with h5 | h5
    · exact (hc l1).mp h5
    · have : l1 = l := by omega
      rw [this]; exact h.enough
  have hmax : max l1 minLevel.toNat = l := by
    have e1 := h.level
    have e2 := h.least (max l1 minLevel.toNat) (by push_cast; omega) (le_trans hen (by
      have : (2:ℤ) ^ (d * l1) ≤ 2 ^ (d * max l1 minLevel.toNat) :=
        pow_le_pow_right₀ (by norm_num) (Nat.mul_le_mul_left d (le_max_left _ _))
      nlinarith [(Nat.cast_nonneg T : (0:ℤ) ≤ T)]))
    omega
  unfold newLevel
  simp only [h1]
  rw [levelLoop2_spec d minLevel minLevel.toNat l1 (by omega), hmax, if_pos (by simpa [hq] using hl)]

/-! ### Blocks -/

/-- The quadrant with a given index of a level. -/
theorem setMorton_spec (hd : 0 < d) (hd3 : d ≤ 3) {l : ℕ} (hl : l ≤ 29) {k : ℕ} (hk : k < 2 ^ (d * l)) :
    Valid (setMorton l k : Quad d) ∧ (setMorton l k : Quad d).level = l ∧
    start (setMorton l k : Quad d) = 2 ^ (d * (30 - l)) * k ∧
    stop (setMorton l k : Quad d) = 2 ^ (d * (30 - l)) * (k + 1) := by
  obtain ⟨hv, he⟩ := (C11_set_morton_inverse hd hd3 l hl).2.2 k hk
  rw [he]
  have hlev : (setMortonExt l k : Quad d).level = l := rfl
  have hvol : volume (setMortonExt l k : Quad d) = 2 ^ (d * (30 - l)) := rfl
  have hst : start (setMortonExt l k : Quad d) = 2 ^ (d * (30 - l)) * k := by
    rw [start_eq_blockIndex hv.aligned, hvol, hlev, blockIndex_setMortonExt hd (by omega)
      (lt_of_lt_of_le hk (Nat.pow_le_pow_right (by norm_num) (Nat.mul_le_mul_left d (by omega))))]
  refine ⟨hv, hlev, hst, ?_⟩
  rw [stop_eq, hst, hvol]; ring

theorem setMorton_block (hd : 0 < d) (hd3 : d ≤ 3) {l : ℕ} (hl : l ≤ 29) {k : ℕ} (hk : k < 2 ^ (d * l)) :
    InTree (setMorton l k : Quad d).c ∧ blockIndex l (setMorton l k : Quad d).c = k := by
  obtain ⟨hv, he⟩ := (C11_set_morton_inverse hd hd3 l hl).2.2 k hk
  refine ⟨fun i => (setMorton_spec hd hd3 hl hk).1.2.2 i, ?_⟩
  rw [he, blockIndex_setMortonExt hd (by omega)
      (lt_of_lt_of_le hk (Nat.pow_le_pow_right (by norm_num) (Nat.mul_le_mul_left d (by omega))))]

theorem blocks_total (d : ℕ) {l : ℕ} (hl : l ≤ 30) : 2 ^ (d * (30 - l)) * 2 ^ (d * l) = 2 ^ (d * 30) := by
  rw [← pow_add, ← Nat.mul_add]; congr 2; omega

/-! ### One tree -/

/-- What is known of a tree that was filled from the state `s` of the callback to the state `s'`. -/
structure FilledTree (init : Quad d → σ → α × σ) (uniform : Bool) (l lo hi : ℕ) (s s' : σ) (tree : NewTree d α) :
    Prop where
  path : Path (2 ^ (d * (30 - l)) * lo) (tree.quads.map Prod.fst) (2 ^ (d * (30 - l)) * hi)
  valid : ∀ x ∈ tree.quads, Valid x.1
  level : ∀ x ∈ tree.quads, x.1.level ≤ l ∧ (uniform = true ∨ l = 0 → x.1.level = l)
  head : ∃ data rest, tree.quads = (setMorton l lo, data) :: rest
  calls : initAll init (tree.quads.map Prod.fst) s = (tree.quads.map (fun x => ⟨x.1, x.2⟩), s')
  perLevel : ∀ k, tree.perLevel k = (tree.quads.countP (fun x => x.1.level = k) : ℕ)
  maxle : ∀ x ∈ tree.quads, x.1.level ≤ tree.maxlevel
  maxeq : ∃ x ∈ tree.quads, x.1.level = tree.maxlevel
  firstDesc : ∃ x, tree.quads.head? = some x ∧ tree.firstDesc = some (P4est.firstDesc x.1 29)
  lastDesc : ∃ x, tree.quads.getLast? = some x ∧ tree.lastDesc = some (P4est.lastDesc x.1 29)
  coarse : uniform = false → ∀ x ∈ tree.quads, ∀ r : Quad d, Valid r → Cells x.1 ⊂ Cells r →
    ∃ c ∈ Cells r, InTree c ∧ (blockIndex l c = lo ∨ blockIndex l c = hi ∨ blockIndex l c + 1 = 2 ^ (d * l))

theorem fillLevel_spec (hd : 0 < d) (hd3 : d ≤ 3) (init : Quad d → σ → α × σ) {l : ℕ} (hl : l ≤ 29) (n : ℕ)
    {q : Quad d} {k : ℕ} (hq : Valid q) (hql : q.level = l) (hs : start q = 2 ^ (d * (30 - l)) * k)
    (hn : k + n < 2 ^ (d * l)) (s : σ) :
    ∃ quads s', fillLevel init n q s = some (quads, s') ∧ (∃ rest, quads = (q, (init q s).1) :: rest) ∧
      quads.length = n + 1 ∧
      Path (2 ^ (d * (30 - l)) * k) (quads.map Prod.fst) (2 ^ (d * (30 - l)) * (k + n + 1)) ∧
      (∀ x ∈ quads, Valid x.1 ∧ x.1.level = l) ∧
      initAll init (quads.map Prod.fst) s = (quads.map (fun x => ⟨x.1, x.2⟩), s') := by
  have hvol : volume q = 2 ^ (d * (30 - l)) := by unfold volume; rw [hql]
  have hst : stop q = 2 ^ (d * (30 - l)) * (k + 1) := by rw [stop_eq, hs, hvol]; ring
  induction n generalizing q k s with
  | zero =>
    refine ⟨[(q, (init q s).1)], (init q s).2, rfl, ⟨[], rfl⟩, rfl, ⟨hs.symm, ?_⟩, ?_, rfl⟩
    · exact hst
    · intro x hx
      rw [List.mem_singleton] at hx
      subst hx
      exact ⟨hq, hql⟩
  | succ n ih =>
    obtain ⟨c1, c2⟩ := C12_successor hd hd3 q hq
    have hne : successor q ≠ none := by
      rw [Ne, c2, hst, ← blocks_total d (by omega : l ≤ 30)]
      have : 0 < 2 ^ (d * (30 - l)) := by positivity
      intro h
      have := Nat.eq_of_mul_eq_mul_left this h
      omega
    obtain ⟨r, hr⟩ := Option.ne_none_iff_exists'.mp hne
    obtain ⟨r1, r2, r3, -⟩ := c1 r hr
    rw [hst] at r3
    have hrl : r.level = l := r2.trans hql
    have hvr : volume r = 2 ^ (d * (30 - l)) := by unfold volume; rw [hrl]
    obtain ⟨quads, s', h1, h2, h3, h4, h5, h6⟩ := ih (q := r) (k := k + 1) r1 hrl r3 (by omega) (init q s).2 hvr
      (by rw [stop_eq, r3, hvr]; ring)
    refine ⟨(q, (init q s).1) :: quads, s', ?_, ⟨quads, rfl⟩, by simp [h3], ?_, ?_, ?_⟩
    · rw [fillLevel]
      simp only [hr, Option.bind_eq_bind, Option.bind_some, h1]
    · refine ⟨hs.symm, ?_⟩
      rw [hst, show k + (n + 1) + 1 = k + 1 + n + 1 by omega]
      exact h4
    · intro x hx
      rcases List.mem_cons.mp hx with rfl | hx
      · exact ⟨hq, hql⟩
      · exact h5 x hx
    · rw [List.map_cons, initAll]
      simp only [h6, List.map_cons]

theorem path_length {l : ℕ} {ls : List (Quad d)} {a b : ℕ} (h : Path (2 ^ (d * (30 - l)) * a) ls (2 ^ (d * (30 - l)) * b))
    (hl : ∀ q ∈ ls, q.level = l) : a + ls.length = b := by
  have hpos : 0 < 2 ^ (d * (30 - l)) := by positivity
  induction ls generalizing a with
  | nil => exact Nat.eq_of_mul_eq_mul_left hpos h
  | cons q ls ih =>
    obtain ⟨h1, h2⟩ := h
    have hv : volume q = 2 ^ (d * (30 - l)) := by unfold volume; rw [hl q (by simp)]
    rw [stop_eq, ← h1, hv, ← Nat.mul_succ] at h2
    have := ih h2 (fun q hq => hl q (List.mem_cons_of_mem _ hq))
    rw [List.length_cons]; omega

theorem newTreeUniform_spec (hd : 0 < d) (hd3 : d ≤ 3) (init : Quad d → σ → α × σ) {l : ℕ} (hl : l ≤ 29)
    {r : NewRange} {jt : ℤ} {lo hi : ℕ} (hlo : (if jt = r.firstTree then r.firstQuad else 0) = (lo : ℤ))
    (hhi : (if jt = r.lastTree then r.lastQuad else ((2 ^ (d * l) : ℕ) : ℤ) - 1) = (hi : ℤ) - 1) (hlt : lo < hi)
    (hle : hi ≤ 2 ^ (d * l)) (s : σ) :
    ∃ tree s', newTreeUniform init l (2 ^ (d * l)) r jt s = some (tree, s') ∧
      FilledTree init true l lo hi s s' tree := by
  obtain ⟨m1, m2, m3, m4⟩ := setMorton_spec hd hd3 hl (k := lo) (by omega)
  obtain ⟨quads, s', h1, ⟨rest, h2⟩, h3, h4, h5, h6⟩ := fillLevel_spec hd hd3 init hl (hi - lo - 1) m1 m2 m3 (by omega) s
  have hx0 : quads[0]? = some (setMorton l lo, (init (setMorton l lo) s).1) := by rw [h2]; rfl
  obtain ⟨y, hy⟩ : ∃ y, quads[quads.length - 1]? = some y := ⟨_, List.getElem?_eq_getElem (by omega)⟩
  have hyl : quads.getLast? = some y := by rw [List.getLast?_eq_getElem?]; exact hy
  refine ⟨⟨quads, Function.update (fun _ => 0) l ((hi : ℤ) - 1 - lo + 1), l, 0,
    some (P4est.firstDesc (setMorton l lo) QMAXLEVEL), some (P4est.lastDesc y.1 QMAXLEVEL)⟩, s', ?_, ⟨?_, fun x hx => (h5 x hx).1, fun x hx => ⟨(h5 x hx).2.le, fun _ => (h5 x hx).2⟩,
    ⟨_, rest, h2⟩, h6, ?_, fun x hx => (h5 x hx).2.le, ⟨y, List.mem_of_getElem? hy, (h5 y (List.mem_of_getElem? hy)).2⟩,
    ⟨(setMorton l lo, (init (setMorton l lo) s).1), by simp only [h2, List.head?_cons], rfl⟩, ⟨y, hyl, rfl⟩, fun h => by cases h⟩⟩
  · unfold newTreeUniform
    simp only [hlo, hhi]
    rw [if_neg (by omega), show ((hi : ℤ) - 1 - lo + 1).toNat - 1 = hi - lo - 1 by omega, Int.toNat_natCast, h1]
    simp only [Option.bind_eq_bind, Option.bind_some, hx0, hy]
  · rw [show hi = lo + (hi - lo - 1) + 1 by omega]; exact h4
  · intro k
    dsimp only
    by_cases hk : k = l
    · subst hk
      rw [Function.update_self, List.countP_eq_length.mpr (fun x hx => by simpa using (h5 x hx).2), h3]
      omega
    · rw [Function.update_of_ne hk, List.countP_eq_zero.mpr]
      · rfl
      · intro x hx
        simp only [decide_eq_true_eq]
        rw [(h5 x hx).2]; exact fun h => hk h.symm

theorem initAll_pairs (init : Quad d → σ → α × σ) (ms : List (Quad d)) (s : σ) :
    ((initAll init ms s).1.map fun x => (x.q, x.data)).map Prod.fst = ms := by
  rw [List.map_map]
  exact initAll_length init ms s

theorem LArr.index_last {a : LArr d α} {x : Leaf d α} (h : a.toList.getLast? = some x) :
    a.index (a.count - 1) = some x := by
  unfold LArr.index
  rw [List.getLast?_eq_getElem?] at h
  unfold LArr.toList at h
  rw [List.length_map, List.length_range, List.getElem?_map] at h
  rcases Nat.eq_zero_or_pos a.count with h0 | h0
  · rw [h0] at h; simp at h
  · rw [List.getElem?_range (by omega)] at h
    rw [if_pos (by omega)]
    exact h

/-- A legal quadrant larger than a child contains its parent. -/
theorem parent_subset (hd : 0 < d) {p r q : Quad d} (hp : Valid p) (hr : Valid r) (hpl : p.level < 29)
    (hqp : q ∈ childrenv p) (hsub : Cells q ⊂ Cells r) : Cells p ⊆ Cells r := by
  obtain ⟨hqv, e1, e2, e3⟩ := valid_child hd hp hpl hqp
  have hrq := (isAncestor_iff_div.mp ((isAncestor_iff hd hr.aligned hqv.aligned).mpr hsub)).1
  have i1 := (subset_iff_interval hd hr.aligned hqv.aligned hr.int32 hqv.int32).mp hsub.1
  have s1 := start_lt_stop q
  have s2 := start_lt_stop p
  rcases valid_cases hd hp hr with g | g | g | g | g
  · omega
  · omega
  · rw [g]
  · omega
  · exact g.2.2.2.1

theorem newTreeCoarse_spec (hd : 0 < d) (hd3 : d ≤ 3) (mem : ℕ → Leaf d α) (init : Quad d → σ → α × σ) {l : ℕ}
    (hl : l ≤ 29) {r : NewRange} {jt : ℤ} {lo hi : ℕ} (hf : 0 ≤ r.firstQuad) (hl0 : 0 ≤ r.lastQuad)
    (hlo : (if jt = r.firstTree then r.firstQuad else 0) = (lo : ℤ))
    (hhi : (if jt = r.lastTree then r.lastQuad else ((2 ^ (d * l) : ℕ) : ℤ) - 1) = (hi : ℤ) - 1) (hlt : lo < hi)
    (hle : hi ≤ 2 ^ (d * l)) (s : σ) :
    ∃ tree s', newTreeCoarse mem init l (2 ^ (d * l)) r jt s = some (tree, s') ∧
      FilledTree init false l lo hi s s' tree := by
  obtain ⟨m1, m2, m3, m4⟩ := setMorton_spec hd hd3 hl (k := lo) (by omega)
  obtain ⟨m5, m6⟩ := setMorton_block hd hd3 hl (k := lo) (by omega)
  have ha : (if jt = r.firstTree then r.firstQuad.toNat else 0) = lo := by
    split at hlo
    · rw [if_pos (by assumption)]; omega
    · rw [if_neg (by assumption)]; omega
  unfold newTreeCoarse
  simp only [ha]
  by_cases hone : 2 ^ (d * l) = 1 ∨ (jt = r.firstTree ∧ r.firstQuad = ((2 ^ (d * l) : ℕ) : ℤ) - 1)
  · rw [if_pos hone]
    have hhl : hi = lo + 1 := by
      rcases hone with h | ⟨h1, h2⟩
      · omega
      · rw [if_pos h1] at hlo; omega
    refine ⟨_, _, rfl, ⟨⟨m3.symm, ?_⟩, ?_, ?_, ⟨_, [], rfl⟩, rfl, ?_, ?_, ?_, ⟨_, rfl, rfl⟩, ⟨_, rfl, rfl⟩, ?_⟩⟩
    · rw [hhl]; exact m4
    · intro x hx; rw [List.mem_singleton] at hx; subst hx; exact m1
    · intro x hx; rw [List.mem_singleton] at hx; subst hx; exact ⟨m2.le, fun _ => m2⟩
    · intro k
      dsimp only
      by_cases hk : k = (setMorton l lo : Quad d).level
      · rw [hk, Function.update_self]; simp
      · rw [Function.update_of_ne hk]
        simp [Ne.symm hk]
    · intro x hx; rw [List.mem_singleton] at hx; subst hx; exact le_rfl
    · exact ⟨_, List.mem_singleton.mpr rfl, rfl⟩
    · intro _ x hx r hr hsub
      rw [List.mem_singleton] at hx; subst hx
      exact ⟨_, hsub.1 (corner_mem _), m5, Or.inl m6⟩
  · rw [if_neg hone]
    push Not at hone
    have hl1 : l ≠ 0 := fun h => hone.1 (by rw [h]; simp)
    -- the end
    obtain ⟨k, incl, hb, hk1, hk2, hk3, hk4⟩ : ∃ k incl, (newEnd l (2 ^ (d * l)) r jt : Quad d × Bool) = (setMorton l k, incl) ∧
        lo < k ∧ k < 2 ^ (d * l) ∧ k + (if incl then 0 else 1) = hi ∧ (incl = false → k + 1 = 2 ^ (d * l)) := by
      unfold newEnd
      have hlo1 : lo + 1 < 2 ^ (d * l) := by
        split at hlo
        · rename_i h; have := hone.2 h; omega
        · have := hone.1; omega
      by_cases hj : jt = r.lastTree
      · rw [if_pos hj] at hhi ⊢
        by_cases hj2 : r.lastQuad = ((2 ^ (d * l) : ℕ) : ℤ) - 1
        · rw [if_pos hj2]
          exact ⟨_, _, rfl, by omega, by omega, by simp; omega, by simp <;> omega⟩
        · rw [if_neg hj2]
          exact ⟨_, _, rfl, by omega, by omega, by simp; omega, by simp <;> omega⟩
      · rw [if_neg hj] at hhi ⊢
        exact ⟨_, _, rfl, by omega, by omega, by simp; omega, by simp <;> omega⟩
    obtain ⟨b1, b2, b3, b4⟩ := setMorton_spec hd hd3 hl hk2
    obtain ⟨ms, g1, g2, g3⟩ := completeRegion_run hd init (setMorton l lo) (setMorton l k) true (!incl)
      ⟨⟨mem, 0⟩, fun _ => 0, 0, 0⟩ s m1 b1 (by rw [m4, b3]; exact Nat.mul_le_mul_left _ hk1) rfl
    set all : List (Quad d) := (if true = true then [setMorton l lo] else []) ++ ms ++ (if (!incl) = true then [setMorton l k] else [])
      with hall
    have hl0 : (⟨{ (⟨⟨mem, 0⟩, fun _ => 0, 0, 0⟩ : Tree d α) with maxlevel := 0 }, s⟩ : RegionSt d α σ).tree.quads.toList = [] := by
      simp [LArr.toList]
    obtain ⟨h4, h5, -⟩ := addQuad_foldl init all _ _ hl0
    obtain ⟨h6, h7⟩ := addQuad_counters init all ⟨{ (⟨⟨mem, 0⟩, fun _ => 0, 0, 0⟩ : Tree d α) with maxlevel := 0 }, s⟩
      (by rw [hl0]; funext k; simp [levelCount]) (by rw [hl0]; rfl)
    set st := all.foldl (addQuad init) ⟨{ (⟨⟨mem, 0⟩, fun _ => 0, 0, 0⟩ : Tree d α) with maxlevel := 0 }, s⟩ with hst
    rw [List.nil_append] at h4
    rw [h4] at h6 h7
    have hallne : all = setMorton l lo :: (ms ++ (if (!incl) = true then [setMorton l k] else [])) := by
      rw [hall]; simp
    have hfst := initAll_pairs init all s
    have hpath : Path (2 ^ (d * (30 - l)) * lo) all (2 ^ (d * (30 - l)) * hi) := by
      rw [hall, path_append]
      refine ⟨2 ^ (d * (30 - l)) * k, ?_, ?_⟩
      · rw [path_append]
        refine ⟨stop (setMorton l lo : Quad d), ⟨m3.symm, rfl⟩, ?_⟩
        rw [← b3]; exact g2
      · cases incl
        · exact ⟨b3.symm, by rw [b4, ← hk3]; rfl⟩
        · show _ = _; rw [← hk3]; rfl
    have hval : ∀ q ∈ all, Valid q ∧ q.level ≤ l := by
      intro q hq
      rw [hallne, List.mem_cons, List.mem_append] at hq
      rcases hq with rfl | hq | hq
      · exact ⟨m1, m2.le⟩
      · refine ⟨(g1 q hq).valid hd m1 b1, ?_⟩
        obtain ⟨p, hp, hw, hanc⟩ := g1 q hq
        have hq' : q.level = p.level + 1 := by
          unfold childrenv at hw
          obtain ⟨i, -, rfl⟩ := List.mem_map.mp hw
          rfl
        rcases hanc with h | h
        · have := ((anc_interval hd hp m1).mp h).2.2; omega
        · have := ((anc_interval hd hp b1).mp h).2.2; omega
      · cases incl
        · simp only [Bool.not_false, if_true, List.mem_singleton] at hq
          subst hq; exact ⟨b1, b2.le⟩
        · simp at hq
    have hmem : ∀ x ∈ (initAll init all s).1.map (fun x => (x.q, x.data)), x.1 ∈ all := by
      intro x hx
      have := List.mem_map_of_mem (f := Prod.fst) hx
      rw [hfst] at this; exact this
    obtain ⟨y, hy⟩ : ∃ y, (initAll init all s).1.getLast? = some y := by
      rw [hallne]; simp only [initAll]
      exact ⟨_, List.getLast?_eq_some_getLast (by simp)⟩
    have htop := topLevel_spec (initAll init all s).1
    have hq : (initAll init all s).1.map Leaf.q = all := initAll_length init all s
    rw [hq] at htop
    refine ⟨⟨(initAll init all s).1.map (fun x => (x.q, x.data)), st.tree.perLevel, st.tree.maxlevel, 0,
      some (P4est.firstDesc (setMorton l lo) QMAXLEVEL), some (P4est.lastDesc y.q QMAXLEVEL)⟩, st.s, ?_,
      ⟨?_, ?_, ?_, ?_, ?_, ?_, ?_, ?_, ?_, ?_, ?_⟩⟩
    · rw [hb]
      simp only [Option.bind_eq_bind, g3, Option.bind_some]
      rw [LArr.index_last (x := y) (by rw [h4]; exact hy)]
      simp only [Option.bind_some, h4]
    · rw [hfst]; exact hpath
    · intro x hx; exact (hval _ (hmem x hx)).1
    · intro x hx
      refine ⟨(hval _ (hmem x hx)).2, fun h => ?_⟩
      rcases h with h | h
      · cases h
      · exact absurd h hl1
    · simp only [hallne, initAll, List.map_cons]
      exact ⟨_, _, rfl⟩
    · rw [hfst, h5]
      apply Prod.ext
      · simp [List.map_map, Function.comp_def]
      · rfl
    · intro k
      show st.tree.perLevel k = _
      rw [h6, levelCount_eq, List.countP_map, List.countP_map]
      rfl
    · intro x hx
      show _ ≤ st.tree.maxlevel
      rw [h7]; exact htop.1 _ (hmem x hx)
    · show ∃ x ∈ _, _ = st.tree.maxlevel
      rw [h7]
      rcases htop.2 with ⟨q, hq1, hq2⟩ | ⟨h, -⟩
      · rw [← hfst] at hq1
        obtain ⟨x, hx, rfl⟩ := List.mem_map.mp hq1
        exact ⟨x, hx, hq2⟩
      · rw [hallne] at h; simp at h
    · simp only [hallne, initAll, List.map_cons, List.head?_cons]
      exact ⟨_, rfl, rfl⟩
    · refine ⟨(y.q, y.data), ?_, rfl⟩
      rw [List.getLast?_map, hy]; rfl
    · intro _ x hx r hr hsub
      obtain ⟨n5, n6⟩ := setMorton_block hd hd3 hl hk2
      have hin := hmem x hx
      rw [hallne, List.mem_cons, List.mem_append] at hin
      have hbcase : blockIndex l (setMorton l k : Quad d).c = hi ∨ blockIndex l (setMorton l k : Quad d).c + 1 = 2 ^ (d * l) := by
        rw [n6]
        cases incl
        · exact Or.inr (hk4 rfl)
        · exact Or.inl (by simpa using hk3)
      rcases hin with hin | hin | hin
      · rw [hin] at hsub
        exact ⟨_, hsub.1 (corner_mem _), m5, Or.inl m6⟩
      · obtain ⟨p, hp, hw, hanc⟩ := g1 _ hin
        have hpl : p.level < 29 := by
          have := m1.1
          have := b1.1
          rcases hanc with h | h
          · have := ((anc_interval hd hp m1).mp h).2.2; omega
          · have := ((anc_interval hd hp b1).mp h).2.2; omega
        have hpr : Cells p ⊆ Cells r := parent_subset hd hp hr hpl hw hsub
        rcases hanc with h | h
        · have := (isAncestor_iff hd hp.aligned m1.aligned).mp h
          exact ⟨_, hpr (this.1 (corner_mem _)), m5, Or.inl m6⟩
        · have := (isAncestor_iff hd hp.aligned b1.aligned).mp h
          exact ⟨_, hpr (this.1 (corner_mem _)), n5, Or.inr hbcase⟩
      · cases incl
        · simp only [Bool.not_false, if_true, List.mem_singleton] at hin
          rw [hin] at hsub
          exact ⟨_, hsub.1 (corner_mem _), n5, Or.inr hbcase⟩
        · simp at hin

end P4est
