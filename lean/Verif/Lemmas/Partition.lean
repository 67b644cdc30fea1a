import Verif.Spec.Forest
import Verif.Model.Partition
import Verif.Lemmas.Tree
import Verif.Lemmas.FamilyList
import Verif.Props.Curve

/-! # Segments of the global curve owned by ranks -/

namespace P4est
open Spec

variable {d : ℕ}

theorem Spec.InTree.int32 {p : Fin d → ℤ} (h : InTree p) : Int32 p := fun i => by
  have := h i; omega

theorem curve_lt_of_inTree {p : Fin d → ℤ} (h : InTree p) : curve p < 2 ^ (d * 30) := by
  have := blockIndex_root (level := 30) le_rfl h
  simpa [blockIndex] using this

theorem curve_surj {n : ℕ} (h : n < 2 ^ (d * 30)) : ∃ p : Fin d → ℤ, InTree p ∧ curve p = n := by
  obtain ⟨c, hc, hi⟩ := interleave_surj 30 n h
  refine ⟨fun i => c i, fun i => ⟨by positivity, show ((c i : ℕ) : ℤ) < 2 ^ 30 by have := hc i; omega⟩, ?_⟩
  rw [curve_eq]
  have e : (fun i => u32 ((c i : ℕ) : ℤ)) = c := by
    funext i
    have h1 := u32_cast ((c i : ℕ) : ℤ)
    have h2 := hc i
    omega
  rw [e, show (32 : ℕ) = 2 + 30 by norm_num, interleave_split, hi]
  have : interleave 2 (fun i => c i / 2 ^ 30) = 0 := by
    rw [← interleave_zero (d := d) 2]
    apply interleave_congr
    intro i
    rw [Nat.div_eq_of_lt (hc i)]
  rw [this]; simp

theorem path_of_cover {ls : List (Quad d)} {a b : ℕ} (hab : a ≤ b)
    (hl : ls.Pairwise (fun q r => stop q ≤ start r)) (hin : ∀ q ∈ ls, a ≤ start q ∧ stop q ≤ b)
    (hc : ∀ n, a ≤ n → n < b → ∃ q ∈ ls, start q ≤ n ∧ n < stop q) : Path a ls b := by
  induction ls generalizing a with
  | nil =>
    rcases Nat.lt_or_ge a b with h | h
    · obtain ⟨q, hq, -⟩ := hc a le_rfl h; simp at hq
    · exact Nat.le_antisymm hab h
  | cons q ls ih =>
    rw [List.pairwise_cons] at hl
    have h1 := hin q (by simp)
    have h2 := start_lt_stop q
    have ha : a = start q := by
      obtain ⟨r, hr, h3, h4⟩ := hc a le_rfl (by omega)
      rcases List.mem_cons.mp hr with rfl | hr
      · omega
      · have := hl.1 r hr; omega
    refine ⟨ha, ih h1.2 hl.2 (fun r hr => ⟨hl.1 r hr, (hin r (by simp [hr])).2⟩) fun n hn1 hn2 => ?_⟩
    obtain ⟨r, hr, h3, h4⟩ := hc n (by omega) hn2
    rcases List.mem_cons.mp hr with rfl | hr
    · omega
    · exact ⟨r, hr, h3, h4⟩

theorem Spec.TreeComplete.path (hd : 0 < d) {ls : List (Quad d)} (h : TreeComplete ls) :
    Path 0 ls (2 ^ (d * 30)) := by
  apply path_of_cover (Nat.zero_le _)
  · refine List.Pairwise.imp_of_mem ?_ h.linear
    intro q r hq hr hqr
    exact (before_disjoint_iff (h.valid q hq).aligned (h.valid r hr).aligned (h.valid q hq).int32
      (h.valid r hr).int32).mp hqr
  · exact fun q hq => ⟨Nat.zero_le _, valid_stop_le hd (h.valid q hq)⟩
  · intro n _ hn
    obtain ⟨p, hp, rfl⟩ := curve_surj hn
    obtain ⟨q, hq, hm⟩ := h.cover p hp
    exact ⟨q, hq, (mem_iff_pos (h.valid q hq).aligned (h.valid q hq).int32 hp.int32).mp hm⟩

/-- Converse: a gapless list of legal quadrants from one end of the tree to the other. -/
theorem treeComplete_of_path {ls : List (Quad d)} (hv : ∀ q ∈ ls, Valid q)
    (h : Path 0 ls (2 ^ (d * 30))) : TreeComplete ls where
  valid := hv
  linear := h.gapless.linear fun q hq => (hv q hq).extended
  cover p hp := (h.cover (fun q hq => ⟨(hv q hq).aligned, (hv q hq).int32⟩) hp.int32).mpr
    ⟨Nat.zero_le _, curve_lt_of_inTree hp⟩

/-! ### The global sequence -/

/-- First and end position of a leaf on the curve of the forest. -/
def gstart (x : ℕ × Quad d) : ℕ := x.1 * 2 ^ (d * 30) + start x.2
def gstop (x : ℕ × Quad d) : ℕ := x.1 * 2 ^ (d * 30) + stop x.2

theorem gstart_lt_gstop (x : ℕ × Quad d) : gstart x < gstop x := by
  have := start_lt_stop x.2; unfold gstart gstop; omega

def GPath : ℕ → List (ℕ × Quad d) → ℕ → Prop
  | a, [], b => a = b
  | a, x :: ls, b => a = gstart x ∧ GPath (gstop x) ls b

theorem GPath.le {a b : ℕ} {ls : List (ℕ × Quad d)} (h : GPath a ls b) : a ≤ b := by
  induction ls generalizing a with
  | nil => exact Nat.le_of_eq h
  | cons x ls ih =>
    have := ih h.2
    have := gstart_lt_gstop x
    have := h.1
    omega

theorem GPath.lt {a b : ℕ} {ls : List (ℕ × Quad d)} (h : GPath a ls b) (hne : ls ≠ []) : a < b := by
  cases ls with
  | nil => exact absurd rfl hne
  | cons x ls =>
    have := GPath.le h.2
    have := gstart_lt_gstop x
    have := h.1
    omega

theorem gpath_append {a c : ℕ} {l1 l2 : List (ℕ × Quad d)} :
    GPath a (l1 ++ l2) c ↔ ∃ b, GPath a l1 b ∧ GPath b l2 c := by
  induction l1 generalizing a with
  | nil => simp [GPath]
  | cons q ls ih =>
    simp only [List.cons_append, GPath, ih]
    constructor
    · rintro ⟨h, b, h1, h2⟩; exact ⟨b, ⟨h, h1⟩, h2⟩
    · rintro ⟨b, ⟨h, h1⟩, h2⟩; exact ⟨h, b, h1, h2⟩

theorem GPath.inj {a b c : ℕ} {ls : List (ℕ × Quad d)} (h1 : GPath a ls b) (h2 : GPath a ls c) : b = c := by
  induction ls generalizing a with
  | nil => exact (h1 : a = b).symm.trans h2
  | cons q ls ih => exact ih h1.2 h2.2

theorem GPath.find {a b : ℕ} {ls : List (ℕ × Quad d)} (h : GPath a ls b) {n : ℕ} (h1 : a ≤ n) (h2 : n < b) :
    ∃ x ∈ ls, gstart x ≤ n ∧ n < gstop x := by
  induction ls generalizing a with
  | nil => have : a = b := h; omega
  | cons x ls ih =>
    by_cases hx : n < gstop x
    · have := h.1
      exact ⟨x, by simp, by omega, hx⟩
    · obtain ⟨y, hy, h3⟩ := ih h.2 (by omega)
      exact ⟨y, by simp [hy], h3⟩

theorem GPath.mem {a b : ℕ} {ls : List (ℕ × Quad d)} (h : GPath a ls b) {x : ℕ × Quad d} (hx : x ∈ ls) :
    a ≤ gstart x ∧ gstop x ≤ b := by
  induction ls generalizing a with
  | nil => simp at hx
  | cons r ls ih =>
    have h1 := gstart_lt_gstop r
    have h2 := h.1
    rcases List.mem_cons.mp hx with rfl | hx
    · exact ⟨h2.le, GPath.le h.2⟩
    · have := ih h.2 hx; omega

theorem gpath_map (n : ℕ) {a b : ℕ} {ls : List (Quad d)} (h : Path a ls b) :
    GPath (n * 2 ^ (d * 30) + a) (ls.map fun q => (n, q)) (n * 2 ^ (d * 30) + b) := by
  induction ls generalizing a with
  | nil => have : a = b := h; subst this; exact rfl
  | cons q ls ih => exact ⟨by rw [h.1]; rfl, ih h.2⟩

theorem gpath_tag (hd : 0 < d) {trees : List (List (Quad d))} (h : ∀ l ∈ trees, TreeComplete l) (n : ℕ) :
    GPath (n * 2 ^ (d * 30)) (tagFrom n trees) ((n + trees.length) * 2 ^ (d * 30)) := by
  induction trees generalizing n with
  | nil => exact rfl
  | cons l ls ih =>
    rw [tagFrom, gpath_append]
    refine ⟨(n + 1) * 2 ^ (d * 30), ?_, ?_⟩
    · have := gpath_map n ((h l (by simp)).path hd)
      rw [Nat.add_zero] at this
      rwa [Nat.add_one_mul]
    · have := ih (fun l hl => h l (by simp [hl])) (n + 1)
      rwa [List.length_cons, show n + (ls.length + 1) = n + 1 + ls.length by ring]

theorem gpath_flatMap {P : ℕ} {leaves : ℕ → List (ℕ × Quad d)} {a b : ℕ}
    (h : GPath a ((List.range P).flatMap leaves) b) :
    ∃ s : ℕ → ℕ, s 0 = a ∧ s P = b ∧ ∀ p, p < P → GPath (s p) (leaves p) (s (p + 1)) := by
  induction P generalizing b with
  | zero => exact ⟨fun _ => a, rfl, h, fun p hp => by omega⟩
  | succ P ih =>
    rw [List.range_succ, List.flatMap_append, gpath_append] at h
    obtain ⟨m, h1, h2⟩ := h
    obtain ⟨s, hs0, hsP, hs⟩ := ih h1
    refine ⟨fun p => if p ≤ P then s p else b, by simp [hs0], by simp, fun p hp => ?_⟩
    by_cases hpP : p = P
    · subst hpP
      simp only [le_refl, if_true, Nat.not_succ_le_self, if_false]
      simpa [hsP] using h2
    · have h3 : p ≤ P := by omega
      have h4 : p + 1 ≤ P := by omega
      simp only [if_pos h3, if_pos h4]
      exact hs p (by omega)

theorem mem_tagFrom {β : Type} {n : ℕ} {trees : List (List β)} {x : ℕ × β} (h : x ∈ tagFrom n trees) :
    n ≤ x.1 ∧ x.1 < n + trees.length ∧ ∃ l ∈ trees, x.2 ∈ l := by
  induction trees generalizing n with
  | nil => simp [tagFrom] at h
  | cons l ls ih =>
    rw [tagFrom, List.mem_append] at h
    rcases h with h | h
    · obtain ⟨q, hq, rfl⟩ := List.mem_map.mp h
      exact ⟨le_rfl, by simp, l, by simp, hq⟩
    · obtain ⟨h1, h2, m, hm, h3⟩ := ih h
      refine ⟨by omega, by rw [List.length_cons]; omega, m, by simp [hm], h3⟩

/-- The segment boundaries of a distributed forest. -/
structure Segments (trees : List (List (Quad d))) (P : ℕ) (leaves : ℕ → List (ℕ × Quad d)) (s : ℕ → ℕ) :
    Prop where
  zero : s 0 = 0
  last : s P = trees.length * 2 ^ (d * 30)
  path : ∀ p, p < P → GPath (s p) (leaves p) (s (p + 1))
  leaf : ∀ p, p < P → ∀ x ∈ leaves p, x.1 < trees.length ∧ Valid x.2

theorem Spec.Distributed.segments (hd : 0 < d) {trees : List (List (Quad d))} {P : ℕ}
    {leaves : ℕ → List (ℕ × Quad d)} (h : Distributed trees P leaves) :
    ∃ s, Segments trees P leaves s := by
  have h1 := gpath_tag hd h.complete 0
  rw [Nat.zero_mul, Nat.zero_add] at h1
  have h2 := h.split
  unfold forestLeaves at h2
  rw [← h2] at h1
  obtain ⟨s, h3, h4, h5⟩ := gpath_flatMap h1
  refine ⟨s, h3, h4, h5, fun p hp x hx => ?_⟩
  have : x ∈ tagFrom 0 trees := by
    rw [← h2]; exact List.mem_flatMap.mpr ⟨p, List.mem_range.mpr hp, hx⟩
  obtain ⟨-, h6, l, hl, h7⟩ := mem_tagFrom this
  exact ⟨by omega, (h.complete l hl).valid _ h7⟩

theorem Segments.mono {trees : List (List (Quad d))} {P : ℕ} {leaves : ℕ → List (ℕ × Quad d)} {s : ℕ → ℕ}
    (h : Segments trees P leaves s) {p r : ℕ} (hpr : p ≤ r) (hr : r ≤ P) : s p ≤ s r := by
  induction r with
  | zero => rw [show p = 0 by omega]
  | succ r ih =>
    rcases Nat.lt_or_ge p (r + 1) with h1 | h1
    · exact (ih (by omega) (by omega)).trans (GPath.le (h.path r (by omega)))
    · rw [show p = r + 1 by omega]

/-! ### Positions -/

/-- `g` denotes the position `n` of the curve of the forest. -/
def At (g : GPos d) (n : ℕ) : Prop := ∃ t : ℕ, g.tree = t ∧ InTree g.c ∧ t * 2 ^ (d * 30) + curve g.c = n

theorem At.pos {g : GPos d} {n : ℕ} (h : At g n) : forestPos g.tree g.c = n := by
  obtain ⟨t, h1, h2, h3⟩ := h
  unfold forestPos
  rw [h1, ← h3]; push_cast; rfl

theorem forestPos_lt_iff {t u : ℤ} {p r : Fin d → ℤ} (hp : InTree p) (hr : InTree r) :
    forestPos t p < forestPos u r ↔ t < u ∨ t = u ∧ curve p < curve r := by
  unfold forestPos
  have h1 := curve_lt_of_inTree hp
  have h2 := curve_lt_of_inTree hr
  set V : ℤ := 2 ^ (d * 30) with hV
  have h1' : (curve p : ℤ) < V := by rw [hV]; exact_mod_cast h1
  have h2' : (curve r : ℤ) < V := by rw [hV]; exact_mod_cast h2
  rcases lt_trichotomy t u with h | h | h
  · refine ⟨fun _ => Or.inl h, fun _ => ?_⟩
    nlinarith [(Nat.cast_nonneg (curve r) : (0:ℤ) ≤ curve r), (Nat.cast_nonneg (curve p) : (0:ℤ) ≤ curve p)]
  · subst h; constructor
    · intro h; exact Or.inr ⟨rfl, by omega⟩
    · rintro (h | ⟨-, h⟩) <;> omega
  · constructor
    · intro hlt
      nlinarith [(Nat.cast_nonneg (curve r) : (0:ℤ) ≤ curve r), (Nat.cast_nonneg (curve p) : (0:ℤ) ≤ curve p)]
    · rintro (h' | ⟨h', -⟩) <;> omega

theorem At.eq_iff {g g' : GPos d} {n n' : ℕ} (h : At g n) (h' : At g' n') : g = g' ↔ n = n' := by
  constructor
  · rintro rfl
    have h1 := h.pos; have h2 := h'.pos
    rw [h1] at h2; exact_mod_cast h2
  · rintro rfl
    have h1 := h.pos; have h2 := h'.pos
    obtain ⟨t, a1, a2, a3⟩ := h
    obtain ⟨u, b1, b2, b3⟩ := h'
    have e := h1.trans h2.symm
    have l1 := mt (forestPos_lt_iff (t := g.tree) (u := g'.tree) a2 b2).mpr (by omega)
    have l2 := mt (forestPos_lt_iff (t := g'.tree) (u := g.tree) b2 a2).mpr (by omega)
    have hc : g.c = g'.c := curve_inj a2.int32 b2.int32 (by omega)
    cases g; cases g'
    simp only [GPos.mk.injEq] at *
    exact ⟨by omega, hc⟩

theorem backfill_ge (g : ℕ → GPos d) (n j : ℕ) (h : n ≤ j) : backfill g n j = g j := by
  induction n generalizing g with
  | zero => rfl
  | succ n ih =>
    rw [backfill, ih _ (by omega)]
    split
    · rw [Function.update_of_ne (by omega)]
    · rfl

theorem backfill_lt (g : ℕ → GPos d) (n j : ℕ) (h : j < n) :
    backfill g n j = if (g j).tree < 0 then backfill g n (j + 1) else g j := by
  induction n generalizing g with
  | zero => omega
  | succ n ih =>
    rw [backfill]
    by_cases hj : j = n
    · subst hj
      rw [backfill_ge _ _ _ le_rfl, backfill_ge _ _ _ (by omega)]
      split
      · rw [Function.update_self, Function.update_of_ne (by omega)]
      · rfl
    · rw [ih _ (by omega)]
      have : (if (g n).tree < 0 then Function.update g n (g (n + 1)) else g) j = g j := by
        split
        · rw [Function.update_of_ne hj]
        · rfl
      rw [this]

theorem inTree_zero : InTree (fun _ : Fin d => (0:ℤ)) := fun _ => ⟨le_rfl, by norm_num⟩

theorem curve_zero : curve (fun _ : Fin d => (0:ℤ)) = 0 := start_root

theorem globalPartition_length (leaves : ℕ → List (ℕ × Quad d)) (P T : ℕ) :
    (globalPartition leaves P T).length = P + 1 := by simp [globalPartition]

/-- The entries of `global_first_position`. -/
theorem globalPartition_get (leaves : ℕ → List (ℕ × Quad d)) (P T p : ℕ) (hp : p ≤ P) :
    (globalPartition leaves P T)[p]? = some (backfill
      (fun i => if i = P then ⟨T, fun _ => 0⟩ else rankInput (leaves i)) P p) := by
  unfold globalPartition
  rw [List.getElem?_map, List.getElem?_range (by omega)]
  rfl

theorem globalPartition_step (leaves : ℕ → List (ℕ × Quad d)) (P T p : ℕ) (hp : p < P) :
    (globalPartition leaves P T)[p]? =
      match leaves p with
      | [] => (globalPartition leaves P T)[p + 1]?
      | (t, q) :: _ => some ⟨t, q.c⟩ := by
  rw [globalPartition_get _ _ _ _ hp.le, globalPartition_get _ _ _ _ (by omega), backfill_lt _ _ _ hp]
  have hpP : p ≠ P := by omega
  simp only [if_neg hpP]
  cases h : leaves p with
  | nil => rw [if_pos (by simp [rankInput])]
  | cons x xs => rw [if_neg (by simp [rankInput])]; rfl

theorem globalPartition_at (hd : 0 < d) {trees : List (List (Quad d))} {P : ℕ}
    {leaves : ℕ → List (ℕ × Quad d)} {s : ℕ → ℕ} (h : Segments trees P leaves s) (p : ℕ) (hp : p ≤ P) :
    ∃ g, (globalPartition leaves P trees.length)[p]? = some g ∧ At g (s p) := by
  obtain ⟨k, rfl⟩ : ∃ k, p = P - k := ⟨P - p, by omega⟩
  induction k with
  | zero =>
    refine ⟨⟨trees.length, fun _ => 0⟩, ?_, ?_⟩
    · rw [globalPartition_get _ _ _ _ hp, Nat.sub_zero, backfill_ge _ _ _ le_rfl, if_pos rfl]
    · exact ⟨trees.length, rfl, inTree_zero, by rw [Nat.sub_zero, h.last]; simp only [curve_zero, Nat.add_zero]⟩
  | succ k ih =>
    by_cases hk : P - (k + 1) = P - k
    · rw [hk]; exact ih (by omega)
    · obtain ⟨p, hpe⟩ : ∃ p, p = P - (k + 1) := ⟨_, rfl⟩
      rw [← hpe, globalPartition_step _ _ _ _ (by omega)]
      have hpath := h.path p (by omega)
      rw [show P - k = p + 1 by omega] at ih
      cases hl : leaves p with
      | nil =>
        rw [hl] at hpath
        have : s p = s (p + 1) := hpath
        rw [this]; exact ih (by omega)
      | cons x xs =>
        have hleaf := h.leaf p (by omega) x (by simp [hl])
        rw [hl] at hpath
        exact ⟨_, rfl, x.1, rfl, hleaf.2.2.2, hpath.1.symm⟩

theorem beginsBefore_iff (hd : 0 < d) {g : GPos d} {t : ℤ} {q : Quad d} (hg : InTree g.c) (hq : InTree q.c) :
    beginsBefore g t q = true ↔ forestPos t q.c < forestPos g.tree g.c := by
  rw [forestPos_lt_iff hq hg]
  unfold beginsBefore
  simp only [Bool.or_eq_true, Bool.and_eq_true, decide_eq_true_eq]
  rw [compare_neg_iff hd hq.int32 hg.int32]
  unfold Before
  constructor
  · rintro (h | ⟨⟨h1, h2⟩, i, h3⟩)
    · exact Or.inl h
    · refine Or.inr ⟨h1, ?_⟩
      rcases h2 with h2 | ⟨h2, -⟩
      · exact h2
      · exact absurd (congrFun (curve_inj hq.int32 hg.int32 h2) i) h3
  · rintro (h | ⟨h1, h2⟩)
    · exact Or.inl h
    · refine Or.inr ⟨⟨h1, Or.inl h2⟩, ?_⟩
      by_contra hc
      push Not at hc
      have : q.c = g.c := funext hc
      rw [this] at h2; omega

theorem beginsAfter_iff (hd : 0 < d) {g : GPos d} {t : ℤ} {q : Quad d} (hg : InTree g.c) (hq : InTree q.c) :
    beginsAfter g t q = true ↔ forestPos g.tree g.c ≤ forestPos t q.c := by
  rw [← not_lt, forestPos_lt_iff hq hg]
  unfold beginsAfter
  simp only [Bool.or_eq_true, Bool.and_eq_true, decide_eq_true_eq]
  have hcmp : compare g.quad q ≤ 0 ↔ ¬ Before q g.quad := by
    rw [← not_lt, ← compare_pos_iff hd hg.int32 hq.int32]
  rw [hcmp]
  have hinj := fun h => congrFun (curve_inj hq.int32 hg.int32 h)
  unfold Before
  change _ ∨ _ ∧ (¬ (curve q.c < curve g.c ∨ curve q.c = curve g.c ∧ _) ∨ _) ↔ _
  constructor
  · rintro (h | ⟨h1, h2 | h2⟩)
    · omega
    · push Not at h2; omega
    · have : q.c = g.c := funext h2
      rw [this] at *; omega
  · intro h
    push Not at h
    rcases lt_trichotomy t g.tree with h1 | h1 | h1
    · omega
    · refine Or.inr ⟨h1, ?_⟩
      have h2 := h.2 h1
      rcases Nat.eq_or_lt_of_le h2 with h3 | h3
      · exact Or.inr (hinj h3.symm)
      · exact Or.inl (by omega)
    · exact Or.inl h1

end P4est
