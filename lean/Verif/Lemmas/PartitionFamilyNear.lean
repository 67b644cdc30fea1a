import Verif.Lemmas.PartitionFamily
import Verif.Lemmas.PartitionFamilyComm
import Verif.Props.Repartition
import Verif.Lemmas.FamilyList

/-! # The messages of `p4est_partition_for_coarsening` -/

namespace P4est
open Spec

variable {d : ℕ}

/-! ### Trees in a sequence of leaves -/

theorem TreeSorted.filter_eq {β : Type} {L : List (ℕ × β)} (h : TreeSorted L) (t : ℕ) :
    L.filter (fun x => x.1 = t) =
      P4est.slice (L.filter fun x => x.1 < t).length (L.filter fun x => x.1 < t + 1).length L := by
  induction L with
  | nil => simp [P4est.slice]
  | cons x L ih =>
    have h' := List.pairwise_cons.mp h
    have ih := ih h'.2
    rcases Nat.lt_trichotomy x.1 t with hx | hx | hx
    · rw [List.filter_cons_of_neg (by simp; omega), List.filter_cons_of_pos (by simpa using hx),
        List.filter_cons_of_pos (by simp; omega), ih]
      simp [P4est.slice]
    · have e : (L.filter fun x => x.1 < t) = [] := by
        rw [List.filter_eq_nil_iff]; intro y hy; have := h'.1 y hy; simp; omega
      rw [List.filter_cons_of_pos (by simpa using hx), List.filter_cons_of_neg (by simp; omega),
        List.filter_cons_of_pos (by simp; omega), ih, e]
      simp [P4est.slice]
    · have e : (L.filter fun x => x.1 < t) = [] := by
        rw [List.filter_eq_nil_iff]; intro y hy; have := h'.1 y hy; simp; omega
      have e1 : (L.filter fun x => x.1 < t + 1) = [] := by
        rw [List.filter_eq_nil_iff]; intro y hy; have := h'.1 y hy; simp; omega
      rw [List.filter_cons_of_neg (by simp; omega), List.filter_cons_of_neg (by simp; omega),
        List.filter_cons_of_neg (by simp; omega), ih, e, e1]
      simp [P4est.slice]

theorem TreeSorted.lt_iff {β : Type} {L : List (ℕ × β)} (h : TreeSorted L) (s : ℕ) {i : ℕ} {x : ℕ × β}
    (hx : L[i]? = some x) : i < (L.filter fun x => x.1 < s).length ↔ x.1 < s := by
  obtain ⟨hi, rfl⟩ := List.getElem?_eq_some_iff.mp hx
  have := filter_lt_prefix (L.map Prod.fst) (List.pairwise_map.mpr h) s i (by simpa using hi)
  rw [List.filter_map, List.length_map, List.getElem_map] at this
  exact this

theorem nearTreeLoop_spec {T : ℕ} {Ls : List (ℕ × Quad d)} {rt : RankTrees (Quad d)} (h : Holds T Ls rt)
    {idx t : ℕ} {q : Quad d} (hx : Ls[idx]? = some (t, q)) (n tc : ℕ) (s1 : ℤ)
    (hn : (tc : ℤ) + n = rt.last + 1) (htc : tc ≤ t + 1) (hs : tc = t + 1 → s1 = t) :
    nearTreeLoop rt idx n tc (s1, Ls.length) = some ((t : ℤ), ((Ls.filter fun x => x.1 < t + 1).length : ℤ)) := by
  have hmem : (t, q) ∈ Ls := List.mem_of_getElem? hx
  have hb := (h.bounds hmem).2
  simp only at hb
  have hne : Ls ≠ [] := by rintro rfl; simp at hmem
  have h0 := h.nonempty hne
  induction n generalizing tc s1 with
  | zero =>
    unfold nearTreeLoop
    rw [hs (by omega)]
    congr 3
    rw [List.filter_eq_self.mpr]
    intro y hy
    have := (h.bounds hy).2
    simp only [decide_eq_true_eq]; omega
  | succ n ih =>
    unfold nearTreeLoop
    rw [h.trees, if_pos (by omega), C30_tree_offsets T Ls rt h]
    have hiff := h.sorted.lt_iff tc hx
    simp only at hiff
    split
    · rename_i hle
      exact ih _ _ (by push_cast at hn ⊢; omega) (by omega) (by intro h; omega)
    · rename_i hle
      have : tc = t + 1 := by omega
      rw [this, hs this]

/-! ### The two scans -/

theorem nearScan_down {tree : List (Quad d)} {p : Quad d} {level : ℕ} (base : ℤ) (lo n : ℕ) (best : ℤ) {Q : ℕ → Prop}
    (hQ : ∀ i, lo ≤ i → i < lo + n → ∃ q, getZ tree (i - base) = some q ∧ (Q i ↔ q.level = level ∧ isParent p q = true)) :
    ∃ m, lo ≤ m ∧ m ≤ lo + n ∧ (∀ i, m ≤ i → i < lo + n → Q i) ∧ (m = lo ∨ ¬ Q (m - 1)) ∧
      nearScan tree base p level (-1) n ((lo + n : ℕ) - 1) best = some (if m = lo + n then best else (m : ℤ)) := by
  induction n generalizing best with
  | zero => exact ⟨lo, le_rfl, by omega, fun i h1 h2 => by omega, Or.inl rfl, by simp [nearScan]⟩
  | succ n ih =>
    obtain ⟨q, hq, hiff⟩ := hQ (lo + n) (by omega) (by omega)
    have e : (((lo + (n + 1) : ℕ) : ℤ) - 1) = ((lo + n : ℕ) : ℤ) := by push_cast; ring
    unfold nearScan
    simp only [bind, Option.bind]
    rw [e, hq]
    simp only
    by_cases hQn : Q (lo + n)
    · have hh := hiff.mp hQn
      rw [if_pos hh.1, if_pos hh.2]
      obtain ⟨m, a1, a2, a3, a4, a5⟩ := ih ((lo + n : ℕ) : ℤ) (fun i h1 h2 => hQ i h1 (by omega))
      refine ⟨m, a1, by omega, fun i h1 h2 => ?_, a4, ?_⟩
      · rcases Nat.lt_or_ge i (lo + n) with h3 | h3
        · exact a3 i h1 h3
        · rwa [show i = lo + n by omega]
      · rw [← sub_eq_add_neg, a5, if_neg (show m ≠ lo + (n + 1) by omega)]
        split
        · rename_i hm; rw [hm]
        · rfl
    · refine ⟨lo + (n + 1), by omega, le_rfl, fun i h1 h2 => by omega, Or.inr ?_, ?_⟩
      · rwa [show lo + (n + 1) - 1 = lo + n by omega]
      · rw [if_pos rfl]
        split
        · rename_i h1
          rw [if_neg (fun h2 => hQn (hiff.mpr ⟨h1, h2⟩))]
        · rfl

theorem nearScan_up {tree : List (Quad d)} {p : Quad d} {level : ℕ} (base : ℤ) (x n : ℕ) (best : ℤ) {Q : ℕ → Prop}
    (hQ : ∀ i, x ≤ i → i < x + n → ∃ q, getZ tree (i - base) = some q ∧ (Q i ↔ q.level = level ∧ isParent p q = true)) :
    ∃ m, x ≤ m ∧ m ≤ x + n ∧ (∀ i, x ≤ i → i < m → Q i) ∧ (m = x + n ∨ ¬ Q m) ∧
      nearScan tree base p level 1 n x best = some (if m = x then best else (m : ℤ) - 1) := by
  induction n generalizing best x with
  | zero => exact ⟨x, le_rfl, by omega, fun i h1 h2 => by omega, Or.inl rfl, by simp [nearScan]⟩
  | succ n ih =>
    obtain ⟨q, hq, hiff⟩ := hQ x (by omega) (by omega)
    unfold nearScan
    simp only [bind, Option.bind]
    rw [hq]
    simp only
    by_cases hQn : Q x
    · have hh := hiff.mp hQn
      rw [if_pos hh.1, if_pos hh.2]
      obtain ⟨m, a1, a2, a3, a4, a5⟩ := ih (x + 1) (x : ℤ) (fun i h1 h2 => hQ i (by omega) (by omega))
      refine ⟨m, by omega, by omega, fun i h1 h2 => ?_, by rw [← Nat.add_assoc, Nat.add_right_comm]; exact a4, ?_⟩
      · rcases Nat.lt_or_ge x i with h3 | h3
        · exact a3 i h3 h2
        · rwa [show i = x by omega]
      · push_cast at a5
        rw [a5, if_neg (show m ≠ x by omega)]
        split
        · rename_i hm; rw [hm]; push_cast; congr 1; ring
        · rfl
    · refine ⟨x, le_rfl, by omega, fun i h1 h2 => by omega, Or.inr hQn, ?_⟩
      rw [if_pos rfl]
      split
      · rename_i h1
        rw [if_neg (fun h2 => hQn (hiff.mpr ⟨h1, h2⟩))]
      · rfl

/-! ### The message -/

/-- Leaf number `j` is a child of `p` in tree `t`. -/
def Sib (L : List (ℕ × Quad d)) (t : ℕ) (p : Quad d) (j : ℕ) : Prop := ∃ q, L[j]? = some (t, q) ∧ isParent p q = true

/-- The content of the message for `cut` of a rank with the leaves `[a, b)`: near the leaf `k` there
is the run `[mn, mx]` of siblings. -/
structure NearMsg (L : List (ℕ × Quad d)) (C a b cut : ℕ) (k t : ℕ) (q : Quad d) (m : Near d) : Prop where
  ak : a ≤ k
  kb : k < b
  owner : a ≤ cut → cut < b → k = cut
  before : b ≤ cut → k + 1 = b
  after : cut < a → k = a
  leaf : L[k]? = some (t, q)
  tree : m.tree = t
  root : q.level = 0 → m.quad = q ∧ m.localNum = 1
  run : 0 < q.level → m.quad = parent q ∧ ∃ mn mx, a ≤ mn ∧ mn ≤ k ∧ k ≤ mx ∧ mx < b ∧ cut < mn + C ∧ mx + 2 ≤ cut + C ∧
    (∀ i, mn ≤ i → i ≤ mx → Sib L t (parent q) i) ∧
    (mn = a ∨ mn + C = cut + 1 ∨ ¬ Sib L t (parent q) (mn - 1)) ∧
    (mx + 1 = b ∨ mx + 2 = cut + C ∨ ¬ Sib L t (parent q) (mx + 1)) ∧
    m.localNum = if a ≤ cut ∧ cut < b then (((cut - mn) * C + (mx - cut) : ℕ) : ℤ) else ((mx - mn + 1 : ℕ) : ℤ)

theorem getZ_nat {γ : Type} (l : List γ) (i : ℕ) : getZ l (i : ℤ) = l[i]? := by
  unfold getZ; rw [if_neg (by omega), Int.toNat_natCast]

theorem nearCut_spec {a b C cut : ℕ} (hab : a < b) (hC : 3 ≤ C) (h1 : a + 2 ≤ cut + C) (h2 : cut + 1 < b + C) :
    ∃ k : ℕ, nearCut a b cut = k ∧ a ≤ k ∧ k < b ∧ (a ≤ cut → cut < b → k = cut) ∧
      (b ≤ cut → k + 1 = b) ∧ (cut < a → k = a) ∧ cut + 1 ≤ k + C ∧ k + 2 ≤ cut + C := by
  obtain ⟨k, hk, k1, k2, k3, k4, k5⟩ : ∃ k : ℕ, nearCut a b cut = k ∧ a ≤ k ∧ k < b ∧ (a ≤ cut → cut < b → k = cut) ∧
      (b ≤ cut → k + 1 = b) ∧ (cut < a → k = a) := by
    unfold nearCut
    split
    · exact ⟨cut, rfl, by omega, by omega, fun _ _ => rfl, fun _ => by omega, fun _ => by omega⟩
    · split
      · refine ⟨a, rfl, le_rfl, hab, fun _ _ => by omega, fun _ => ?_, fun _ => rfl⟩
        rename_i h3 h4 h5
        rw [abs_of_nonneg (by omega), abs_of_nonneg (by omega)] at h4
        omega
      · refine ⟨b - 1, by omega, by omega, by omega, fun _ _ => by omega, fun _ => by omega, fun _ => ?_⟩
        rename_i h3 h4 h5
        rw [abs_of_neg (by omega), abs_of_nonpos (by omega)] at h4
        omega
  refine ⟨k, hk, k1, k2, k3, k4, k5, ?_⟩
  rcases Nat.lt_or_ge cut a with h | h
  · have := k5 h; omega
  · rcases Nat.lt_or_ge cut b with h' | h'
    · have := k3 h h'; omega
    · have := k4 h'; omega

theorem nearTree_spec {T : ℕ} {L Ls : List (ℕ × Quad d)} {rt : RankTrees (Quad d)} (h : Holds T Ls rt)
    {a b k : ℕ} (hL : Ls = slice a b L) (hlen : Ls.length = b - a) (k1 : a ≤ k) (k2 : k < b) :
    ∃ t q f g, L[k]? = some (t, q) ∧ rt.trees[t]? = some (leavesIn Ls t) ∧ treeOffset rt t = f ∧ a + f ≤ k ∧ k < a + g ∧ a + g ≤ b ∧
      nearTreeLoop rt ((k : ℤ) - a) (localTrees rt) rt.first.toNat (-1, (b : ℤ) - a) = some ((t : ℤ), (g : ℤ)) ∧
      getZ (leavesIn Ls t) ((k : ℤ) - (a + f)) = some q ∧
      (∀ i, a ≤ i → i < b → ∀ x, L[i]? = some x → (x.1 < t ↔ i < a + f) ∧ (x.1 < t + 1 ↔ i < a + g)) ∧
      (∀ i, a + f ≤ i → i < a + g → ∃ q', getZ (leavesIn Ls t) ((i : ℤ) - (a + f)) = some q' ∧
        (0 < q.level → (Sib L t (parent q) i ↔ q'.level = q.level ∧ isParent (parent q) q' = true))) := by
  have hne : Ls ≠ [] := by intro h0; rw [h0] at hlen; simp at hlen; omega
  obtain ⟨⟨t, q⟩, hx⟩ : ∃ x, Ls[k - a]? = some x := ⟨_, List.getElem?_eq_getElem (by omega)⟩
  have hget : ∀ i, a ≤ i → i < b → L[i]? = Ls[i - a]? := by
    intro i h3 h4
    rw [hL, slice_get (by omega), show a + (i - a) = i by omega]
  have hxL : L[k]? = some (t, q) := by rw [hget k k1 k2]; exact hx
  have hmem : (t, q) ∈ Ls := List.mem_of_getElem? hx
  have htT : t < T := h.lt hmem
  have h0 := h.nonempty hne
  have hbd := h.bounds hmem
  simp only at hbd
  have hs := h.sorted
  obtain ⟨f, hf⟩ : ∃ f, f = (Ls.filter fun x => x.1 < t).length := ⟨_, rfl⟩
  obtain ⟨g, hg⟩ : ∃ g, g = (Ls.filter fun x => x.1 < t + 1).length := ⟨_, rfl⟩
  have hfk : f ≤ k - a := by have := hs.lt_iff t hx; simp only at this; omega
  have hkg : k - a < g := by have := hs.lt_iff (t + 1) hx; simp only at this; omega
  have hglen : g ≤ Ls.length := by rw [hg]; exact List.length_filter_le ..
  have hloop : nearTreeLoop rt ((k : ℤ) - a) (localTrees rt) rt.first.toNat (-1, (b : ℤ) - a) = some ((t : ℤ), (g : ℤ)) := by
    rw [hg, ← nearTreeLoop_spec h hx (localTrees rt) rt.first.toNat (-1) (by unfold localTrees; omega) (by omega)
      (by intro h3; omega)]
    congr 1
    · omega
    · rw [hlen]; congr 1; omega
  have htree : ∀ i, a + f ≤ i → i < a + g → (leavesIn Ls t)[i - a - f]? = (L[i]?).map Prod.snd := by
    intro i h3 h4
    unfold leavesIn
    rw [hs.filter_eq, List.getElem?_map, ← hf, ← hg, slice_get (by omega), show f + (i - a - f) = i - a by omega,
      hget i (by omega) (by omega)]
  have hfst : ∀ i, a ≤ i → i < b → ∀ x, L[i]? = some x → (x.1 < t ↔ i < a + f) ∧ (x.1 < t + 1 ↔ i < a + g) := by
    intro i h3 h4 x h5
    rw [hget i h3 h4] at h5
    have e1 := hs.lt_iff t h5
    have e2 := hs.lt_iff (t + 1) h5
    rw [← hf] at e1; rw [← hg] at e2
    exact ⟨by rw [← e1]; omega, by rw [← e2]; omega⟩
  have hscan : ∀ i, a + f ≤ i → i < a + g → ∃ q', getZ (leavesIn Ls t) ((i : ℤ) - (a + f)) = some q' ∧
      (0 < q.level → (Sib L t (parent q) i ↔ q'.level = q.level ∧ isParent (parent q) q' = true)) := by
    intro i h3 h4
    obtain ⟨x, hx'⟩ : ∃ x, L[i]? = some x := by
      rw [hget i (by omega) (by omega)]; exact ⟨_, List.getElem?_eq_getElem (by omega)⟩
    refine ⟨x.2, ?_, ?_⟩
    · have e : (i : ℤ) - (a + f) = ((i - a - f : ℕ) : ℤ) := by omega
      rw [e, getZ_nat, htree i h3 h4, hx']; rfl
    · intro hl
      have e := hfst i (by omega) (by omega) x hx'
      have ht : x.1 = t := by omega
      unfold Sib
      rw [hx']
      constructor
      · rintro ⟨q', e1, e2⟩
        injection e1 with e1; subst e1
        refine ⟨?_, e2⟩
        have e4 := (isParent_iff.mp e2).1
        have e3 := congrArg Quad.level (isParent_iff.mp e2).2
        simp only [parent_level] at e3 ⊢
        omega
      · rintro ⟨-, e2⟩
        exact ⟨x.2, by rw [← ht], e2⟩
  have hq : getZ (leavesIn Ls t) ((k : ℤ) - (a + f)) = some q := by
    have e : (k : ℤ) - (a + f) = ((k - a - f : ℕ) : ℤ) := by omega
    rw [e, getZ_nat, htree k (by omega) (by omega), hxL]; rfl
  exact ⟨t, q, f, g, hxL, h.get htT, by rw [C30_tree_offsets T Ls rt h, ← hf], by omega, by omega, by omega, hloop, hq, hfst, hscan⟩

theorem nearMessage_spec {T : ℕ} {L Ls : List (ℕ × Quad d)} {rt : RankTrees (Quad d)} (h : Holds T Ls rt)
    {C a b cut : ℕ} (hL : Ls = slice a b L) (hlen : Ls.length = b - a) (hab : a < b) (hC : 3 ≤ C)
    (h1 : a + 2 ≤ cut + C) (h2 : cut + 1 < b + C) :
    ∃ m k t q, nearMessage C rt a b cut = some m ∧ NearMsg L C a b cut k t q m := by
  obtain ⟨k, hk, k1, k2, k3, k4, k5, k6, k7⟩ := nearCut_spec hab hC h1 h2
  obtain ⟨t, q, f, g, hxL, htr, hoff, hfk, hkg, hgb, hloop, hq, hfst, hscan⟩ := nearTree_spec h hL hlen k1 k2
  unfold nearMessage
  simp only [bind, Option.bind]
  rw [hk, hloop]
  simp only
  rw [getZ_nat, htr]
  simp only [Int.toNat_natCast]
  rw [hoff, show (k : ℤ) - a - f = k - (a + f) by ring, hq]
  simp only
  by_cases hl : q.level > 0
  · rw [if_pos hl]
    -- downwards
    obtain ⟨lo, hlo⟩ : ∃ lo, lo = max (a + f) (cut + 1 - C) := ⟨_, rfl⟩
    have hlok : lo ≤ k := by omega
    obtain ⟨mn, m1, m2, m3, m4, m5⟩ := nearScan_down (tree := leavesIn Ls t) (p := parent q) (level := q.level)
      ((a : ℤ) + f) lo (k + 1 - lo) (k : ℤ) (Q := Sib L t (parent q)) (by
        intro i h3 h4
        obtain ⟨q', e1, e2⟩ := hscan i (by omega) (by omega)
        exact ⟨q', e1, e2 hl⟩)
    have hQk : Sib L t (parent q) k := ⟨q, hxL, isParent_iff.mpr ⟨hl, rfl⟩⟩
    have hmk : mn ≤ k := by
      by_contra hc
      rcases m4 with m4 | m4
      · omega
      · exact m4 (by rwa [show mn - 1 = k by omega])
    have e1 : ((k : ℤ) - max ((a : ℤ) + f) ((cut : ℤ) - C + 1) + 1).toNat = k + 1 - lo := by omega
    have e2 : ((lo + (k + 1 - lo) : ℕ) : ℤ) - 1 = k := by omega
    rw [e2, if_neg (by omega)] at m5
    rw [e1, m5]
    simp only
    -- upwards
    obtain ⟨hi, hhi⟩ : ∃ hi, hi = min (a + g) (cut + C - 1) := ⟨_, rfl⟩
    obtain ⟨mx, x1, x2, x3, x4, x5⟩ := nearScan_up (tree := leavesIn Ls t) (p := parent q) (level := q.level)
      ((a : ℤ) + f) k (hi - k) (k : ℤ) (Q := Sib L t (parent q)) (by
        intro i h3 h4
        obtain ⟨q', e1, e2⟩ := hscan i (by omega) (by omega)
        exact ⟨q', e1, e2 hl⟩)
    have hkx : k < mx := by
      by_contra hc
      have : mx = k := by omega
      rcases x4 with x4 | x4
      · omega
      · exact x4 (by rwa [this])
    have e3 : (min ((a : ℤ) + f + (g - f) - 1) ((cut : ℤ) + C - 2) - k + 1).toNat = hi - k := by omega
    rw [if_neg (by omega)] at x5
    rw [e3, x5]
    refine ⟨_, k, t, q, rfl, k1, k2, k3, k4, k5, hxL, rfl, fun h => by omega, fun _ => ⟨rfl, mn, mx - 1, by omega, hmk,
      by omega, by omega, by omega, by omega, ?_, ?_, ?_, ?_⟩⟩
    · intro i h3 h4
      rcases Nat.lt_or_ge i k with h5 | h5
      · exact m3 i h3 (by omega)
      · exact x3 i h5 (by omega)
    · rcases m4 with m4 | m4
      · rcases Nat.lt_or_ge (a + f) (cut + 1 - C) with h3 | h3
        · exact Or.inr (Or.inl (by omega))
        · by_cases hf0 : f = 0
          · exact Or.inl (by omega)
          · refine Or.inr (Or.inr ?_)
            rintro ⟨q', e4, -⟩
            have := (hfst (mn - 1) (by omega) (by omega) _ e4).1
            simp only at this; omega
      · exact Or.inr (Or.inr m4)
    · rw [show mx - 1 + 1 = mx by omega]
      rcases x4 with x4 | x4
      · rcases Nat.lt_or_ge (cut + C - 1) (a + g) with h3 | h3
        · exact Or.inr (Or.inl (by omega))
        · by_cases hf0 : mx = b
          · exact Or.inl (by omega)
          · refine Or.inr (Or.inr ?_)
            rintro ⟨q', e4, -⟩
            have := (hfst mx (by omega) (by omega) _ e4).2
            simp only at this; omega
      · exact Or.inr (Or.inr x4)
    · simp only
      by_cases hcut : a ≤ cut ∧ cut < b
      · have hkc := k3 hcut.1 hcut.2
        rw [if_pos hcut, if_pos (by exact_mod_cast hkc)]
        push_cast [Nat.cast_sub (show mn ≤ cut by omega), Nat.cast_sub (show cut ≤ mx - 1 by omega), Nat.cast_sub (show 1 ≤ mx by omega)]
        ring
      · have hkc : k ≠ cut := by
          rintro rfl; exact hcut ⟨k1, k2⟩
        rw [if_neg hcut, if_neg (by exact_mod_cast hkc)]
        push_cast [Nat.cast_sub (show mn ≤ mx - 1 by omega), Nat.cast_sub (show 1 ≤ mx by omega)]
        ring
  · rw [if_neg hl]
    exact ⟨_, k, t, q, rfl, k1, k2, k3, k4, k5, hxL, rfl, fun _ => ⟨rfl, rfl⟩, fun h => by omega⟩

end P4est
