import Verif.Spec.SearchPartition
import Verif.Props.SearchLocal
import Verif.Props.Partition

/-! # Lemmas on the searches of the partition and of the whole forest -/

namespace P4est
open Spec

variable {d : ℕ} {σ ι : Type}

/-! ## Owners -/

/-- `a` owns the first and `b` the last of the positions from `A` to `B`. -/
def OwnerBounds (s : ℕ → ℕ) (P A B a b : ℕ) : Prop :=
  a < P ∧ b < P ∧ s a ≤ A ∧ A < s (a + 1) ∧ s b < B ∧ B ≤ s (b + 1)

theorem owns_iff (hd : 0 < d) {trees : List (List (Quad d))} {P : ℕ}
    {leaves : ℕ → List (ℕ × Quad d)} {s : ℕ → ℕ} (hs : Segments trees P leaves s) {t r : ℕ} (hr : r < P)
    {q : Quad d} (hq : Valid q) :
    Owns leaves t q r ↔ ∃ n, t * 2 ^ (d * 30) + start q ≤ n ∧ n < t * 2 ^ (d * 30) + stop q ∧ s r ≤ n ∧ n < s (r + 1) := by
  constructor
  · rintro ⟨x, hx, hxt, p, hp1, hp2⟩
    have hpt := valid_cells_inTree hq hp2
    have h1 := (hs.mem_iff hd t r hr hpt).mp ⟨x, hx, hxt, hp1⟩
    have h2 := (mem_iff_pos hq.aligned hq.int32 hpt.int32).mp hp2
    exact ⟨t * 2 ^ (d * 30) + curve p, by omega, by omega, h1.1, h1.2⟩
  · rintro ⟨n, h1, h2, h3, h4⟩
    have h5 := valid_stop_le hd hq
    obtain ⟨p, hp, hpn⟩ := curve_surj (d := d) (n := n - t * 2 ^ (d * 30)) (by omega)
    obtain ⟨x, hx, hxt, hm⟩ := (hs.mem_iff hd t r hr hp).mpr (by omega)
    exact ⟨x, hx, hxt, p, hm, (mem_iff_pos hq.aligned hq.int32 hp.int32).mpr (by omega)⟩

theorem owner_bounds (hd : 0 < d) {trees : List (List (Quad d))} {P : ℕ}
    {leaves : ℕ → List (ℕ × Quad d)} {s : ℕ → ℕ} (hs : Segments trees P leaves s) {t a b : ℕ}
    {q : Quad d} (hq : Valid q)
    (h : OwnerBounds s P (t * 2 ^ (d * 30) + start q) (t * 2 ^ (d * 30) + stop q) a b) :
    OwnerRange P leaves t q (a, b) ∧ (Shared P leaves t q ↔ a < b) ∧ a ≤ b := by
  obtain ⟨ha, hb, h1, h2, h3, h4⟩ := h
  have hlt := start_lt_stop q
  have oa : Owns leaves t q a := (owns_iff hd hs ha hq).mpr ⟨_, le_rfl, by omega, h1, h2⟩
  have ob : Owns leaves t q b :=
    (owns_iff hd hs hb hq).mpr ⟨t * 2 ^ (d * 30) + stop q - 1, by omega, by omega, by omega, by omega⟩
  have hin : ∀ r, r < P → Owns leaves t q r → a ≤ r ∧ r ≤ b := by
    intro r hr ho
    obtain ⟨n, h5, h6, h7, h8⟩ := (owns_iff hd hs hr hq).mp ho
    constructor
    · by_contra hc
      have := hs.mono (show r + 1 ≤ a by omega) (by omega)
      omega
    · by_contra hc
      have := hs.mono (show b + 1 ≤ r by omega) (by omega)
      omega
  have hab := (hin b hb ob).1
  refine ⟨⟨ha, hb, oa, ob, hin⟩, ⟨?_, ?_⟩, hab⟩
  · rintro ⟨r, r', hr, hr', hne, h5, h6⟩
    have := hin r hr h5
    have := hin r' hr' h6
    omega
  · intro hlt
    exact ⟨a, b, ha, hb, by omega, oa, ob⟩

/-- The entries of `global_first_position` are aligned. -/
theorem globalPartition_aligned {trees : List (List (Quad d))} {P : ℕ}
    {leaves : ℕ → List (ℕ × Quad d)} {s : ℕ → ℕ} (h : Segments trees P leaves s) (p : ℕ) (hp : p ≤ P) :
    ∀ g, (globalPartition leaves P trees.length)[p]? = some g → Aligned g.quad := by
  obtain ⟨k, rfl⟩ : ∃ k, p = P - k := ⟨P - p, by omega⟩
  induction k with
  | zero =>
    intro g hg
    rw [globalPartition_get _ _ _ _ hp, Nat.sub_zero, backfill_ge _ _ _ le_rfl, if_pos rfl] at hg
    obtain rfl := Option.some_inj.mp hg
    exact ⟨by simp [GPos.quad, QMAXLEVEL], fun i => by simp [GPos.quad]⟩
  | succ k ih =>
    by_cases hk : P - (k + 1) = P - k
    · rw [hk]; exact ih (by omega)
    · obtain ⟨p, hpe⟩ : ∃ p, p = P - (k + 1) := ⟨_, rfl⟩
      rw [← hpe, globalPartition_step _ _ _ _ (by omega)]
      rw [show P - k = p + 1 by omega] at ih
      cases hl : leaves p with
      | nil => exact ih (by omega)
      | cons x xs =>
        have hleaf := (h.leaf p (by omega) x (by simp [hl])).2
        intro g hg
        obtain rfl := Option.some_inj.mp hg
        refine ⟨by simp [GPos.quad, QMAXLEVEL], fun i => ?_⟩
        refine dvd_trans ?_ (hleaf.aligned.2 i)
        have := hleaf.1
        change (2 : ℤ) ^ (30 - 29) ∣ 2 ^ (30 - x.2.level)
        exact pow_dvd_pow 2 (by omega)

theorem rankEmpty_spec (hd : 0 < d) {trees : List (List (Quad d))} {P : ℕ}
    {leaves : ℕ → List (ℕ × Quad d)} {s : ℕ → ℕ} (hs : Segments trees P leaves s) {gfq : Option (List ℤ)}
    (hg : gfq = none ∨ gfq = some (rankCounts leaves P)) (p : ℕ) (hp : p < P) :
    rankEmpty gfq (globalPartition leaves P trees.length) p = some (decide (s p = s (p + 1))) := by
  rcases hg with rfl | rfl
  · obtain ⟨g, h1, h2⟩ := globalPartition_at hd hs p hp.le
    obtain ⟨g', h3, h4⟩ := globalPartition_at hd hs (p + 1) hp
    simp only [rankEmpty, isEmptyGfp]
    rw [obind h1, obind h3]
    simp only [h2.eq_iff h4]
  · have e : ∀ i, i ≤ P → (rankCounts leaves P)[i]? = some ((((List.range i).map fun r => (leaves r).length).sum : ℕ) : ℤ) := by
      intro i hi
      unfold rankCounts
      rw [List.getElem?_map, List.getElem?_range (by omega)]; rfl
    simp only [rankEmpty, isEmptyGfq]
    rw [obind (e p hp.le), obind (e (p + 1) hp)]
    have h1 : ((((List.range (p + 1)).map fun r => (leaves r).length).sum : ℕ) : ℤ) -
        (((List.range p).map fun r => (leaves r).length).sum : ℕ) = (leaves p).length := by
      rw [List.range_succ, List.map_append, List.sum_append]
      simp
    have h2 := hs.path p hp
    congr 1
    apply decide_eq_decide.mpr
    constructor
    · intro h
      have h3 : (leaves p).length = 0 := by
        have : ((leaves p).length : ℤ) = 0 := by rw [← h1, h]; ring
        exact_mod_cast this
      rw [List.length_eq_zero_iff.mp h3] at h2
      exact h2
    · intro h
      have h3 : leaves p = [] := by
        by_contra hc
        have := GPath.lt h2 hc
        omega
      rw [h3, List.length_nil, Nat.cast_zero] at h1
      omega

theorem skipEmpty_spec (hd : 0 < d) {trees : List (List (Quad d))} {P : ℕ}
    {leaves : ℕ → List (ℕ × Quad d)} {s : ℕ → ℕ} (hs : Segments trees P leaves s) {gfq : Option (List ℤ)}
    (hg : gfq = none ∨ gfq = some (rankCounts leaves P)) {A : ℕ} (hA : A < s P) :
    ∀ (n p : ℕ), P < p + n → p ≤ P → s p = A → ∃ r, r < P ∧
      skipEmpty (rankEmpty gfq (globalPartition leaves P trees.length)) n p = some r ∧ s r = A ∧ A < s (r + 1) := by
  intro n
  induction n with
  | zero => intro p h1 h2 h3; omega
  | succ n ih =>
    intro p h1 h2 h3
    have hp : p < P := by
      rcases Nat.eq_or_lt_of_le h2 with h | h
      · subst h; omega
      · exact h
    unfold skipEmpty
    rw [obind (rankEmpty_spec hd hs hg p hp)]
    have hm := hs.mono (show p ≤ p + 1 by omega) hp
    by_cases h : s p = s (p + 1)
    · rw [if_pos (by simpa using h)]
      exact ih (p + 1) (by omega) hp (by omega)
    · rw [if_neg (by simpa using h)]
      exact ⟨p, hp, rfl, h3, by omega⟩

theorem ownerRange_spec (hd : 0 < d) {trees : List (List (Quad d))} {P : ℕ}
    {leaves : ℕ → List (ℕ × Quad d)} {s : ℕ → ℕ} (hs : Segments trees P leaves s) {gfq : Option (List ℤ)}
    (hg : gfq = none ∨ gfq = some (rankCounts leaves P)) {t : ℕ} (ht : t < trees.length) {q : Quad d} (hq : Valid q)
    {first next A B : ℕ} (hA : A = t * 2 ^ (d * 30) + start q) (hB : B = t * 2 ^ (d * 30) + stop q)
    (hfn : first ≤ next) (hn0 : 0 < next) (hnP : next ≤ P) (hn1 : s (next - 1) < B) (hn2 : B ≤ s next)
    (hf1 : A ≤ s first) (hf2 : first = 0 ∨ (s (first - 1) ≤ A ∧ s (first - 1) < s first)) :
    ∃ a b, ownerRange gfq (globalPartition leaves P trees.length) q first next = some (a, b) ∧
      OwnerBounds s P A B a b := by
  have hAB : A < B := by have := start_lt_stop q; omega
  have hlast : B ≤ s P := hn2.trans (hs.mono hnP le_rfl)
  have hbn : next - 1 + 1 = next := by omega
  unfold ownerRange
  rw [if_neg (by omega)]
  by_cases hlt : first < next
  · rw [if_pos hlt]
    obtain ⟨g, hg1, hg2⟩ := globalPartition_at hd hs first (by omega)
    rw [obind hg1]
    have hsB : s first < B := lt_of_le_of_lt (hs.mono (show first ≤ next - 1 by omega) (by omega)) hn1
    have hstop := valid_stop_le hd hq
    have hclean : (∀ i, g.c i = q.c i) ↔ s first = A := by
      obtain ⟨u, h1, h2, h3⟩ := hg2
      have hut : u = t := by
        have h4 := curve_lt_of_inTree h2
        rcases Nat.lt_trichotomy u t with h | h | h
        · have : (u + 1) * 2 ^ (d * 30) ≤ t * 2 ^ (d * 30) := Nat.mul_le_mul_right _ h
          rw [Nat.add_one_mul] at this
          omega
        · exact h
        · have : (t + 1) * 2 ^ (d * 30) ≤ u * 2 ^ (d * 30) := Nat.mul_le_mul_right _ h
          rw [Nat.add_one_mul] at this
          omega
      subst hut
      constructor
      · intro h
        have : g.c = q.c := funext h
        rw [← h3, this, hA]; rfl
      · intro h
        have : curve g.c = curve q.c := by
          have : start q = curve q.c := rfl
          omega
        exact fun i => congrFun (curve_inj h2.int32 hq.int32 this) i
    by_cases hc : ∀ i, g.c i = q.c i
    · rw [if_pos hc]
      obtain ⟨r, hr, h1, h2, h3⟩ := skipEmpty_spec hd hs hg (show A < s P by omega)
        (globalPartition leaves P trees.length).length first (by rw [globalPartition_length]; omega) (by omega) (hclean.mp hc)
      rw [obind h1]
      exact ⟨r, next - 1, rfl, hr, by omega, h2.le, h3, hn1, by rw [hbn]; exact hn2⟩
    · rw [if_neg hc]
      have hne : s first ≠ A := fun h => hc (hclean.mpr h)
      have h0 : first ≠ 0 := by
        rintro rfl
        rw [hs.zero] at hf1 hne; omega
      rw [if_neg h0]
      have hf := hf2.resolve_left h0
      exact ⟨first - 1, next - 1, rfl, by omega, by omega, hf.1, by rw [show first - 1 + 1 = first by omega]; omega, hn1,
        by rw [hbn]; exact hn2⟩
  · rw [if_neg hlt]
    have hf := hf2.resolve_left (by omega)
    rw [show first = next by omega] at hf
    exact ⟨next - 1, next - 1, rfl, by omega, by omega, hf.1, by rw [hbn]; omega, hn1, by rw [hbn]; exact hn2⟩

/-! ## Splitting ranks by children and by trees -/

/-- The boundaries of the children of `q` in the ranks: `cp k` is the first rank after `pf` that begins at child `k`
or later. -/
theorem splitRanks_spec (hd : 0 < d) {trees : List (List (Quad d))} {P : ℕ}
    {leaves : ℕ → List (ℕ × Quad d)} {s : ℕ → ℕ} (hs : Segments trees P leaves s) {t pf pl : ℕ} {q : Quad d} (hq : Valid q)
    (hl : q.level < 29) (hb : OwnerBounds s P (t * 2 ^ (d * 30) + start q) (t * 2 ^ (d * 30) + stop q) pf pl) (hpp : pf ≤ pl) :
    ∃ cp : ℕ → ℕ, splitRanks (globalPartition leaves P trees.length) q pf pl = some ((List.range (2 ^ d + 1)).map cp) ∧
      cp 0 = 0 ∧ Monotone cp ∧ cp (2 ^ d) = pl - pf ∧
      ∀ k, k ≤ 2 ^ d → ∀ p, pf < p → p ≤ pl →
        (p < cp k + pf + 1 ↔ s p < t * 2 ^ (d * 30) + start q + k * volume (kid q 0)) := by
  obtain ⟨ha, hbP, h1, h2, h3, h4⟩ := hb
  set gfp := globalPartition leaves P trees.length with hgfp
  have hlen : gfp.length = P + 1 := globalPartition_length _ _ _
  set w := ((gfp.drop (pf + 1)).take (pl - pf)).map GPos.quad with hw
  have hwlen : w.length = pl - pf := by
    rw [hw, List.length_map, List.length_take, List.length_drop, hlen]; omega
  have hget : ∀ i (hi : i < w.length), Valid w[i] ∧ t * 2 ^ (d * 30) + start w[i] = s (pf + 1 + i) ∧ w[i].level = 29 := by
    intro i hi
    obtain ⟨g, hg1, hg2⟩ := globalPartition_at hd hs (pf + 1 + i) (by omega)
    have hal := globalPartition_aligned hs (pf + 1 + i) (by omega) g hg1
    have e : w[i]? = some g.quad := by
      rw [hw, List.getElem?_map, List.getElem?_take_of_lt (by omega), List.getElem?_drop, hg1]; rfl
    rw [List.getElem?_eq_getElem hi] at e
    rw [Option.some_inj.mp e]
    have hlo : s (pf + 1) ≤ s (pf + 1 + i) := hs.mono (by omega) (by omega)
    have hhi : s (pf + 1 + i) ≤ s pl := hs.mono (by omega) (by omega)
    have hstop := valid_stop_le hd hq
    obtain ⟨u, g1, g2, g3⟩ := hg2
    have hut : u = t := by
      have h4 := curve_lt_of_inTree g2
      rcases Nat.lt_trichotomy u t with h | h | h
      · have : (u + 1) * 2 ^ (d * 30) ≤ t * 2 ^ (d * 30) := Nat.mul_le_mul_right _ h
        rw [Nat.add_one_mul] at this
        omega
      · exact h
      · have : (t + 1) * 2 ^ (d * 30) ≤ u * 2 ^ (d * 30) := Nat.mul_le_mul_right _ h
        rw [Nat.add_one_mul] at this
        omega
    subst hut
    exact ⟨⟨by simp [GPos.quad, QMAXLEVEL], hal, g2⟩, g3, rfl⟩
  have hv : ∀ a ∈ w, Valid a := by
    intro a ha
    obtain ⟨i, hi, rfl⟩ := List.mem_iff_getElem.mp ha
    exact (hget i hi).1
  have hin : ∀ a ∈ w, Cells a ⊂ Cells q := by
    intro a ha
    obtain ⟨i, hi, rfl⟩ := List.mem_iff_getElem.mp ha
    obtain ⟨g1, g2, g3⟩ := hget i hi
    rw [valid_ssubset_iff hd hq g1, g3]
    refine ⟨hl, ?_⟩
    have hlo : s (pf + 1) ≤ s (pf + 1 + i) := hs.mono (by omega) (by omega)
    have hhi : s (pf + 1 + i) ≤ s pl := hs.mono (by omega) (by omega)
    rcases C03_nested_or_disjoint q w[i] hq.extended g1.extended with h | h | h
    · exact h
    · have := ((cells_subset_iff hd g1.aligned hq.aligned).mp h).1
      omega
    · exfalso
      refine h _ ⟨(mem_iff_pos hq.aligned hq.int32 g1.int32).mpr ?_, corner_mem _⟩
      have : start w[i] = curve w[i].c := rfl
      omega
  have hsw : SortedWeak w := by
    unfold SortedWeak
    rw [List.pairwise_iff_getElem]
    intro i j hi hj hij
    rw [before_interval]
    have := hs.mono (show pf + 1 + i ≤ pf + 1 + j by omega) (by omega)
    have := (hget i hi).2
    have := (hget j hj).2
    omega
  obtain ⟨ind, hind, hi0, hi1, hmono, hiff⟩ := C26_split_array hd w q hq hl hv hin hsw
  refine ⟨ind, ?_, hi0, hmono, by rw [hi1, hwlen], ?_⟩
  · unfold splitRanks
    rw [if_pos (by omega), ← hind]
    unfold splitArray
    by_cases h0 : w.length = 0
    · rw [if_pos h0, show pl - pf = 0 by omega]
      simp [scArraySplit]
    · rw [if_neg h0, hw, List.map_map]
      rfl
  · intro k hk p hp1 hp2
    have hi : p - (pf + 1) < w.length := by omega
    obtain ⟨g1, g2, g3⟩ := hget _ hi
    rw [show pf + 1 + (p - (pf + 1)) = p by omega] at g2
    obtain ⟨-, hk0, hks⟩ := kid_of_ssubset hd hq g1 (hin _ (List.getElem_mem hi))
    set k0 := ancestorId w[p - (pf + 1)] (q.level + 1) with hk0d
    have hsub := (hks k0 hk0).mpr rfl
    have hpos := (hiff k0 hk0 _ hi).mpr hsub
    have hint := (valid_subset_iff hd (kid_valid hq hl k0) g1).mp hsub
    rw [(start_kid hq hl hk0).1, (start_kid hq hl hk0).2] at hint
    have hlt := start_lt_stop w[p - (pf + 1)]
    by_cases hkk : k0 < k
    · have m1 := hmono (show k0 + 1 ≤ k by omega)
      have m2 : (k0 + 1) * volume (kid q 0) ≤ k * volume (kid q 0) := Nat.mul_le_mul_right _ hkk
      exact ⟨fun _ => by omega, fun _ => by omega⟩
    · have m1 := hmono (show k ≤ k0 by omega)
      have m2 : k * volume (kid q 0) ≤ k0 * volume (kid q 0) := Nat.mul_le_mul_right _ (by omega)
      exact ⟨fun h => by omega, fun h => by omega⟩

/-- The range of ranks of each child. -/
theorem childRange_spec (hd : 0 < d) {trees : List (List (Quad d))} {P : ℕ}
    {leaves : ℕ → List (ℕ × Quad d)} {s : ℕ → ℕ} (hs : Segments trees P leaves s) {gfq : Option (List ℤ)}
    (hg : gfq = none ∨ gfq = some (rankCounts leaves P)) {t pf pl : ℕ} (ht : t < trees.length) {q : Quad d} (hq : Valid q)
    (hl : q.level < 29) (hb : OwnerBounds s P (t * 2 ^ (d * 30) + start q) (t * 2 ^ (d * 30) + stop q) pf pl) (hpp : pf ≤ pl) :
    ∃ cp : ℕ → ℕ, splitRanks (globalPartition leaves P trees.length) q pf pl = some ((List.range (2 ^ d + 1)).map cp) ∧
      cp 0 = 0 ∧ ∀ k, k < 2 ^ d → ∃ a b,
        ownerRange gfq (globalPartition leaves P trees.length) (kid q k) (cp k + pf + 1) (cp (k + 1) + pf + 1) = some (a, b) ∧
        OwnerBounds s P (t * 2 ^ (d * 30) + start (kid q k)) (t * 2 ^ (d * 30) + stop (kid q k)) a b := by
  obtain ⟨cp, e, h0, hmono, hlast, hiff⟩ := splitRanks_spec hd hs hq hl hb hpp
  refine ⟨cp, e, h0, fun k hk => ?_⟩
  obtain ⟨ha, hbP, h1, h2, h3, h4⟩ := hb
  set v := volume (kid q 0) with hv
  have hvpos : 0 < v := volume_pos _
  have hstop : stop q = start q + 2 ^ d * v := by
    rw [stop_eq, volume_child (show q.level < 30 by omega) 0, hv, kid_eq_child hq]
  have hbound : ∀ k, k ≤ 2 ^ d → cp k + pf + 1 ≤ pl + 1 := by
    intro k hk
    have := hmono hk
    omega
  have hkv : ∀ k, k ≤ 2 ^ d → k * v ≤ 2 ^ d * v := fun k hk => Nat.mul_le_mul_right _ hk
  have hlow : ∀ k, k ≤ 2 ^ d → s (cp k + pf) ≤ t * 2 ^ (d * 30) + start q + k * v ∧
      (0 < k → s (cp k + pf) < t * 2 ^ (d * 30) + start q + k * v) := by
    intro k hk
    by_cases hc : cp k = 0
    · rw [hc, Nat.zero_add]
      refine ⟨by omega, fun hk0 => ?_⟩
      have : 1 * v ≤ k * v := Nat.mul_le_mul_right _ hk0
      omega
    · have := hbound k hk
      have := (hiff k hk (cp k + pf) (by omega) (by omega)).mp (by omega)
      exact ⟨by omega, fun _ => this⟩
  have hhigh : ∀ k, k ≤ 2 ^ d → t * 2 ^ (d * 30) + start q + k * v ≤ s (cp k + pf + 1) := by
    intro k hk
    by_cases hc : cp k + pf + 1 ≤ pl
    · have := mt (hiff k hk (cp k + pf + 1) (by omega) hc).mpr (by omega)
      omega
    · have := hbound k hk
      have := hkv k hk
      rw [show cp k + pf + 1 = pl + 1 by omega]
      omega
  have hsk := start_kid hq hl hk
  have hm := hmono (show k ≤ k + 1 by omega)
  have hb1 := hbound (k + 1) hk
  refine ownerRange_spec hd hs hg ht (kid_valid hq hl k) rfl rfl (by omega) (by omega) (by omega) ?_ ?_ ?_ (Or.inr ⟨?_, ?_⟩)
  · rw [hsk.2, Nat.add_sub_cancel, ← Nat.add_assoc]
    exact (hlow (k + 1) hk).2 (by omega)
  · rw [hsk.2, ← Nat.add_assoc]
    exact hhigh (k + 1) hk
  · rw [hsk.1, ← Nat.add_assoc]
    exact hhigh k hk.le
  · rw [hsk.1, Nat.add_sub_cancel, ← Nat.add_assoc]
    exact (hlow k hk.le).1
  · rw [Nat.add_sub_cancel]
    rcases Nat.eq_zero_or_pos k with rfl | hk0
    · rw [h0, Nat.zero_add]; omega
    · exact lt_of_lt_of_le ((hlow k hk.le).2 hk0) (hhigh k hk.le)

/-- The range of ranks of each tree. -/
theorem treeRange_spec (hd : 0 < d) {trees : List (List (Quad d))} {P : ℕ}
    {leaves : ℕ → List (ℕ × Quad d)} {s : ℕ → ℕ} (hs : Segments trees P leaves s) {gfq : Option (List ℤ)}
    (hg : gfq = none ∨ gfq = some (rankCounts leaves P)) :
    ∃ tp : ℕ → ℕ, rankTreeOffsets (globalPartition leaves P trees.length) trees.length = (List.range (trees.length + 2)).map tp ∧
      tp 0 = 0 ∧ ∀ t, t < trees.length → ∃ a b,
        ownerRange gfq (globalPartition leaves P trees.length) (root d) (tp t) (tp (t + 1)) = some (a, b) ∧
        OwnerBounds s P (t * 2 ^ (d * 30) + start (root d)) (t * 2 ^ (d * 30) + stop (root d)) a b := by
  set gfp := globalPartition leaves P trees.length with hgfp
  set types := gfp.map fun g => g.tree.toNat with htypes
  have hlen : types.length = P + 1 := by rw [htypes, List.length_map]; exact globalPartition_length _ _ _
  have hV : 0 < 2 ^ (d * 30) := by positivity
  have hget : ∀ i (hi : i < types.length), ∀ j, types[i] < j ↔ s i < j * 2 ^ (d * 30) := by
    intro i hi j
    obtain ⟨g, hg1, u, hg2, hg3, hg4⟩ := globalPartition_at hd hs i (by omega)
    have e : types[i]? = some u := by
      rw [htypes, List.getElem?_map, hg1]
      simp [hg2]
    rw [List.getElem?_eq_getElem hi] at e
    rw [Option.some_inj.mp e]
    have h1 := curve_lt_of_inTree hg3
    constructor
    · intro h
      have : (u + 1) * 2 ^ (d * 30) ≤ j * 2 ^ (d * 30) := Nat.mul_le_mul_right _ h
      rw [Nat.add_one_mul] at this
      omega
    · intro h
      by_contra hc
      have : j * 2 ^ (d * 30) ≤ u * 2 ^ (d * 30) := Nat.mul_le_mul_right _ (by omega)
      omega
  have hsort : types.Pairwise (· ≤ ·) := by
    rw [List.pairwise_iff_getElem]
    intro i j hi hj hij
    by_contra hc
    have h1 := hs.mono hij.le (show j ≤ P by omega)
    have h2 := (hget j hj (types[j] + 1)).mp (by omega)
    have h3 := mt (hget i hi (types[j] + 1)).mpr (by omega)
    omega
  set tp := fun j => (types.filter (· < j)).length with htp
  have hiff : ∀ j i, i ≤ P → (i < tp j ↔ s i < j * 2 ^ (d * 30)) := by
    intro j i hi
    rw [← hget i (by omega) j]
    exact filter_lt_prefix types hsort j i (by omega)
  have hmono : ∀ j, tp j ≤ tp (j + 1) := by
    intro j
    apply List.Sublist.length_le
    apply List.monotone_filter_right
    intro x hx
    have := of_decide_eq_true hx
    exact decide_eq_true (by omega)
  have hle : ∀ j, j ≤ trees.length → tp j ≤ P := by
    intro j hj
    by_contra hc
    have := (hiff j P le_rfl).mp (by omega)
    rw [hs.last] at this
    have : j * 2 ^ (d * 30) ≤ trees.length * 2 ^ (d * 30) := Nat.mul_le_mul_right _ hj
    omega
  refine ⟨tp, rfl, by simp [htp], fun t ht => ?_⟩
  have hsucc : (t + 1) * 2 ^ (d * 30) = t * 2 ^ (d * 30) + 2 ^ (d * 30) := by ring
  have h0 : 0 < tp (t + 1) := by
    rw [hiff (t + 1) 0 (by omega), hs.zero, hsucc]; omega
  have h1 := hle (t + 1) ht
  have h2 := hle t ht.le
  refine ownerRange_spec hd hs hg ht root_valid rfl rfl (hmono t) h0 h1 ?_ ?_ ?_ ?_
  · have := (hiff (t + 1) (tp (t + 1) - 1) (by omega)).mp (by omega)
    rw [stop_root]; omega
  · have := mt (hiff (t + 1) (tp (t + 1)) h1).mpr (by omega)
    rw [stop_root]; omega
  · have := mt (hiff t (tp t) h2).mpr (by omega)
    rw [start_root]; omega
  · rcases Nat.eq_zero_or_pos (tp t) with h | h
    · exact Or.inl h
    · right
      have h3 := (hiff t (tp t - 1) (by omega)).mp (by omega)
      have h4 := mt (hiff t (tp t) h2).mpr (by omega)
      rw [start_root]; omega

/-! ## The loops -/

theorem rankChildren_spec {qf : Option (ℕ → Quad d → ι → σ → Bool × σ)} {pf : ℕ → Quad d → ι → ℕ → σ → Bool × σ}
    {range : Quad d → ℕ → ℕ → Option (ℕ × ℕ)} {go : ℕ → Quad d → ℕ → ℕ → σ → Option (σ × List (Event d ι))}
    {q : Quad d} {pfirst : ℕ} {cp : ℕ → ℕ} {P : ℕ → List (Event d ι) → Prop} {N : ℕ}
    (h1 : ∀ k, k < N → ∃ a b, range (child q k) (cp k + pfirst + 1) (cp (k + 1) + pfirst + 1) = some (a, b) ∧
      ∀ s, ∃ s' E, go k (child q k) a b s = some (s', E) ∧ P k E ∧ Replays qf pf E s s') :
    ∀ (n k : ℕ), k + n = N → ∀ s, ∃ s' Es,
      rankChildren range go q ((List.range (N + 1)).map cp) pfirst (List.range' k n) (cp k + pfirst + 1) s =
        some (s', (List.range' k n).flatMap Es) ∧
      (∀ j, k ≤ j → j < N → P j (Es j)) ∧ Replays qf pf ((List.range' k n).flatMap Es) s s' := by
  intro n
  induction n with
  | zero => intro k hk s; exact ⟨s, fun _ => [], rfl, fun j h1 h2 => by omega, rfl⟩
  | succ n ih =>
    intro k hk s
    obtain ⟨a, b, e1, hgo⟩ := h1 k (by omega)
    obtain ⟨s1, E, e2, p2, r2⟩ := hgo s
    obtain ⟨s', Es, e3, p3, r3⟩ := ih (k + 1) (by omega) s1
    have ea : ((List.range (N + 1)).map cp)[k + 1]? = some (cp (k + 1)) := by
      rw [List.getElem?_map, List.getElem?_range (by omega)]; rfl
    have upd : (List.range' (k + 1) n).flatMap (Function.update Es k E) = (List.range' (k + 1) n).flatMap Es := by
      rw [List.flatMap_def, List.flatMap_def]
      congr 1
      refine List.map_congr_left fun j hj => ?_
      rw [Function.update_of_ne]
      have := List.mem_range'_1.mp hj
      omega
    rw [List.range'_succ]
    unfold rankChildren
    rw [obind ea, obind e1]
    dsimp only
    rw [obind e2, obind e3]
    refine ⟨s', Function.update Es k E, ?_, ?_, ?_⟩
    · rw [List.flatMap_cons, Function.update_self, upd]
    · intro j hj1 hj2
      by_cases hjk : j = k
      · subst hjk; rwa [Function.update_self]
      · rw [Function.update_of_ne hjk]; exact p3 j (by omega) hj2
    · rw [List.flatMap_cons, Function.update_self, upd]
      exact replays_append r2 r3

theorem rankTreeLoop_spec {qf : Option (ℕ → Quad d → ι → σ → Bool × σ)} {pf : ℕ → Quad d → ι → ℕ → σ → Bool × σ}
    {range : Quad d → ℕ → ℕ → Option (ℕ × ℕ)} {go : ℕ → ℕ → ℕ → σ → Option (σ × List (Event d ι))}
    {tp : ℕ → ℕ} {hasFn callPost : Bool} {xs : List (Option ℕ)} {node : ℕ → Quad d → Prop} {arg : ℕ → Quad d → ι → Prop}
    {N : ℕ} (h1 : ∀ t, t < N → ∃ a b, range (root d) (tp t) (tp (t + 1)) = some (a, b) ∧
      ∀ s, ∃ s' E, go t a b s = some (s', E) ∧ E.Pairwise Earlier ∧ (∀ e ∈ E, e.tree = t) ∧
        TreeSearched hasFn callPost t (node t) (arg t) xs E ∧ Replays qf pf E s s') :
    ∀ (n t : ℕ), t + n = N → ∀ s, ∃ s' E,
      rankTreeLoop range go ((List.range (N + 2)).map tp) n t (tp t) s = some (s', E) ∧
      E.Pairwise Earlier ∧ (∀ e ∈ E, t ≤ e.tree ∧ e.tree < N) ∧
      (∀ u, t ≤ u → u < N → TreeSearched hasFn callPost u (node u) (arg u) xs E) ∧ Replays qf pf E s s' := by
  intro n
  induction n with
  | zero => intro t ht s; exact ⟨s, [], rfl, List.Pairwise.nil, by simp, fun u h1 h2 => by omega, rfl⟩
  | succ n ih =>
    intro t ht s
    obtain ⟨a, b, e0, hgo⟩ := h1 t (by omega)
    obtain ⟨s1, E1, e1, o1, t1, p1, r1⟩ := hgo s
    obtain ⟨s2, E2, e2, o2, t2, p2, r2⟩ := ih (t + 1) (by omega) s1
    have ea : ((List.range (N + 2)).map tp)[t + 1]? = some (tp (t + 1)) := by
      rw [List.getElem?_map, List.getElem?_range (by omega)]; rfl
    unfold rankTreeLoop
    rw [obind ea, obind e0]
    dsimp only
    rw [obind e1, obind e2]
    refine ⟨s2, E1 ++ E2, rfl, ?_, ?_, ?_, replays_append r1 r2⟩
    · rw [List.pairwise_append]
      refine ⟨o1, o2, fun e he g hg => Or.inl ?_⟩
      have := t1 e he
      have := t2 g hg
      omega
    · intro e he
      rcases List.mem_append.mp he with he | he
      · have := t1 e he; omega
      · have := t2 e he; omega
    · intro u h1 h2
      by_cases hu : u = t
      · subst hu
        refine p1.congr fun e he => ?_
        rw [List.mem_append]
        constructor
        · exact Or.inl
        · rintro (h | h)
          · exact h
          · have := t2 e h; omega
      · refine (p2 u (by omega) h2).congr fun e he => ?_
        rw [List.mem_append]
        constructor
        · exact Or.inr
        · rintro (h | h)
          · have := t1 e h; omega
          · exact h

/-! ## Search quadrants -/

/-- The quadrants inside `Q` reached if the recursion goes on below the quadrants of `go`. -/
def GoNode (go : Quad d → Prop) (Q q : Quad d) : Prop :=
  Valid q ∧ Cells q ⊆ Cells Q ∧ ∀ b, Valid b → Cells b ⊆ Cells Q → Cells q ⊂ Cells b → go b

theorem goNode_single (hd : 0 < d) {go : Quad d → Prop} {Q : Quad d} (hQ : Valid Q) (h : ¬ go Q) (q : Quad d) :
    GoNode go Q q ↔ q = Q := by
  constructor
  · rintro ⟨h1, h2, h3⟩
    by_contra hne
    exact h (h3 Q hQ subset_rfl (valid_ssubset_of_ne hd hQ h1 h2 hne))
  · rintro rfl
    exact ⟨hQ, subset_rfl, fun b hb h1 h2 => absurd h1 h2.2⟩

theorem goNode_split (hd : 0 < d) {go : Quad d → Prop} {Q : Quad d} (hQ : Valid Q) (hl : Q.level < 29) (h : go Q)
    (q : Quad d) : GoNode go Q q ↔ q = Q ∨ ∃ k, k < 2 ^ d ∧ GoNode go (kid Q k) q := by
  constructor
  · rintro ⟨h1, h2, h3⟩
    by_cases hne : q = Q
    · exact Or.inl hne
    · right
      have hs := valid_ssubset_of_ne hd hQ h1 h2 hne
      obtain ⟨-, hk, hks⟩ := kid_of_ssubset hd hQ h1 hs
      exact ⟨_, hk, h1, (hks _ hk).mpr rfl, fun b hb hb1 hb2 => h3 b hb (hb1.trans (kid_subset hd hQ hl hk).1) hb2⟩
  · rintro (rfl | ⟨k, hk, h1, h2, h3⟩)
    · exact ⟨hQ, subset_rfl, fun b hb h1 h2 => absurd h1 h2.2⟩
    · refine ⟨h1, h2.trans (kid_subset hd hQ hl hk).1, fun b hb hb1 hb2 => ?_⟩
      by_cases hne : b = Q
      · rw [hne]; exact h
      · have hs := valid_ssubset_of_ne hd hQ hb hb1 hne
        obtain ⟨-, hj, hjs⟩ := kid_of_ssubset hd hQ hb hs
        have hbj := (hjs _ hj).mpr rfl
        have : ancestorId b (Q.level + 1) = k := kid_unique hd hQ hl h1 hj hk (hb2.1.trans hbj) h2
        rw [this] at hbj
        exact h3 b hb hbj hb2

theorem goNode_root (hd : 0 < d) {go : Quad d → Prop} (q : Quad d) :
    GoNode go (root d) q ↔ Valid q ∧ ∀ b, Valid b → Cells q ⊂ Cells b → go b := by
  constructor
  · rintro ⟨h1, -, h3⟩
    exact ⟨h1, fun b hb h => h3 b hb (valid_in_root hd hb) h⟩
  · rintro ⟨h1, h3⟩
    exact ⟨h1, valid_in_root hd h1, fun b hb _ h => h3 b hb h⟩

theorem Spec.TreeSearched.node_congr {hasFn callPost : Bool} {t : ℕ} {node node' : Quad d → Prop}
    {arg arg' : Quad d → ι → Prop} {xs : List (Option ℕ)} {E : List (Event d ι)}
    (h : TreeSearched hasFn callPost t node arg xs E) (hn : ∀ q, node q ↔ node' q)
    (ha : ∀ q n, node q → arg q n → arg' q n) : TreeSearched hasFn callPost t node' arg' xs E := by
  obtain rfl : node = node' := funext fun q => propext (hn q)
  exact ⟨fun e he ht => ⟨(h.only e he ht).1, ha _ _ (h.only e he ht).1 (h.only e he ht).2⟩, h.enter, h.point, h.leave⟩

/-- At a leaf the recursion ends. -/
theorem searchQuadrant_leaf (rec : SearchRec d σ ι) (q : Quad d) (num : ι) (actives : Option (List ℕ)) (s : σ) :
    (searchQuadrant rec true q num actives s).1 = none := by
  unfold searchQuadrant
  dsimp only
  split
  · rfl
  · split
    · rfl
    · split
      · dsimp only; split <;> simp
      · simp

/-! ## The search of the partition -/

theorem shared_level {trees : List (List (Quad d))} {P : ℕ} (hd : 0 < d)
    {leaves : ℕ → List (ℕ × Quad d)} {s : ℕ → ℕ} (hs : Segments trees P leaves s) {t a b : ℕ}
    {q : Quad d} (hq : Valid q)
    (h : OwnerBounds s P (t * 2 ^ (d * 30) + start q) (t * 2 ^ (d * 30) + stop q) a b) (hab : a < b) : q.level < 29 := by
  obtain ⟨ha, hb, h1, h2, h3, h4⟩ := h
  by_contra hl
  have hl' : q.level = 29 := by have := hq.1; omega
  have hvol : volume q = 2 ^ d := by
    unfold volume; rw [hl']; simp
  have h5 := hs.mono (show a + 1 ≤ b by omega) hb.le
  have h6 := hs.dvd hd b hb.le
  have h7 := volume_dvd_start hq.aligned
  rw [hvol] at h7
  have h8 : 2 ^ d ∣ t * 2 ^ (d * 30) := Dvd.dvd.mul_left (Nat.pow_dvd_pow 2 (by omega)) _
  obtain ⟨x, hx⟩ := h6
  obtain ⟨y, hy⟩ := Nat.dvd_add h8 h7
  have hst : stop q = start q + 2 ^ d := by rw [stop_eq, hvol]
  rw [hst, ← Nat.add_assoc, hy, hx] at h3
  rw [hy] at h2
  have h9 : 2 ^ d * y < 2 ^ d * x := by omega
  have h10 : 2 ^ d * x < 2 ^ d * (y + 1) := by rw [Nat.mul_add_one]; exact h3
  have := Nat.lt_of_mul_lt_mul_left h9
  have := Nat.lt_of_mul_lt_mul_left h10
  omega

theorem partitionRecursion_spec (hd : 0 < d) {trees : List (List (Quad d))} {P : ℕ}
    {leaves : ℕ → List (ℕ × Quad d)} {s : ℕ → ℕ} (hs : Segments trees P leaves s) {gfq : Option (List ℤ)}
    (hg : gfq = none ∨ gfq = some (rankCounts leaves P)) (rec : SearchRec d σ (ℕ × ℕ)) (ht : rec.tree < trees.length) :
    ∀ (fuel : ℕ) (Q : Quad d) (a b : ℕ) (actives : Option (List ℕ)) (x : σ), 30 ≤ fuel + Q.level → Valid Q →
    OwnerBounds s P (rec.tree * 2 ^ (d * 30) + start Q) (rec.tree * 2 ^ (d * 30) + stop Q) a b →
    ActiveSorted rec.points actives →
    ∃ x' E, partitionRecursion gfq (globalPartition leaves P trees.length) rec fuel Q a b actives x = some (x', E) ∧
      E.Pairwise Earlier ∧ (∀ e ∈ E, e.tree = rec.tree) ∧
      TreeSearched rec.quadrantFn.isSome rec.callPost rec.tree (GoNode (Shared P leaves rec.tree) Q)
        (OwnerRange P leaves rec.tree) (cands rec.points actives) E ∧
      Replays rec.quadrantFn rec.pointFn E x x' := by
  intro fuel
  induction fuel with
  | zero => intro Q a b actives x hf hQ; have := hQ.1; omega
  | succ fuel ih =>
    intro Q a b actives x hf hQ hb hsort
    unfold partitionRecursion
    by_cases hact : noneActive rec.points actives = true
    · rw [if_pos hact]
      exact ⟨x, [], rfl, List.Pairwise.nil, by simp, treeSearched_nil _ _ _ _ _ _ (Or.inr ((noneActive_iff _ _).mp hact)), rfl⟩
    rw [if_neg hact]
    have hxs : cands rec.points actives ≠ [] := fun h => hact ((noneActive_iff _ _).mpr h)
    have hok : ActiveOk rec.points actives := by
      intro n hn
      refine ⟨hsort n hn, fun h => hxs ?_⟩
      rw [hn]; simp [cands, h]
    obtain ⟨hrange, hshared, hle⟩ := owner_bounds hd hs hQ hb
    obtain ⟨next, x1, E0, e0, hq0, r0, hnone, hsome, hnext⟩ := searchQuadrant_spec rec (a == b) Q (a, b) actives x hok
    dsimp only
    rw [e0]
    dsimp only
    by_cases hab : a = b
    · -- a single owner: the recursion ends
      have hns : ¬ Shared P leaves rec.tree Q := by rw [hshared]; omega
      have hts := treeSearched_leaf (arg := OwnerRange P leaves rec.tree) (goNode_single hd hQ hns) hrange hxs hq0
      have hnn : next = none := by
        have := searchQuadrant_leaf rec Q (a, b) actives x
        rw [show (a == b) = true by simpa using hab] at e0
        rw [e0] at this
        exact this
      rw [hnn]
      exact ⟨x1, E0, rfl, hq0.order, fun e he => (hq0.mem e he).1, hts, r0⟩
    · have hlt : a < b := by omega
      have hsh := hshared.mpr hlt
      have hl := shared_level hd hs hQ hb hlt
      have hsplit := goNode_split hd hQ hl hsh
      have hkid : ∀ k, k < 2 ^ d → ∀ q, GoNode (Shared P leaves rec.tree) (kid Q k) q → Valid q ∧ Cells q ⊆ Cells (kid Q k) :=
        fun k hk q h => ⟨h.1, h.2.1⟩
      cases next with
      | none =>
        dsimp only
        have h := treeSearched_branch hd (xs' := []) (Es := fun _ => []) (args := fun _ => OwnerRange P leaves rec.tree) hxs hQ hl
          hsplit hkid hrange (fun _ _ _ _ _ h => h) hq0
          (fun y => by
            constructor
            · intro h; simp at h
            · rintro ⟨h1, h2⟩; exact absurd h2 (hnone (by simpa using hab) rfl y h1))
          (by simp) (by simp) (fun k hk => treeSearched_nil _ _ _ _ _ _ (Or.inr rfl))
        have e : E0 ++ (List.range (2 ^ d)).flatMap (fun _ => ([] : List (Event d (ℕ × ℕ)))) = E0 := by simp
        rw [e] at h
        exact ⟨x1, E0, rfl, h.1, h.2.1, h.2.2, r0⟩
      | some chact =>
        dsimp only
        have hok' := hsome chact rfl
        obtain ⟨cp, ecp, hcp0, hcp⟩ := childRange_spec hd hs hg ht hQ hl hb hle
        rw [obind ecp]
        obtain ⟨x2, Es, e2, p2, r2⟩ := rankChildren_spec (qf := rec.quadrantFn) (pf := rec.pointFn)
          (range := ownerRange gfq (globalPartition leaves P trees.length))
          (go := fun _ child cpfirst cplast => partitionRecursion gfq (globalPartition leaves P trees.length) rec fuel child cpfirst cplast chact)
          (q := Q) (pfirst := a) (cp := cp) (N := 2 ^ d)
          (P := fun k E => E.Pairwise Earlier ∧ (∀ e ∈ E, e.tree = rec.tree) ∧
            TreeSearched rec.quadrantFn.isSome rec.callPost rec.tree (GoNode (Shared P leaves rec.tree) (kid Q k))
              (OwnerRange P leaves rec.tree) (cands rec.points chact) E)
          (by
            intro k hk
            obtain ⟨a', b', e1, hb'⟩ := hcp k hk
            refine ⟨a', b', by rw [← kid_eq_child hQ]; exact e1, fun y => ?_⟩
            obtain ⟨y', E, f1, f2, f3, f4, f5⟩ := ih (kid Q k) a' b' chact y (by
              have : (kid Q k).level = Q.level + 1 := rfl
              omega) (kid_valid hQ hl k) hb' (fun n hn => (hok' n hn).1)
            exact ⟨y', E, by rw [← kid_eq_child hQ]; exact f1, ⟨f2, f3, f4⟩, f5⟩)
          (2 ^ d) 0 (Nat.zero_add _) x1
        rw [hcp0, Nat.zero_add, ← List.range_eq_range'] at e2
        rw [← List.range_eq_range'] at r2
        rw [obind e2]
        have h := treeSearched_branch hd (xs' := cands rec.points chact) (Es := Es) (args := fun _ => OwnerRange P leaves rec.tree)
          hxs hQ hl hsplit hkid hrange (fun _ _ _ _ _ h => h) hq0
          (hnext chact rfl) (fun k hk => (p2 k (Nat.zero_le _) hk).2.1) (fun k hk => (p2 k (Nat.zero_le _) hk).1)
          (fun k hk => (p2 k (Nat.zero_le _) hk).2.2)
        exact ⟨x2, _, rfl, h.1, h.2.1, h.2.2, replays_append r0 r2⟩

/-! ## The search of the whole forest -/

/-- The window holds the leaves of `L` inside of `Q`, at their place in `L`. -/
def WindowOk (L : List (Quad d)) (Q : Quad d) : Option (List (Quad d) × ℕ) → Prop
  | none => ∀ q ∈ L, ¬ Cells q ⊆ Cells Q
  | some (w, pos) => (∀ i q, w[i]? = some q → L[pos + i]? = some q) ∧ ∀ q, q ∈ w ↔ q ∈ L ∧ Cells q ⊆ Cells Q

theorem windowOk_pairwise {L : List (Quad d)} {Q : Quad d} (hlin : L.Pairwise (fun q r => stop q ≤ start r))
    {w : List (Quad d)} {pos : ℕ} (h : WindowOk L Q (some (w, pos))) : w.Pairwise (fun q r => stop q ≤ start r) := by
  rw [List.pairwise_iff_getElem]
  intro i j hi hj hij
  obtain ⟨h1, e1⟩ := List.getElem?_eq_some_iff.mp (h.1 i _ (List.getElem?_eq_getElem hi))
  obtain ⟨h2, e2⟩ := List.getElem?_eq_some_iff.mp (h.1 j _ (List.getElem?_eq_getElem hj))
  rw [← e1, ← e2]
  rw [List.pairwise_iff_getElem] at hlin
  exact hlin _ _ h1 h2 (by omega)

theorem windowLeaf_spec (hd : 0 < d) {L : List (Quad d)} {Q : Quad d} (hQ : Valid Q) (hv : ∀ a ∈ L, Valid a)
    (hlin : L.Pairwise (fun q r => stop q ≤ start r)) {W : Option (List (Quad d) × ℕ)} (h : WindowOk L Q W) (offset : ℤ) :
    (∃ i : ℕ, L[i]? = some Q ∧ windowLeaf offset W Q = some (offset + i)) ∨ (Q ∉ L ∧ windowLeaf offset W Q = none) := by
  match W, h with
  | none, h => exact Or.inr ⟨fun hm => h Q hm subset_rfl, rfl⟩
  | some ([], pos), h =>
    refine Or.inr ⟨fun hm => ?_, rfl⟩
    have := (h.2 Q).mpr ⟨hm, subset_rfl⟩
    simp at this
  | some (first :: w, pos), h =>
    unfold windowLeaf
    by_cases he : Q = first
    · left
      refine ⟨pos, ?_, if_pos he⟩
      rw [he]; exact h.1 0 first rfl
    · right
      refine ⟨fun hm => ?_, if_neg he⟩
      have hmw := (h.2 Q).mpr ⟨hm, subset_rfl⟩
      rcases List.mem_cons.mp hmw with h1 | h1
      · exact he h1
      · obtain ⟨hf1, hf2⟩ := (h.2 first).mp List.mem_cons_self
        have h2 := (List.pairwise_cons.mp (windowOk_pairwise hlin h)).1 Q h1
        have h3 := (valid_subset_iff hd hQ (hv first hf1)).mp hf2
        have := start_lt_stop first
        omega

theorem childWindow_spec (hd : 0 < d) {L : List (Quad d)} {Q : Quad d} (hQ : Valid Q) (hl : Q.level < 29)
    (hv : ∀ a ∈ L, Valid a) (hlin : L.Pairwise (fun q r => stop q ≤ start r)) (hQL : Q ∉ L)
    {W : Option (List (Quad d) × ℕ)} (h : WindowOk L Q W) {k : ℕ} (hk : k < 2 ^ d) :
    ∃ W', childWindow W Q.level k = some W' ∧ WindowOk L (kid Q k) W' := by
  match W, h with
  | none, h => exact ⟨none, rfl, fun q hq hs => h q hq (hs.trans (kid_subset hd hQ hl hk).1)⟩
  | some (w, pos), h =>
    have hw := windowOk_pairwise hlin h
    have hsw : SortedWeak w := by
      unfold SortedWeak
      refine hw.imp fun {a} {b} h => ?_
      rw [before_interval]
      have := start_lt_stop a
      omega
    have hvw : ∀ a ∈ w, Valid a := fun a ha => hv a ((h.2 a).mp ha).1
    have hst : ∀ a ∈ w, Cells a ⊂ Cells Q := by
      intro a ha
      refine valid_ssubset_of_ne hd hQ (hvw a ha) ((h.2 a).mp ha).2 ?_
      rintro rfl
      exact hQL ((h.2 a).mp ha).1
    obtain ⟨ind, hind, -, -, -, hiff⟩ := C26_split_array hd w Q hQ hl hvw hst hsw
    have ea : ((List.range (2 ^ d + 1)).map ind)[k]? = some (ind k) := by
      rw [List.getElem?_map, List.getElem?_range (by omega)]; rfl
    have eb : ((List.range (2 ^ d + 1)).map ind)[k + 1]? = some (ind (k + 1)) := by
      rw [List.getElem?_map, List.getElem?_range (by omega)]; rfl
    unfold childWindow
    dsimp only
    rw [hind, obind ea, obind eb]
    refine ⟨_, rfl, ?_⟩
    by_cases hlt : ind k < ind (k + 1)
    · rw [if_pos hlt]
      have hget : ∀ i, i < ind (k + 1) - ind k → ((w.drop (ind k)).take (ind (k + 1) - ind k))[i]? = w[ind k + i]? := by
        intro i h
        rw [List.getElem?_take_of_lt h, List.getElem?_drop]
      have hsmall : ∀ i q, ((w.drop (ind k)).take (ind (k + 1) - ind k))[i]? = some q → i < ind (k + 1) - ind k := by
        intro i q h
        obtain ⟨hi, -⟩ := List.getElem?_eq_some_iff.mp h
        have := List.length_take_le (ind (k + 1) - ind k) (w.drop (ind k)); omega
      constructor
      · intro i q hi
        have h1 := hsmall i q hi
        rw [hget i h1] at hi
        rw [Nat.add_assoc]
        exact h.1 _ q hi
      · intro q
        constructor
        · intro hq
          obtain ⟨i, hi⟩ := List.mem_iff_getElem?.mp hq
          have h1 := hsmall i q hi
          rw [hget i h1] at hi
          obtain ⟨h2, h3⟩ := List.getElem?_eq_some_iff.mp hi
          have h4 := (hiff k hk _ h2).mp ⟨by omega, by omega⟩
          rw [h3] at h4
          exact ⟨((h.2 q).mp (List.mem_of_getElem? hi)).1, h4⟩
        · rintro ⟨h1, h2⟩
          have hq := (h.2 q).mpr ⟨h1, h2.trans (kid_subset hd hQ hl hk).1⟩
          obtain ⟨i, hi, rfl⟩ := List.mem_iff_getElem.mp hq
          have h3 := (hiff k hk i hi).mpr h2
          have h4 := hget (i - ind k) (by omega)
          rw [show ind k + (i - ind k) = i by omega, List.getElem?_eq_getElem hi] at h4
          exact List.mem_of_getElem? h4
    · rw [if_neg hlt]
      intro q hq hs
      have hq' := (h.2 q).mpr ⟨hq, hs.trans (kid_subset hd hQ hl hk).1⟩
      obtain ⟨i, hi, rfl⟩ := List.mem_iff_getElem.mp hq'
      have := (hiff k hk i hi).mpr hs
      omega

/-- A leaf has one owner. -/
theorem leaf_not_shared (hd : 0 < d) {trees : List (List (Quad d))} {P : ℕ}
    {leaves : ℕ → List (ℕ × Quad d)} {s : ℕ → ℕ} (hs : Segments trees P leaves s) {me : ℕ} (hme : me < P) {t : ℕ} {q : Quad d}
    (h : (t, q) ∈ leaves me) : ∀ r, r < P → Owns leaves t q r → r = me := by
  intro r hr ho
  obtain ⟨n, h1, h2, h3, h4⟩ := (owns_iff hd hs hr (hs.leaf me hme _ h).2).mp ho
  obtain ⟨h5, h6⟩ := GPath.mem (hs.path me hme) h
  dsimp only at h1 h2
  have h7 : t * 2 ^ (d * 30) + start q ≥ s me := h5
  have h8 : t * 2 ^ (d * 30) + stop q ≤ s (me + 1) := h6
  by_contra hne
  rcases Nat.lt_or_gt_of_ne hne with hlt | hlt
  · have := hs.mono (show r + 1 ≤ me by omega) (by omega)
    omega
  · have := hs.mono (show me + 1 ≤ r by omega) (by omega)
    omega

/-- Where a search of the whole forest goes on. -/
def AllGo (P : ℕ) (leaves : ℕ → List (ℕ × Quad d)) (me t : ℕ) (b : Quad d) : Prop :=
  Shared P leaves t b ∨ (Owns leaves t b me ∧ (t, b) ∉ leaves me)

/-- The ranks and the number passed to the callbacks. -/
def AllArg (P : ℕ) (leaves : ℕ → List (ℕ × Quad d)) (t : ℕ) (offset : ℤ) (L : List (Quad d)) (q : Quad d) (n : ℕ × ℕ × ℤ) : Prop :=
  OwnerRange P leaves t q (n.1, n.2.1) ∧ ((∃ i : ℕ, L[i]? = some q ∧ n.2.2 = offset + i) ∨ (q ∉ L ∧ n.2.2 = -1))

theorem allRecursion_spec (hd : 0 < d) {trees : List (List (Quad d))} {P : ℕ}
    {leaves : ℕ → List (ℕ × Quad d)} {s : ℕ → ℕ} (hs : Segments trees P leaves s) {me : ℕ} (hme : me < P) (offset : ℤ)
    (rec : SearchRec d σ (ℕ × ℕ × ℤ)) (ht : rec.tree < trees.length) {L : List (Quad d)}
    (hL : ∀ q, q ∈ L ↔ (rec.tree, q) ∈ leaves me) (hlin : L.Pairwise (fun q r => stop q ≤ start r)) :
    ∀ (fuel : ℕ) (Q : Quad d) (a b : ℕ) (W : Option (List (Quad d) × ℕ)) (actives : Option (List ℕ)) (x : σ),
    30 ≤ fuel + Q.level → Valid Q →
    OwnerBounds s P (rec.tree * 2 ^ (d * 30) + start Q) (rec.tree * 2 ^ (d * 30) + stop Q) a b →
    WindowOk L Q W → (∀ q ∈ L, ¬ Cells Q ⊂ Cells q) →
    ActiveSorted rec.points actives →
    ∃ x' E, allRecursion (rankCounts leaves P) (globalPartition leaves P trees.length) me offset rec fuel Q a b W actives x = some (x', E) ∧
      E.Pairwise Earlier ∧ (∀ e ∈ E, e.tree = rec.tree) ∧
      TreeSearched rec.quadrantFn.isSome rec.callPost rec.tree (GoNode (AllGo P leaves me rec.tree) Q)
        (AllArg P leaves rec.tree offset L) (cands rec.points actives) E ∧
      Replays rec.quadrantFn rec.pointFn E x x' := by
  have hv : ∀ a ∈ L, Valid a := fun a ha => (hs.leaf me hme _ ((hL a).mp ha)).2
  intro fuel
  induction fuel with
  | zero => intro Q a b W actives x hf hQ; have := hQ.1; omega
  | succ fuel ih =>
    intro Q a b W actives x hf hQ hb hW hbelow hsort
    unfold allRecursion
    by_cases hact : noneActive rec.points actives = true
    · rw [if_pos hact]
      exact ⟨x, [], rfl, List.Pairwise.nil, by simp, treeSearched_nil _ _ _ _ _ _ (Or.inr ((noneActive_iff _ _).mp hact)), rfl⟩
    rw [if_neg hact]
    have hxs : cands rec.points actives ≠ [] := fun h => hact ((noneActive_iff _ _).mpr h)
    have hok : ActiveOk rec.points actives := by
      intro n hn
      refine ⟨hsort n hn, fun h => hxs ?_⟩
      rw [hn]; simp [cands, h]
    obtain ⟨hrange, hshared, hle⟩ := owner_bounds hd hs hQ hb
    have hleaf := windowLeaf_spec hd hQ hv hlin hW offset
    dsimp only
    set leaf := windowLeaf offset W Q with hleafdef
    have harg : AllArg P leaves rec.tree offset L Q (a, b, leaf.getD (-1)) := by
      refine ⟨hrange, ?_⟩
      rcases hleaf with ⟨i, h1, h2⟩ | ⟨h1, h2⟩
      · exact Or.inl ⟨i, h1, by rw [h2]; rfl⟩
      · exact Or.inr ⟨h1, by rw [h2]; rfl⟩
    have hnone : leaf.isNone = true ↔ Q ∉ L := by
      rcases hleaf with ⟨i, h1, h2⟩ | ⟨h1, h2⟩
      · simp [h2, List.mem_of_getElem? h1]
      · simp [h2, h1]
    have hgo : (decide (a < b) || (a == me && leaf.isNone)) = true ↔ AllGo P leaves me rec.tree Q := by
      rw [Bool.or_eq_true, decide_eq_true_eq, Bool.and_eq_true, beq_iff_eq, hnone]
      unfold AllGo
      rw [hshared, ← hL]
      rcases Nat.lt_or_ge a b with h | h
      · exact ⟨fun _ => Or.inl h, fun _ => Or.inl h⟩
      · obtain rfl : a = b := by omega
        have h1 : Owns leaves rec.tree Q me ↔ a = me := by
          constructor
          · intro ho
            have := hrange.2.2.2.2 me hme ho
            dsimp only at this
            omega
          · rintro rfl
            exact hrange.2.2.1
        rw [h1]
    set proceed := (decide (a < b) || (a == me && leaf.isNone)) with hproceed
    obtain ⟨next, x1, E0, e0, hq0, r0, hnn, hsome, hnext⟩ :=
      searchQuadrant_spec rec (!proceed) Q (a, b, leaf.getD (-1)) actives x hok
    rw [e0]
    dsimp only
    by_cases hp : proceed = false
    · -- the recursion ends
      have hns : ¬ AllGo P leaves me rec.tree Q := by rw [← hgo, hp]; simp
      have hts := treeSearched_leaf (arg := AllArg P leaves rec.tree offset L) (goNode_single hd hQ hns) harg hxs hq0
      have hnx : next = none := by
        have := searchQuadrant_leaf rec Q (a, b, leaf.getD (-1)) actives x
        rw [show (!proceed) = true by rw [hp]; rfl] at e0
        rw [e0] at this
        exact this
      rw [hnx]
      exact ⟨x1, E0, rfl, hq0.order, fun e he => (hq0.mem e he).1, hts, r0⟩
    · have hp : proceed = true := by simpa using hp
      have hsh := hgo.mp hp
      have hQL : Q ∉ L := by
        intro h
        have h' := (hL Q).mp h
        rcases hsh with ⟨r, r', hr, hr', hne, h1, h2⟩ | ⟨-, h1⟩
        · have := leaf_not_shared hd hs hme h' r hr h1
          have := leaf_not_shared hd hs hme h' r' hr' h2
          omega
        · exact h1 h'
      have hl : Q.level < 29 := by
        rcases hsh with h | ⟨⟨y, hy, hyt, hmeet⟩, -⟩
        · exact shared_level hd hs hQ hb (hshared.mp h)
        · have hy' : y.2 ∈ L := (hL y.2).mpr (by rw [← hyt]; exact hy)
          rcases C03_nested_or_disjoint y.2 Q (hv _ hy').extended hQ.extended with h | h | h
          · rcases eq_or_ne Q y.2 with he | he
            · exact absurd (he ▸ hy') hQL
            · exact absurd (valid_ssubset_of_ne hd (hv _ hy') hQ h he) (hbelow _ hy')
          · rcases eq_or_ne y.2 Q with he | he
            · exact absurd (he ▸ hy') hQL
            · exact (kid_of_ssubset hd hQ (hv _ hy') (valid_ssubset_of_ne hd hQ (hv _ hy') h he)).1
          · obtain ⟨p, hp1, hp2⟩ := hmeet
            exact absurd ⟨hp1, hp2⟩ (h p)
      have hsplit := goNode_split hd hQ hl hsh
      have hkid : ∀ k, k < 2 ^ d → ∀ q, GoNode (AllGo P leaves me rec.tree) (kid Q k) q → Valid q ∧ Cells q ⊆ Cells (kid Q k) :=
        fun k hk q h => ⟨h.1, h.2.1⟩
      cases next with
      | none =>
        dsimp only
        have h := treeSearched_branch hd (xs' := []) (Es := fun _ => []) (args := fun _ => AllArg P leaves rec.tree offset L) hxs hQ hl
          hsplit hkid harg (fun _ _ _ _ _ h => h) hq0
          (fun y => by
            constructor
            · intro h; simp at h
            · rintro ⟨h1, h2⟩; exact absurd h2 (hnn (by rw [hp]; rfl) rfl y h1))
          (by simp) (by simp) (fun k hk => treeSearched_nil _ _ _ _ _ _ (Or.inr rfl))
        have e : E0 ++ (List.range (2 ^ d)).flatMap (fun _ => ([] : List (Event d (ℕ × ℕ × ℤ)))) = E0 := by simp
        rw [e] at h
        exact ⟨x1, E0, rfl, h.1, h.2.1, h.2.2, r0⟩
      | some chact =>
        dsimp only
        have hok' := hsome chact rfl
        obtain ⟨cp, ecp, hcp0, hcp⟩ := childRange_spec hd hs (gfq := some (rankCounts leaves P)) (Or.inr rfl) ht hQ hl hb hle
        rw [obind ecp]
        obtain ⟨x2, Es, e2, p2, r2⟩ := rankChildren_spec (qf := rec.quadrantFn) (pf := rec.pointFn)
          (range := ownerRange (some (rankCounts leaves P)) (globalPartition leaves P trees.length))
          (go := fun i child cpfirst cplast s => do
            let chpass ← childWindow W Q.level i
            allRecursion (rankCounts leaves P) (globalPartition leaves P trees.length) me offset rec fuel child cpfirst cplast chpass chact s)
          (q := Q) (pfirst := a) (cp := cp) (N := 2 ^ d)
          (P := fun k E => E.Pairwise Earlier ∧ (∀ e ∈ E, e.tree = rec.tree) ∧
            TreeSearched rec.quadrantFn.isSome rec.callPost rec.tree (GoNode (AllGo P leaves me rec.tree) (kid Q k))
              (AllArg P leaves rec.tree offset L) (cands rec.points chact) E)
          (by
            intro k hk
            obtain ⟨a', b', e1, hb'⟩ := hcp k hk
            refine ⟨a', b', by rw [← kid_eq_child hQ]; exact e1, fun y => ?_⟩
            obtain ⟨W', ew, hW'⟩ := childWindow_spec hd hQ hl hv hlin hQL hW hk
            obtain ⟨y', E, f1, f2, f3, f4, f5⟩ := ih (kid Q k) a' b' W' chact y (by
              have : (kid Q k).level = Q.level + 1 := rfl
              omega) (kid_valid hQ hl k) hb' hW' (by
                intro q hq hsub
                rcases C03_nested_or_disjoint q Q (hv _ hq).extended hQ.extended with h | h | h
                · rcases eq_or_ne Q q with he | he
                  · exact hQL (he ▸ hq)
                  · exact hbelow _ hq (valid_ssubset_of_ne hd (hv _ hq) hQ h he)
                · rcases eq_or_ne q Q with he | he
                  · exact hQL (he ▸ hq)
                  · obtain ⟨-, hj, hjs⟩ := kid_of_ssubset hd hQ (hv _ hq) (valid_ssubset_of_ne hd hQ (hv _ hq) h he)
                    have h1 := (hjs _ hj).mpr rfl
                    have h2 := kid_unique hd hQ hl (kid_valid hQ hl k) hj hk (hsub.1.trans h1) subset_rfl
                    rw [h2] at h1
                    exact hsub.2 h1
                · exact h _ ⟨hsub.1 (corner_mem _), (kid_subset hd hQ hl hk).1 (corner_mem _)⟩)
              (fun n hn => (hok' n hn).1)
            exact ⟨y', E, by rw [← kid_eq_child hQ, obind ew]; exact f1, ⟨f2, f3, f4⟩, f5⟩)
          (2 ^ d) 0 (Nat.zero_add _) x1
        rw [hcp0, Nat.zero_add, ← List.range_eq_range'] at e2
        rw [← List.range_eq_range'] at r2
        rw [obind e2]
        have h := treeSearched_branch hd (xs' := cands rec.points chact) (Es := Es) (args := fun _ => AllArg P leaves rec.tree offset L)
          hxs hQ hl hsplit hkid harg (fun _ _ _ _ _ h => h) hq0
          (hnext chact rfl) (fun k hk => (p2 k (Nat.zero_le _) hk).2.1) (fun k hk => (p2 k (Nat.zero_le _) hk).1)
          (fun k hk => (p2 k (Nat.zero_le _) hk).2.2)
        exact ⟨x2, _, rfl, h.1, h.2.1, h.2.2, replays_append r0 r2⟩

end P4est
