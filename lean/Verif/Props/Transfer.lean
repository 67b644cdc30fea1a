import Verif.Model.Transfer
import Verif.Lemmas.PartitionExt
import Verif.Props.Repartition

/-! # C33: data transfer follows the partition -/

namespace P4est
open Spec

variable {γ : Type}

/-- The data of the elements number `a, ..., b - 1`, one after the other. -/
def Spec.concat {δ : Type} (data : ℕ → List δ) (a b : ℕ) : List δ := (List.range' a (b - a)).flatMap data

/-- The number of bytes of the first `k` elements. -/
def bytesBefore (data : ℕ → List γ) (k : ℕ) : ℕ := ∑ i ∈ Finset.range k, (data i).length

theorem concat_append (data : ℕ → List γ) {a b c : ℕ} (h1 : a ≤ b) (h2 : b ≤ c) :
    concat data a b ++ concat data b c = concat data a c := by
  unfold concat
  rw [← List.flatMap_append]
  congr 1
  have := List.range'_append_1 (s := a) (m := b - a) (n := c - b)
  rw [show a + (b - a) = b by omega, show b - a + (c - b) = c - a by omega] at this
  exact this

theorem concat_length (data : ℕ → List γ) {a b : ℕ} (h : a ≤ b) :
    (concat data a b).length = bytesBefore data b - bytesBefore data a := by
  obtain ⟨n, rfl⟩ : ∃ n, b = a + n := ⟨b - a, by omega⟩
  unfold concat
  rw [Nat.add_sub_cancel_left]
  clear h
  induction n with
  | zero => simp
  | succ n ih =>
    rw [List.range'_concat, List.flatMap_append, List.length_append, ih]
    have h1 : bytesBefore data (a + (n + 1)) = bytesBefore data (a + n) + (data (a + n)).length := Finset.sum_range_succ _ _
    have h2 : bytesBefore data a ≤ bytesBefore data (a + n) := Finset.sum_le_sum_of_subset (Finset.range_mono (by omega))
    rw [h1]; simp; omega

theorem bytesBefore_mono (data : ℕ → List γ) : Monotone (bytesBefore data) := fun _ _ h =>
  Finset.sum_le_sum_of_subset (Finset.range_mono h)

/-- A part of the data is found at its place. -/
theorem concat_part (data : ℕ → List γ) {a b x y : ℕ} (h1 : a ≤ x) (h2 : x ≤ y) (h3 : y ≤ b) :
    ((concat data a b).drop (bytesBefore data x - bytesBefore data a)).take (bytesBefore data y - bytesBefore data x) =
      concat data x y := by
  rw [← concat_append data h1 (h2.trans h3), ← concat_append data h2 h3,
    List.drop_left' (concat_length data h1), List.take_left' (concat_length data h2)]

theorem mapM_congr {δ ε : Type} {f g : δ → Option ε} {l : List δ} (h : ∀ x ∈ l, f x = g x) : l.mapM f = l.mapM g := by
  induction l with
  | nil => rfl
  | cons x l ih => rw [List.mapM_cons, List.mapM_cons, h x (by simp), ih fun y hy => h y (by simp [hy])]

/-! ### The pieces -/

theorem bsearchPartition_spec {gfq : ℕ → ℤ} {s : ℕ → ℕ} {P : ℕ} (hg : ∀ p, p ≤ P → gfq p = s p) {x base : ℕ}
    (h1 : s base ≤ x) (h2 : x < s P) (hb : base ≤ P) :
    ∃ k, bsearchPartition x gfq base (P - base) = some k ∧ base + k < P ∧ s (base + k) ≤ x ∧ x < s (base + k + 1) := by
  have hex : ∀ n, base + n ≤ P → x < s (base + n) → ∃ k, k < n ∧ s (base + k) ≤ x ∧ x < s (base + k + 1) := by
    intro n
    induction n with
    | zero => intro _ h; simp at h; omega
    | succ n ih =>
      intro hn hx
      rcases Nat.lt_or_ge x (s (base + n)) with h | h
      · obtain ⟨k, k1, k2⟩ := ih (by omega) h
        exact ⟨k, by omega, k2⟩
      · exact ⟨n, by omega, h, hx⟩
  obtain ⟨k0, k1, k2, k3⟩ := hex (P - base) (by omega) (by rw [show base + (P - base) = P by omega]; exact h2)
  unfold bsearchPartition
  cases hf : (List.range (P - base)).find? (fun p => decide (gfq (base + p) ≤ x ∧ (x : ℤ) < gfq (base + p + 1))) with
  | none =>
    rw [List.find?_eq_none] at hf
    have := hf k0 (by rw [List.mem_range]; exact k1)
    rw [hg _ (by omega), hg _ (by omega)] at this
    simp only [decide_eq_true_eq] at this
    exact absurd ⟨by exact_mod_cast k2, by exact_mod_cast k3⟩ this
  | some k =>
    have h3 := List.find?_some hf
    have h4 := List.mem_of_find?_eq_some hf
    rw [List.mem_range] at h4
    simp only [decide_eq_true_eq] at h3
    rw [hg _ (by omega), hg _ (by omega)] at h3
    exact ⟨k, rfl, by omega, by exact_mod_cast h3.1, by exact_mod_cast h3.2⟩

/-- Number `x` brought into the range `[a, b]`. -/
def confine (a b x : ℕ) : ℕ := max a (min b x)

/-- The piece that the range `[a, b)` shares with rank `q`. -/
def pieceOf (S : ℕ → ℕ) (a b : ℕ) (s : ℕ → ℕ) (q : ℕ) : Option Piece :=
  if S (confine a b (s (q + 1))) - S (confine a b (s q)) = 0 then none
  else some ⟨q, S (confine a b (s q)) - S a, S (confine a b (s (q + 1))) - S (confine a b (s q))⟩

/-- The function for the sizes counts the bytes. -/
def Sizes (size : ℤ → ℤ → List ℕ → Option (Option ℕ × List ℕ)) (S : ℕ → ℕ) (a b : ℕ) (rs : ℕ → List ℕ) : Prop :=
  ∀ x y : ℕ, a ≤ x → x ≤ y → y ≤ b →
    size x y (rs x) = some (if S y - S x = 0 then none else some (S y - S x), rs y)

theorem pieceLoop_spec {other : ℕ → ℤ} {s : ℕ → ℕ} {P : ℕ} (ho : ∀ p, p ≤ P → other p = s p) (hs : Monotone s) {a b : ℕ}
    (hab : a ≤ b) {size : ℤ → ℤ → List ℕ → Option (Option ℕ × List ℕ)} {S : ℕ → ℕ} (hS : Monotone S) {rs : ℕ → List ℕ}
    (hsize : Sizes size S a b rs) (n q : ℕ) (hq : q + n ≤ P) (ha : a < s (q + 1)) (acc : List Piece) :
    pieceLoop other b size n q (confine a b (s q) : ℕ) (S (confine a b (s q)) - S a) (rs (confine a b (s q))) acc =
      some (acc ++ (List.range' q n).filterMap (pieceOf S a b s)) := by
  induction n generalizing q acc with
  | zero => simp [pieceLoop]
  | succ n ih =>
    have hq1 : a < s (q + 1 + 1) := lt_of_lt_of_le ha (hs (by omega))
    have hle : s q ≤ s (q + 1) := hs (by omega)
    have hc1 : a ≤ confine a b (s q) := by unfold confine; omega
    have hc2 : confine a b (s q) ≤ confine a b (s (q + 1)) := by unfold confine; omega
    have hc3 : confine a b (s (q + 1)) ≤ b := by unfold confine; omega
    have e : (if other (q + 1) > (b : ℤ) then (b : ℤ) else other (q + 1)) = ((confine a b (s (q + 1)) : ℕ) : ℤ) := by
      rw [ho _ (by omega)]; unfold confine; split <;> omega
    rw [pieceLoop, e, hsize _ _ hc1 hc2 hc3, List.range'_succ, List.filterMap_cons]
    simp only [bind, Option.bind]
    have hm1 := hS hc1
    have hm2 := hS hc2
    by_cases h0 : S (confine a b (s (q + 1))) - S (confine a b (s q)) = 0
    · rw [if_pos h0]
      simp only
      have e2 : S (confine a b (s q)) - S a = S (confine a b (s (q + 1))) - S a := by omega
      rw [e2, ih (q + 1) (by omega) hq1, pieceOf, if_pos h0]
    · rw [if_neg h0]
      simp only
      have e2 : S (confine a b (s q)) - S a + (S (confine a b (s (q + 1))) - S (confine a b (s q))) =
          S (confine a b (s (q + 1))) - S a := by omega
      rw [e2, ih (q + 1) (by omega) hq1, pieceOf, if_neg h0]
      simp

theorem pieces_spec {mine other : ℕ → ℤ} {t s : ℕ → ℕ} {P : ℕ} (hm : ∀ p, p ≤ P → mine p = t p)
    (ho : ∀ p, p ≤ P → other p = s p) (hs : Monotone s) (ht : Monotone t) (h0 : s 0 = 0) (hN : s P = t P) {r : ℕ} (hr : r < P)
    {size : ℤ → ℤ → List ℕ → Option (Option ℕ × List ℕ)} {S : ℕ → ℕ} (hS : Monotone S) {rs : ℕ → List ℕ}
    (hsize : Sizes size S (t r) (t (r + 1)) rs) :
    pieces mine other P r size (rs (t r)) = some ((List.range P).filterMap (pieceOf S (t r) (t (r + 1)) s)) := by
  have hab : t r ≤ t (r + 1) := ht (by omega)
  have hnone : ∀ q, confine (t r) (t (r + 1)) (s (q + 1)) = confine (t r) (t (r + 1)) (s q) → pieceOf S (t r) (t (r + 1)) s q = none := by
    intro q hq
    rw [pieceOf, hq, Nat.sub_self, if_pos rfl]
  unfold pieces
  rw [hm r (by omega), hm (r + 1) (by omega)]
  by_cases hlt : t r < t (r + 1)
  · have hend : t (r + 1) ≤ s P := by rw [hN]; exact ht (by omega)
    rw [if_pos (by exact_mod_cast hlt)]
    obtain ⟨first, f1, f2, f3, f4⟩ := bsearchPartition_spec ho (x := t r) (base := 0) (by omega) (by omega) (by omega)
    rw [Nat.sub_zero] at f1
    rw [Nat.zero_add] at f2 f3 f4
    obtain ⟨last, l1, l2, l3, l4⟩ := bsearchPartition_spec ho (x := t (r + 1) - 1) (base := first) (by omega) (by omega) (by omega)
    rw [f1]
    simp only [bind, Option.bind]
    rw [show (t (r + 1) : ℤ) - 1 = ((t (r + 1) - 1 : ℕ) : ℤ) by omega, l1]
    simp only
    have h := pieceLoop_spec ho hs hab hS hsize (last + 1) first (by omega) f4 []
    have e : confine (t r) (t (r + 1)) (s first) = t r := by unfold confine; omega
    rw [e, Nat.sub_self, List.nil_append] at h
    rw [h]
    congr 1
    -- the other ranks have no piece
    have hsplit : List.range P = List.range' 0 first ++ (List.range' first (last + 1) ++ List.range' (first + (last + 1)) (P - (first + (last + 1)))) := by
      rw [List.range'_append_1]
      have := List.range'_append_1 (s := 0) (m := first) (n := last + 1 + (P - (first + (last + 1))))
      rw [Nat.zero_add] at this
      rw [this, List.range_eq_range']
      congr 1; omega
    rw [hsplit, List.filterMap_append, List.filterMap_append]
    have hA : (List.range' 0 first).filterMap (pieceOf S (t r) (t (r + 1)) s) = [] := by
      rw [List.filterMap_eq_nil_iff]
      intro q hq
      rw [List.mem_range'_1] at hq
      apply hnone
      have h1 := hs (show q ≤ first by omega)
      have h2 := hs (show q + 1 ≤ first by omega)
      unfold confine; omega
    have hC : (List.range' (first + (last + 1)) (P - (first + (last + 1)))).filterMap (pieceOf S (t r) (t (r + 1)) s) = [] := by
      rw [List.filterMap_eq_nil_iff]
      intro q hq
      rw [List.mem_range'_1] at hq
      apply hnone
      have h1 := hs (show first + last + 1 ≤ q by omega)
      have h2 := hs (show first + last + 1 ≤ q + 1 by omega)
      unfold confine; omega
    rw [hA, hC]; simp
  · rw [if_neg (by exact_mod_cast hlt)]
    congr 1
    symm
    rw [List.filterMap_eq_nil_iff]
    intro q _
    apply hnone
    unfold confine; omega

theorem filter_pieces (S : ℕ → ℕ) (a b : ℕ) (s : ℕ → ℕ) (P r : ℕ) (hr : r < P) :
    ((List.range P).filterMap (pieceOf S a b s)).filter (fun p => p.rank = r) = (pieceOf S a b s r).toList := by
  have e : ((List.range P).filterMap (pieceOf S a b s)).filter (fun p => p.rank = r) =
      (List.range' 0 P).flatMap (fun i => if i = r then (pieceOf S a b s r).toList else []) := by
    rw [List.filterMap_eq_flatMap_toList, List.filter_flatMap, List.range_eq_range']
    apply List.flatMap_congr
    intro i _
    by_cases hi : i = r
    · subst hi
      rw [if_pos rfl]
      unfold pieceOf
      split <;> simp
    · rw [if_neg hi]
      unfold pieceOf
      split
      · rfl
      · simp [hi]
  rw [e, flatMap_range_if, if_pos (by omega)]

/-- Either both ranges have the same common part, or none. -/
theorem confine_cases {a b c e : ℕ} (h1 : a ≤ b) (h2 : c ≤ e) :
    (confine a b c = confine c e a ∧ confine a b e = confine c e b) ∨ (confine a b c = confine a b e ∧ confine c e a = confine c e b) := by
  unfold confine; omega

/-! ### The whole transfer -/

theorem transfer_spec {destGfq srcGfq : ℕ → ℤ} {new old : ℕ → ℕ} {P : ℕ} (hn : ∀ p, p ≤ P → destGfq p = new p)
    (ho : ∀ p, p ≤ P → srcGfq p = old p) (hnm : Monotone new) (hom : Monotone old) (hn0 : new 0 = 0) (ho0 : old 0 = 0)
    (hN : new P = old P) (data : ℕ → List γ) {size : ℤ → ℤ → List ℕ → Option (Option ℕ × List ℕ)}
    {destRs srcRs : ℕ → ℕ → List ℕ}
    (hdest : ∀ r, r < P → Sizes size (bytesBefore data) (new r) (new (r + 1)) (destRs r))
    (hsrc : ∀ p, p < P → Sizes size (bytesBefore data) (old p) (old (p + 1)) (srcRs p))
    {src : ℕ → List γ} (hs : ∀ p, p < P → src p = concat data (old p) (old (p + 1)))
    {dst : ℕ → List (Option γ)} (hd : ∀ r, r < P → (dst r).length = (concat data (new r) (new (r + 1))).length) :
    transfer destGfq srcGfq P size (fun r => destRs r (new r)) (fun p => srcRs p (old p)) src dst =
      some ((List.range P).map fun r => (concat data (new r) (new (r + 1))).map some) := by
  set S := bytesBefore data with hSdef
  have hS : Monotone S := bytesBefore_mono data
  unfold transfer
  rw [mapM_some (g := fun p => (List.range P).filterMap (pieceOf S (old p) (old (p + 1)) new)) fun p hp =>
    pieces_spec ho hn hnm hom hn0 hN (List.mem_range.mp hp) hS (hsrc p (List.mem_range.mp hp))]
  simp only [bind, Option.bind]
  apply mapM_some
  intro r hr
  rw [List.mem_range] at hr
  rw [pieces_spec hn ho hom hnm ho0 hN.symm hr hS (hdest r hr)]
  simp only
  set sends : ℕ → List Piece := fun p =>
    (((List.range P).map fun p => (List.range P).filterMap (pieceOf S (old p) (old (p + 1)) new))[p]?).getD [] with hsends
  have hsend : ∀ p, p < P → (sends p).filter (fun s => s.rank = r) = (pieceOf S (old p) (old (p + 1)) new r).toList := by
    intro p hp
    rw [hsends]
    simp only
    rw [List.getElem?_map, List.getElem?_range hp]
    exact filter_pieces _ _ _ _ _ _ hr
  have hab : new r ≤ new (r + 1) := hnm (by omega)
  have hboth : ∀ q, (pieceOf S (old q) (old (q + 1)) new r = none ∧ pieceOf S (new r) (new (r + 1)) old q = none) ∨
      (confine (old q) (old (q + 1)) (new r) = confine (new r) (new (r + 1)) (old q) ∧
       confine (old q) (old (q + 1)) (new (r + 1)) = confine (new r) (new (r + 1)) (old (q + 1))) := by
    intro q
    rcases confine_cases hab (hom (show q ≤ q + 1 by omega)) with h | h
    · exact Or.inr ⟨h.1.symm, h.2.symm⟩
    · left
      unfold pieceOf
      rw [h.1, h.2, Nat.sub_self, Nat.sub_self, if_pos rfl, if_pos rfl]
      exact ⟨rfl, rfl⟩
  rw [if_pos]
  · -- the buffer fills from the left
    have key : ∀ k, k ≤ P → ((List.range k).filterMap (pieceOf S (new r) (new (r + 1)) old)).foldlM (deliver sends src r) (dst r) =
        some ((concat data (new r) (confine (new r) (new (r + 1)) (old k))).map some ++
          (dst r).drop (S (confine (new r) (new (r + 1)) (old k)) - S (new r))) := by
      intro k
      induction k with
      | zero =>
        intro _
        have e : confine (new r) (new (r + 1)) (old 0) = new r := by unfold confine; omega
        rw [e]; simp [concat]
      | succ k ih =>
        intro hk
        rw [List.range_succ, List.filterMap_append, List.foldlM_append, ih (by omega)]
        simp only [bind, Option.bind, List.filterMap_cons, List.filterMap_nil]
        have hle : old k ≤ old (k + 1) := hom (by omega)
        set x := confine (new r) (new (r + 1)) (old k) with hx
        set y := confine (new r) (new (r + 1)) (old (k + 1)) with hy
        have h1 : new r ≤ x := by rw [hx]; unfold confine; omega
        have h2 : x ≤ y := by rw [hx, hy]; unfold confine; omega
        have h3 : y ≤ new (r + 1) := by rw [hy]; unfold confine; omega
        have hS1 := hS h1
        have hS2 := hS h2
        have hS3 := hS h3
        have hdl : (dst r).length = S (new (r + 1)) - S (new r) := by rw [hd r hr, concat_length data hab]
        by_cases h0 : S y - S x = 0
        · have : pieceOf S (new r) (new (r + 1)) old k = none := by rw [pieceOf, if_pos h0]
          rw [this]
          simp only [List.foldlM_nil]
          have e : concat data x y = [] := List.length_eq_zero_iff.mp (by rw [concat_length data h2]; exact h0)
          rw [← concat_append data h1 h2, e, List.append_nil, show S x - S (new r) = S y - S (new r) by omega]
          rfl
        · have hp : pieceOf S (new r) (new (r + 1)) old k = some ⟨k, S x - S (new r), S y - S x⟩ := by rw [pieceOf, if_neg h0]
          rw [hp]
          simp only [List.foldlM_cons, List.foldlM_nil]
          rcases hboth k with hb | hb
          · rw [hp] at hb; simp at hb
          · rw [← hx, ← hy] at hb
            have hsp : pieceOf S (old k) (old (k + 1)) new r = some ⟨r, S x - S (old k), S y - S x⟩ := by
              rw [pieceOf, hb.1, hb.2, if_neg h0]
            have g1 : old k ≤ x := by rw [← hb.1]; unfold confine; omega
            have g2 : y ≤ old (k + 1) := by rw [← hb.2]; unfold confine; omega
            have gS1 := hS g1
            have gS2 := hS g2
            unfold deliver
            simp only
            rw [hsend k (by omega), hsp]
            simp only [Option.toList, if_true]
            unfold readPiece
            rw [hs k (by omega)]
            simp only
            rw [if_pos (by rw [concat_length data hle, ← hSdef]; omega), concat_part data g1 h2 g2]
            simp only [bind, Option.bind]
            have hcl : (concat data (new r) x).length = S x - S (new r) := concat_length data h1
            have hcl2 : (concat data x y).length = S y - S x := concat_length data h2
            unfold overwrite
            rw [if_pos (by
              simp only [List.length_map, List.length_append, List.length_drop, hcl, hcl2, hdl]
              omega)]
            simp only [Int.toNat_natCast, List.length_map, hcl2, pure]
            congr 1
            rw [List.take_left' (by rw [List.length_map, hcl]), ← concat_append data h1 h2, List.map_append]
            congr 1
            rw [List.drop_append, List.length_map, hcl, List.drop_eq_nil_of_le (by rw [List.length_map, hcl]; omega), List.nil_append,
              List.drop_drop]
            congr 1; omega
    rw [key P le_rfl]
    have e : confine (new r) (new (r + 1)) (old P) = new (r + 1) := by
      have := hnm (show r + 1 ≤ P by omega)
      unfold confine; omega
    rw [e]
    congr 1
    rw [List.drop_eq_nil_of_le (by rw [hd r hr, concat_length data hab]), List.append_nil]
  · unfold expected
    rw [List.all_eq_true]
    intro q hq
    rw [List.mem_range] at hq
    rw [decide_eq_true_eq, hsend q hq, filter_pieces _ _ _ _ _ _ hq]
    rcases hboth q with h | h
    · rw [h.1, h.2]
    · unfold pieceOf
      rw [h.1, h.2]
      split <;> rfl

/-! ### C33 -/

/-- Two partitions of `N` elements among `P` ranks, given as in `global_first_quadrant`. -/
structure Spec.TwoPartitions (destGfq srcGfq : ℕ → ℤ) (P N : ℕ) (new old : ℕ → ℕ) : Prop where
  dest : ∀ p, p ≤ P → destGfq p = new p
  src : ∀ p, p ≤ P → srcGfq p = old p
  destMono : Monotone new
  srcMono : Monotone old
  destFirst : new 0 = 0
  srcFirst : old 0 = 0
  destLast : new P = N
  srcLast : old P = N

/-- C33. `p4est_transfer_fixed`: for any two partitions of the elements, with empty ranks or not, and data of
the same size for each element (possibly zero), every message is received with its size and every
receive is met by a message, no access is out of bounds, and each rank holds afterwards the data of its
elements in the new partition, in order. -/
theorem C33_transfer_fixed (destGfq srcGfq : ℕ → ℤ) (P N : ℕ) (new old : ℕ → ℕ) (h : TwoPartitions destGfq srcGfq P N new old)
    (data : ℕ → List γ) (size : ℕ) (hsize : ∀ k, (data k).length = size)
    (src : ℕ → List γ) (hsrc : ∀ p, p < P → src p = concat data (old p) (old (p + 1)))
    (dst : ℕ → List (Option γ)) (hdst : ∀ r, r < P → (dst r).length = (new (r + 1) - new r) * size) :
    transferFixed destGfq srcGfq P size src dst =
      some ((List.range P).map fun r => (concat data (new r) (new (r + 1))).map some) := by
  have hB : ∀ k, bytesBefore data k = k * size := by
    intro k
    unfold bytesBefore
    rw [Finset.sum_congr rfl fun i _ => hsize i, Finset.sum_const, Finset.card_range, smul_eq_mul]
  have hlen : ∀ r, r < P → (dst r).length = (concat data (new r) (new (r + 1))).length := by
    intro r hr
    rw [hdst r hr, concat_length data (h.destMono (by omega)), hB, hB, Nat.sub_mul]
  unfold transferFixed
  split
  · rename_i h0
    congr 1
    apply List.map_congr_left
    intro r hr
    rw [List.mem_range] at hr
    have h1 := hdst r hr
    rw [h0, Nat.mul_zero] at h1
    have h2 := hlen r hr
    rw [h1] at h2
    rw [List.length_eq_zero_iff.mp h1, List.length_eq_zero_iff.mp h2.symm]; rfl
  · rename_i h0
    have hsz : ∀ a b, Sizes (fixedSize size) (bytesBefore data) a b (fun _ => []) := by
      intro a b x y _ hxy _
      unfold fixedSize
      rw [hB, hB]
      by_cases he : x = y
      · subst he; rw [if_pos rfl, Nat.sub_self, if_pos rfl]
      · rw [if_neg (by exact_mod_cast he), if_pos (by omega), if_neg, ← Nat.sub_mul]
        · congr 4; omega
        · rw [← Nat.sub_mul]
          exact Nat.mul_ne_zero (by omega) h0
    exact transfer_spec h.dest h.src h.destMono h.srcMono h.destFirst h.srcFirst (h.destLast.trans h.srcLast.symm) data
      (destRs := fun _ _ => []) (srcRs := fun _ _ => []) (fun r _ => hsz _ _) (fun p _ => hsz _ _) hsrc hlen

/-- C33. `p4est_transfer_items`: the same for a different number of items for each element, possibly zero,
if the receivers know the numbers. -/
theorem C33_transfer_items (destGfq srcGfq : ℕ → ℤ) (P N : ℕ) (new old : ℕ → ℕ) (h : TwoPartitions destGfq srcGfq P N new old)
    (data : ℕ → List γ) (itemSize : ℕ) (count : ℕ → ℕ) (hsize : ∀ k, (data k).length = itemSize * count k)
    (destCounts srcCounts : ℕ → List ℕ)
    (hdc : ∀ r, r < P → destCounts r = (List.range' (new r) (new (r + 1) - new r)).map count)
    (hsc : ∀ p, p < P → srcCounts p = (List.range' (old p) (old (p + 1) - old p)).map count)
    (src : ℕ → List γ) (hsrc : ∀ p, p < P → src p = concat data (old p) (old (p + 1)))
    (dst : ℕ → List (Option γ)) (hdst : ∀ r, r < P → (dst r).length = itemSize * (destCounts r).sum) :
    transferItems destGfq srcGfq P itemSize destCounts srcCounts src dst =
      some ((List.range P).map fun r => (concat data (new r) (new (r + 1))).map some) := by
  have hsum : ∀ x n, itemSize * ((List.range' x n).map count).sum = bytesBefore data (x + n) - bytesBefore data x := by
    intro x n
    induction n with
    | zero => simp
    | succ n ih =>
      have h1 : bytesBefore data (x + (n + 1)) = bytesBefore data (x + n) + (data (x + n)).length := Finset.sum_range_succ _ _
      have h2 : bytesBefore data x ≤ bytesBefore data (x + n) := bytesBefore_mono data (by omega)
      rw [List.range'_concat, List.map_append, List.sum_append, Nat.mul_add, ih, h1, hsize]
      simp; omega
  have hlen : ∀ r, r < P → (dst r).length = (concat data (new r) (new (r + 1))).length := by
    intro r hr
    have hab := h.destMono (show r ≤ r + 1 by omega)
    rw [hdst r hr, hdc r hr, hsum, concat_length data hab, show new r + (new (r + 1) - new r) = new (r + 1) by omega]
  unfold transferItems
  split
  · rename_i h0
    congr 1
    apply List.map_congr_left
    intro r hr
    rw [List.mem_range] at hr
    have h1 := hdst r hr
    rw [h0, Nat.zero_mul] at h1
    have h2 := hlen r hr
    rw [h1] at h2
    rw [List.length_eq_zero_iff.mp h1, List.length_eq_zero_iff.mp h2.symm]; rfl
  · have hsz : ∀ a b, Sizes (customSize itemSize) (bytesBefore data) a b (fun x => (List.range' x (b - x)).map count) := by
      intro a b x y _ hxy hyb
      unfold customSize
      simp only
      have e : ((y : ℤ) - x).toNat = y - x := by omega
      have hsplit : List.range' x (b - x) = List.range' x (y - x) ++ List.range' y (b - y) := by
        have := List.range'_append_1 (s := x) (m := y - x) (n := b - y)
        rw [show x + (y - x) = y by omega, show y - x + (b - y) = b - x by omega] at this
        exact this.symm
      rw [e, if_pos (by simp; omega), hsplit, List.map_append, List.take_left' (by simp), List.drop_left' (by simp), hsum,
        show x + (y - x) = y by omega]
    have := transfer_spec h.dest h.src h.destMono h.srcMono h.destFirst h.srcFirst (h.destLast.trans h.srcLast.symm) data
      (destRs := fun r x => (List.range' x (new (r + 1) - x)).map count) (srcRs := fun p x => (List.range' x (old (p + 1) - x)).map count)
      (fun r _ => hsz _ _) (fun p _ => hsz _ _) hsrc hlen
    have hcong : transfer destGfq srcGfq P (customSize itemSize) destCounts srcCounts src dst =
        transfer destGfq srcGfq P (customSize itemSize) (fun r => (List.range' (new r) (new (r + 1) - new r)).map count)
          (fun p => (List.range' (old p) (old (p + 1) - old p)).map count) src dst := by
      unfold transfer
      have e1 : (List.range P).mapM (fun p => pieces srcGfq destGfq P p (customSize itemSize) (srcCounts p)) =
          (List.range P).mapM (fun p => pieces srcGfq destGfq P p (customSize itemSize) ((List.range' (old p) (old (p + 1) - old p)).map count)) := by
        apply mapM_congr
        intro p hp
        rw [hsc p (List.mem_range.mp hp)]
      rw [e1]
      congr 1
      funext sends
      apply mapM_congr
      intro r hr
      rw [hdc r (List.mem_range.mp hr)]
    rw [hcong]
    exact this

/-- C33. `p4est_transfer_custom`: the same with a number of bytes for each element. -/
theorem C33_transfer_custom (destGfq srcGfq : ℕ → ℤ) (P N : ℕ) (new old : ℕ → ℕ) (h : TwoPartitions destGfq srcGfq P N new old)
    (data : ℕ → List γ) (destSizes srcSizes : ℕ → List ℕ)
    (hds : ∀ r, r < P → destSizes r = (List.range' (new r) (new (r + 1) - new r)).map fun k => (data k).length)
    (hss : ∀ p, p < P → srcSizes p = (List.range' (old p) (old (p + 1) - old p)).map fun k => (data k).length)
    (src : ℕ → List γ) (hsrc : ∀ p, p < P → src p = concat data (old p) (old (p + 1)))
    (dst : ℕ → List (Option γ)) (hdst : ∀ r, r < P → (dst r).length = (destSizes r).sum) :
    transferCustom destGfq srcGfq P destSizes srcSizes src dst =
      some ((List.range P).map fun r => (concat data (new r) (new (r + 1))).map some) := by
  exact C33_transfer_items destGfq srcGfq P N new old h data 1 (fun k => (data k).length) (fun k => (Nat.one_mul _).symm)
    destSizes srcSizes hds hss src hsrc dst (fun r hr => by rw [hdst r hr, Nat.one_mul])

/-! ### The hypotheses can be met -/

/-- Six elements on four ranks: rank 1 becomes empty, rank 3 was empty. -/
def transferNew (p : ℕ) : ℕ := if p = 0 then 0 else if p = 1 ∨ p = 2 then 4 else if p = 3 then 5 else 6
def transferOld (p : ℕ) : ℕ := if p = 0 then 0 else if p = 1 then 2 else if p = 2 then 3 else 6

theorem transfer_example : TwoPartitions (fun p => (transferNew p : ℤ)) (fun p => (transferOld p : ℤ)) 4 6 transferNew transferOld where
  dest _ _ := rfl
  src _ _ := rfl
  destMono a b h := by unfold transferNew; split_ifs <;> omega
  srcMono a b h := by unfold transferOld; split_ifs <;> omega
  destFirst := rfl
  srcFirst := rfl
  destLast := rfl
  srcLast := rfl

/-- Two bytes for each element. -/
def transferPair (k : ℕ) : List ℕ := [10 * k, 10 * k + 1]

/-- Element `k` has `k % 3` bytes. -/
def transferSome (k : ℕ) : List ℕ := List.replicate (k % 3) k

example : transferFixed (fun p => (transferNew p : ℤ)) (fun p => (transferOld p : ℤ)) 4 2
    (fun p => concat transferPair (transferOld p) (transferOld (p + 1)))
    (fun r => List.replicate ((transferNew (r + 1) - transferNew r) * 2) none) =
    some ((List.range 4).map fun r => (concat transferPair (transferNew r) (transferNew (r + 1))).map some) :=
  C33_transfer_fixed _ _ 4 6 _ _ transfer_example transferPair 2 (fun _ => rfl) _ (fun _ _ => rfl) _ (by intro r _; simp)

example : (List.range 4).map (fun r => concat transferPair (transferNew r) (transferNew (r + 1))) =
    [[0, 1, 10, 11, 20, 21, 30, 31], [], [40, 41], [50, 51]] := by decide +kernel

example : transferCustom (fun p => (transferNew p : ℤ)) (fun p => (transferOld p : ℤ)) 4
    (fun r => (List.range' (transferNew r) (transferNew (r + 1) - transferNew r)).map fun k => (transferSome k).length)
    (fun p => (List.range' (transferOld p) (transferOld (p + 1) - transferOld p)).map fun k => (transferSome k).length)
    (fun p => concat transferSome (transferOld p) (transferOld (p + 1)))
    (fun r => List.replicate ((List.range' (transferNew r) (transferNew (r + 1) - transferNew r)).map fun k => (transferSome k).length).sum
      none) =
    some ((List.range 4).map fun r => (concat transferSome (transferNew r) (transferNew (r + 1))).map some) :=
  C33_transfer_custom _ _ 4 6 _ _ transfer_example transferSome _ _ (fun _ _ => rfl) (fun _ _ => rfl) _ (fun _ _ => rfl) _
    (by intro r _; simp)

example : (List.range 4).map (fun r => concat transferSome (transferNew r) (transferNew (r + 1))) =
    [[1, 2, 2], [], [4], [5, 5]] := by decide +kernel

example : transferItems (fun p => (transferNew p : ℤ)) (fun p => (transferOld p : ℤ)) 4 2
    (fun r => (List.range' (transferNew r) (transferNew (r + 1) - transferNew r)).map fun _ => 1)
    (fun p => (List.range' (transferOld p) (transferOld (p + 1) - transferOld p)).map fun _ => 1)
    (fun p => concat transferPair (transferOld p) (transferOld (p + 1)))
    (fun r => List.replicate (2 * ((List.range' (transferNew r) (transferNew (r + 1) - transferNew r)).map fun _ => 1).sum) none) =
    some ((List.range 4).map fun r => (concat transferPair (transferNew r) (transferNew (r + 1))).map some) :=
  C33_transfer_items _ _ 4 6 _ _ transfer_example transferPair 2 (fun _ => 1) (fun _ => rfl) _ _ (fun _ _ => rfl) (fun _ _ => rfl) _
    (fun _ _ => rfl) _ (by intro r _; simp)

end P4est
