import Verif.Lemmas.SeedsKernel

/-! # The test of p4est_balance_seeds -/

namespace P4est
open Spec

variable {d : ℕ} {k : ℕ}

/-- By how many of its own lengths `q` is outside of `p` along an axis. -/
def outNum (q p : Quad d) (i : Fin d) : ℤ :=
  max 0 (max (numAt p p.level i * 2 ^ (q.level - p.level) - numAt q q.level i)
    (numAt q q.level i + 1 - (numAt p p.level i + 1) * 2 ^ (q.level - p.level)))

theorem outNum_nonneg (q p : Quad d) (i : Fin d) : 0 ≤ outNum q p i := le_max_left _ _

theorem gap_outNum {q p : Quad d} {m : ℕ} (hq : q.level ≤ 30) (h : q.level = p.level + m + 1) (i : Fin d) :
    gap m (numAt q (p.level + m) i) (numAt p p.level i) = halfUp (outNum q p i) := by
  have e1 : numAt q (p.level + m) i = numAt q q.level i / 2 := by
    rw [num_half (by omega), show p.level + m + 1 = q.level by omega]
  unfold gap halfUp outNum
  rw [e1, show q.level - p.level = m + 1 by omega]
  have hM : (1 : ℤ) ≤ 2 ^ m := one_le_pow₀ (by norm_num)
  generalize numAt q q.level i = Q
  generalize numAt p p.level i = P
  rw [show P * 2 ^ (m + 1) = 2 * (P * 2 ^ m) by ring, show (P + 1) * 2 ^ (m + 1) = 2 * (P * 2 ^ m) + 2 * 2 ^ m by ring]
  generalize P * 2 ^ m = X
  generalize (2 : ℤ) ^ m = M at *
  omega

theorem side_qlen (l : ℕ) : qlen l = 2 ^ (30 - l) := rfl

theorem coord_num {q : Quad d} (hq : Aligned q) (i : Fin d) : q.c i = qlen q.level * numAt q q.level i := hq.c_eq i

theorem qlen_mul {L l : ℕ} (h : l ≤ L) (hL : L ≤ 30) : qlen l = qlen L * 2 ^ (L - l) := by
  rw [side_qlen, side_qlen, ← pow_add]
  congr 1
  omega

theorem outside_cases {q p : Quad d} (hq : Aligned q) (hp : Aligned p) (hl : p.level < q.level) (i : Fin d) :
    (outsideAt q p i = none ∧ 2 ^ (q.level - p.level) < outNum q p i) ∨
    (outsideAt q p i = some (-1) ∧ 0 < outNum q p i ∧ conDist q p false i = qlen q.level * outNum q p i) ∨
    (outsideAt q p i = some 1 ∧ 0 < outNum q p i ∧ conDist q p true i = qlen q.level * outNum q p i) ∨
    (outsideAt q p i = some 0 ∧ outNum q p i = 0) := by
  have hL := hq.1
  have c1 := coord_num hq i
  have c2 := coord_num hp i
  have hh := qlen_pos q.level
  have hm := qlen_mul hl.le hL
  have hM : (1 : ℤ) ≤ 2 ^ (q.level - p.level) := one_le_pow₀ (by norm_num)
  unfold outsideAt outNum conDist
  dsimp only
  rw [c1, c2, hm]
  generalize numAt q q.level i = Q at *
  generalize numAt p p.level i = P at *
  generalize qlen q.level = h at *
  rw [show (P + 1) * 2 ^ (q.level - p.level) = P * 2 ^ (q.level - p.level) + 2 ^ (q.level - p.level) by ring,
    show h * 2 ^ (q.level - p.level) * P = h * (P * 2 ^ (q.level - p.level)) by ring]
  generalize P * 2 ^ (q.level - p.level) = X at *
  generalize (2 : ℤ) ^ (q.level - p.level) = M at *
  have e1 : h * X - h * Q = h * (X - Q) := by ring
  have e2 : h * Q + h - (h * X + h * M) = h * (Q + 1 - (X + M)) := by ring
  have lt : ∀ a b : ℤ, h * a < h * b ↔ a < b := fun a b => mul_lt_mul_iff_right₀ hh
  have lt0 : ∀ a : ℤ, 0 < h * a ↔ 0 < a := fun a => mul_pos_iff_of_pos_left hh
  simp only [e1, e2, lt, lt0, gt_iff_lt, if_true, Bool.false_eq_true, if_false]
  split_ifs with h1 h2 h3 h4
  · left; exact ⟨rfl, by omega⟩
  · right; left; exact ⟨rfl, by omega, by rw [show max 0 (max (X - Q) (Q + 1 - (X + M))) = X - Q by omega]⟩
  · left; exact ⟨rfl, by omega⟩
  · right; right; left
    exact ⟨rfl, by omega, by rw [show max 0 (max (X - Q) (Q + 1 - (X + M))) = Q + 1 - (X + M) by omega]⟩
  · right; right; right; exact ⟨rfl, by omega⟩

/-- The entries `outside`. -/
def outs (q p : Quad d) (i : Fin d) : ℤ := (outsideAt q p i).getD 0

theorem outs_cases {q p : Quad d} (hq : Aligned q) (hp : Aligned p) (hl : p.level < q.level) {i : Fin d}
    (hi : outsideAt q p i ≠ none) :
    (outs q p i = 0 ∧ outNum q p i = 0) ∨ (outs q p i ≠ 0 ∧ 0 < outNum q p i ∧
      conDist q p (decide (0 < outs q p i)) i = qlen q.level * outNum q p i) := by
  unfold outs
  rcases outside_cases hq hp hl i with ⟨h, _⟩ | ⟨h, h1, h2⟩ | ⟨h, h1, h2⟩ | ⟨h, h1⟩
  · exact absurd h hi
  · right; rw [h]; exact ⟨by decide, h1, h2⟩
  · right; rw [h]; exact ⟨by decide, h1, h2⟩
  · left; rw [h]; exact ⟨rfl, h1⟩

theorem outs_zero_iff {q p : Quad d} (hq : Aligned q) (hp : Aligned p) (hl : p.level < q.level) {i : Fin d}
    (hi : outsideAt q p i ≠ none) : outs q p i = 0 ↔ outNum q p i = 0 := by
  rcases outs_cases hq hp hl hi with ⟨h1, h2⟩ | ⟨h1, h2, _⟩
  · simp [h1, h2]
  · simp [h1, h2.ne']

/-- The distance seen from a corner. -/
theorem conDist_corner {q p : Quad d} (hq : Aligned q) (hp : Aligned p) (hl : p.level < q.level)
    (hall : ∀ i, outsideAt q p i ≠ none) (hnz : ∀ i, outs q p i ≠ 0) (i : Fin d) :
    conDist q p ((outsideCorner (outs q p)).testBit i) i = qlen q.level * outNum q p i := by
  have hb : (outsideCorner (outs q p)).testBit i = decide (0 < outs q p i) := by
    exact sum_bits_testBit (fun j => 0 < outs q p j) i
  rw [hb]
  rcases outs_cases hq hp hl (hall i) with h | h
  · exact absurd h.1 (hnz i)
  · exact h.2.2

/-- The number of `q`, moved into `p` along an axis. -/
def movedNum (q p : Quad d) (i : Fin d) : ℤ :=
  max (numAt p p.level i * 2 ^ (q.level - p.level))
    (min (numAt q q.level i) ((numAt p p.level i + 1) * 2 ^ (q.level - p.level) - 1))

/-- `b` is the level up to which the distances can be made zero. -/
def ReachLevel (k L : ℕ) (e : Fin d → ℕ) (b : ℕ) : Prop := ∀ l m, L = l + m + 1 → (l < b ↔ CanReach k m e)

theorem ReachLevel.lt {L : ℕ} {e : Fin d → ℕ} {b : ℕ} (h : ReachLevel k L e b) (hL : 0 < L) {i : Fin d}
    (hi : e i ≠ 0) : b < L := by
  have h1 := h (L - 1) 0 (by omega)
  by_contra hc
  exact hi (h1.mp (by omega) i)

theorem maskTo_num {L b : ℕ} (hb : b ≤ L) (hL : L ≤ 30) (n : Fin d → ℤ) :
    maskTo (fun i => qlen L * n i) b = qat b (fun i => n i / 2 ^ (L - b)) := by
  apply Quad.ext'
  · intro i
    show Int.land (qlen L * n i) (Int.lnot (qlen b - 1)) = 2 ^ (30 - b) * (n i / 2 ^ (L - b))
    have e := qlen_mul hb hL
    rw [side_qlen b, land_not_mask, ← side_qlen b, e, Int.mul_ediv_mul_of_pos _ _ (qlen_pos L)]
  · rfl

/-- Moving by the distance. -/
theorem moved_eq {q p : Quad d} (hq : Aligned q) (hp : Aligned p) (hl : p.level < q.level) {i : Fin d}
    {up : Bool} (h : conDist q p up i = qlen q.level * outNum q p i) :
    q.c i + (if up then - (qlen q.level * outNum q p i) else qlen q.level * outNum q p i) =
      qlen q.level * movedNum q p i := by
  have hL := hq.1
  have c1 := coord_num hq i
  have c2 := coord_num hp i
  have hh := qlen_pos q.level
  have hm := qlen_mul hl.le hL
  have hM : (1 : ℤ) ≤ 2 ^ (q.level - p.level) := one_le_pow₀ (by norm_num)
  unfold conDist at h
  unfold outNum at *
  unfold movedNum
  rw [c1, c2, hm] at h
  rw [c1]
  generalize numAt q q.level i = Q at *
  generalize numAt p p.level i = P at *
  generalize qlen q.level = u at *
  rw [show (P + 1) * 2 ^ (q.level - p.level) = P * 2 ^ (q.level - p.level) + 2 ^ (q.level - p.level) by ring] at h ⊢
  rw [show u * 2 ^ (q.level - p.level) * P = u * (P * 2 ^ (q.level - p.level)) by ring] at h
  generalize P * 2 ^ (q.level - p.level) = X at *
  clear hm c2
  generalize (2 : ℤ) ^ (q.level - p.level) = M at *
  have inj : ∀ a b : ℤ, u * a = u * b → a = b := fun a b e => mul_left_cancel₀ hh.ne' e
  cases up
  · simp only [Bool.false_eq_true, if_false] at h ⊢
    have := inj (X - Q) _ (by rw [← h]; ring)
    rw [← mul_add]
    congr 1
    omega
  · simp only [if_true] at h ⊢
    have := inj (Q + 1 - (X + M)) _ (by rw [← h]; ring)
    rw [← sub_eq_add_neg, ← mul_sub]
    congr 1
    omega

theorem moved_zero {q p : Quad d} (hq : Aligned q) {i : Fin d} (h : outNum q p i = 0) :
    q.c i = qlen q.level * movedNum q p i := by
  rw [coord_num hq i]
  congr 1
  unfold outNum at h
  unfold movedNum
  generalize numAt q q.level i = Q at *
  have hM : (1 : ℤ) ≤ 2 ^ (q.level - p.level) := one_le_pow₀ (by norm_num)
  rw [show (numAt p p.level i + 1) * 2 ^ (q.level - p.level) =
    numAt p p.level i * 2 ^ (q.level - p.level) + 2 ^ (q.level - p.level) by ring] at *
  generalize numAt p p.level i * 2 ^ (q.level - p.level) = X at *
  omega

/-- The distances, halved. -/
def halfDist (q p : Quad d) (i : Fin d) : ℕ := halfUp (outNum q p i)

theorem halfDist_eq_zero {q p : Quad d} {i : Fin d} : halfDist q p i = 0 ↔ outNum q p i = 0 := by
  have := outNum_nonneg q p i
  unfold halfDist halfUp
  omega

/-- The level computed by a kernel, as a natural number. -/
theorem reachLevel_of {L : ℕ} {e : Fin d → ℕ} {x : ℤ}
    (h : ∀ l m, L = l + m + 1 → ((l : ℤ) < x ↔ CanReach k m e)) : ReachLevel k L e x.toNat := by
  intro l m hlm
  rw [← h l m hlm]
  omega

/-- What the three functions return. -/
def ConSpec (k : ℕ) (q p : Quad d) (r : Bool × Quad d) : Prop :=
  ∃ b, ReachLevel k q.level (halfDist q p) b ∧
    r = if b ≤ p.level then (true, p) else (false, qat b (fun i => movedNum q p i / 2 ^ (q.level - b)))

theorem cornerCon_spec (hdim : d = 2 ∨ d = 3) (hk1 : 1 ≤ k) (hkd : k ≤ d) {q p : Quad d} (hq : Aligned q)
    (hp : Aligned p) (hl : p.level < q.level) {corner : ℕ}
    (hc : ∀ i : Fin d, conDist q p (corner.testBit i) i = qlen q.level * outNum q p i)
    (hne : ∃ i, outNum q p i ≠ 0) : ConSpec k q p (cornerCon q p corner (ibalance d k)) := by
  unfold cornerCon
  rw [if_neg (by omega)]
  have hD : (fun i : Fin d => conDist q p (corner.testBit i) i) = fun i => qlen q.level * outNum q p i := funext hc
  dsimp only
  rw [hD]
  have hR := reachLevel_of (fun l m h => cornerLevel_gt hdim hk1 hkd (outNum_nonneg q p) (L := q.level) h)
  obtain ⟨i, hi⟩ := hne
  have hlt := hR.lt (by omega) (fun h => hi (halfDist_eq_zero.mp h))
  refine ⟨_, hR, ?_⟩
  by_cases hb : cornerLevel (fun i => qlen q.level * outNum q p i) (ibalance d k) q.level ≤ p.level
  · have hb' : (cornerLevel (fun i => qlen q.level * outNum q p i) (ibalance d k) q.level).toNat ≤ p.level := by omega
    rw [if_pos hb, if_pos hb']
  · have hb' : ¬ (cornerLevel (fun i => qlen q.level * outNum q p i) (ibalance d k) q.level).toNat ≤ p.level := by omega
    rw [if_neg hb, if_neg hb', ← maskTo_num hlt.le hq.1]
    congr 2
    funext i
    have := moved_eq hq hp hl (hc i)
    rwa [hc i]

theorem faceCon_spec (hk1 : 1 ≤ k) {q p : Quad d} (hq : Aligned q)
    (hp : Aligned p) (hl : p.level < q.level) {face : ℕ} {a : Fin d} (ha : face / 2 = a)
    (hc : conDist q p (decide (face % 2 = 1)) a = qlen q.level * outNum q p a)
    (hne : outNum q p a ≠ 0) (hz : ∀ i, i ≠ a → outNum q p i = 0) : ConSpec k q p (faceConBase q p face) := by
  unfold faceConBase
  rw [if_neg (by omega)]
  have hD : axisAt (fun i => conDist q p (decide (face % 2 = 1)) i) (face / 2) = qlen q.level * outNum q p a := by
    rw [ha]
    unfold axisAt
    rw [dif_pos a.2]
    exact hc
  dsimp only
  rw [hD]
  have hR := reachLevel_of (fun l m h => faceLevel_gt hk1 (outNum_nonneg q p) hz (L := q.level) h)
  have hlt := hR.lt (by omega) (fun h => hne (halfDist_eq_zero.mp h))
  refine ⟨_, hR, ?_⟩
  by_cases hb : kernel1d (qlen q.level * outNum q p a) q.level ≤ p.level
  · have hb' : (kernel1d (qlen q.level * outNum q p a) q.level).toNat ≤ p.level := by omega
    rw [if_pos hb, if_pos hb']
  · have hb' : ¬ (kernel1d (qlen q.level * outNum q p a) q.level).toNat ≤ p.level := by omega
    rw [if_neg hb, if_neg hb', ← maskTo_num hlt.le hq.1]
    congr 2
    funext i
    by_cases hi : i = a
    · subst hi
      rw [if_pos ha.symm]
      have := moved_eq hq hp hl hc
      simpa using this
    · rw [if_neg (by rw [ha]; exact fun h => hi (Fin.ext h))]
      exact moved_zero hq (hz i hi)

/-- The two axes other than a given one in 3D. -/
def tan0 (z : Fin 3) : Fin 3 := ![1, 0, 0] z
/-- The two axes other than a given one in 3D. -/
def tan1 (z : Fin 3) : Fin 3 := ![2, 2, 1] z

theorem tan_facts : ∀ z : Fin 3, tangentAt 3 z 0 = tan0 z ∧ tangentAt 3 z 1 = tan1 z ∧ tan0 z ≠ tan1 z ∧
    tan0 z ≠ z ∧ tan1 z ≠ z ∧ ∀ x, x ≠ tan0 z → x ≠ tan1 z → x = z := by decide

theorem edgeCon_spec (hk1 : 1 ≤ k) (hkd : k ≤ 3) {q p : Quad 3} (hq : Aligned q)
    (hp : Aligned p) (hl : p.level < q.level) {edge : ℕ} {z : Fin 3} (he : edge / 4 = z)
    (hc0 : conDist q p (edge.testBit 0) (tan0 z) = qlen q.level * outNum q p (tan0 z))
    (hc1 : conDist q p (edge.testBit 1) (tan1 z) = qlen q.level * outNum q p (tan1 z))
    (hne : ∃ i, outNum q p i ≠ 0) (hz : outNum q p z = 0) :
    ConSpec k q p (edgeConBase q p edge (ibalance 3 k)) := by
  obtain ⟨t0, t1, tne, tz0, tz1, tall⟩ := tan_facts z
  unfold edgeConBase
  rw [if_neg (by omega)]
  dsimp only
  rw [he, t0, t1]
  have ne' : ((tan1 z : Fin 3) : ℕ) ≠ (tan0 z : Fin 3) := fun h => tne (Fin.ext h).symm
  have hD0 : axisAt (fun i => conDist q p (if (i : ℕ) = (tan0 z : Fin 3) then edge.testBit 0 else edge.testBit 1) i)
      (tan0 z) = qlen q.level * outNum q p (tan0 z) := by
    unfold axisAt
    rw [dif_pos (tan0 z).2]
    simpa using hc0
  have hD1 : axisAt (fun i => conDist q p (if (i : ℕ) = (tan0 z : Fin 3) then edge.testBit 0 else edge.testBit 1) i)
      (tan1 z) = qlen q.level * outNum q p (tan1 z) := by
    unfold axisAt
    rw [dif_pos (tan1 z).2]
    dsimp only
    rw [if_neg ne']
    exact hc1
  rw [hD0, hD1]
  have hR := reachLevel_of (fun l m h => edgeLevel_gt hk1 hkd (outNum_nonneg q p) tne
    (fun x h1 h2 => by rw [tall x h1 h2]; exact hz) (L := q.level) h)
  obtain ⟨i, hi⟩ := hne
  have hlt := hR.lt (by omega) (fun h => hi (halfDist_eq_zero.mp h))
  generalize (if ibalance 3 k ≠ 0 then kernel1d (max (qlen q.level * outNum q p (tan0 z))
    (qlen q.level * outNum q p (tan1 z))) q.level else kernel2d (qlen q.level * outNum q p (tan0 z))
    (qlen q.level * outNum q p (tan1 z)) q.level) = B at *
  refine ⟨_, hR, ?_⟩
  by_cases hb : B ≤ p.level
  · have hb' : B.toNat ≤ p.level := by omega
    rw [if_pos hb, if_pos hb']
  · have hb' : ¬ B.toNat ≤ p.level := by omega
    rw [if_neg hb, if_neg hb', ← maskTo_num hlt.le hq.1]
    congr 2
    funext i
    by_cases h0 : i = tan0 z
    · subst h0
      rw [if_pos rfl]
      exact moved_eq hq hp hl hc0
    · rw [if_neg (fun h => h0 (Fin.ext h))]
      by_cases h1 : i = tan1 z
      · subst h1
        rw [if_pos rfl]
        exact moved_eq hq hp hl hc1
      · rw [if_neg (fun h => h1 (Fin.ext h)), tall i h0 h1]
        exact moved_zero hq hz

/-! ## Which of the three -/

theorem type_one {q p : Quad d} (h : outsideType (outs q p) = 1) :
    ∃ a : Fin d, outs q p a ≠ 0 ∧ (∀ i, i ≠ a → outs q p i = 0) ∧
      outsideFace (outs q p) / 2 = a ∧ decide (outsideFace (outs q p) % 2 = 1) = decide (0 < outs q p a) := by
  unfold outsideType at h
  obtain ⟨a, ha⟩ := Finset.card_eq_one.mp h
  have hm : ∀ i, outs q p i ≠ 0 ↔ i = a := by
    intro i
    have := Finset.ext_iff.mp ha i
    simpa using this
  refine ⟨a, (hm a).mpr rfl, fun i hi => by by_contra hc; exact hi ((hm i).mp hc), ?_⟩
  have hf : outsideFace (outs q p) = 2 * a + (if outs q p a > 0 then 1 else 0) := by
    unfold outsideFace
    split
    · rename_i i hi
      have := List.find?_some hi
      simp only [decide_eq_true_eq] at this
      rw [(hm i).mp this]
    · rename_i hn
      have := List.find?_eq_none.mp hn a (List.mem_finRange a)
      simp [(hm a).mpr rfl] at this
  rw [hf]
  split <;> rename_i h1 <;> refine ⟨by omega, ?_⟩ <;> simp_all

theorem type_edge {q p : Quad 3} (h : outsideType (outs q p) = 2) :
    ∃ z : Fin 3, outs q p z = 0 ∧ (∀ i, i ≠ z → outs q p i ≠ 0) ∧ outsideEdge (outs q p) / 4 = z ∧
      (outsideEdge (outs q p)).testBit 0 = decide (0 < outs q p (tan0 z)) ∧
      (outsideEdge (outs q p)).testBit 1 = decide (0 < outs q p (tan1 z)) := by
  unfold outsideType at h
  have hex : ∀ B : Finset (Fin 3), B.card = 2 → ∃ z, z ∉ B ∧ ∀ i, i ≠ z → i ∈ B := by decide
  obtain ⟨z, hz, hi⟩ := hex _ h
  simp only [Finset.mem_filter, Finset.mem_univ, true_and, not_not] at hz hi
  refine ⟨z, hz, hi, ?_⟩
  have hl : (List.finRange 3).reverse = [2, 1, 0] := by decide
  unfold outsideEdge
  rw [hl]
  simp only [List.foldl_cons, List.foldl_nil]
  generalize outs q p = o at *
  obtain rfl | rfl | rfl : z = 0 ∨ z = 1 ∨ z = 2 := (by decide : ∀ z : Fin 3, z = 0 ∨ z = 1 ∨ z = 2) z
  · have h1 := hi 1 (by decide)
    have h2 := hi 2 (by decide)
    have t0 : tan0 0 = 1 := rfl
    have t1 : tan1 0 = 2 := rfl
    rw [t0, t1]
    simp only [hz, ne_eq, not_true_eq_false, h1, h2, not_false_eq_true, if_true, if_false, gt_iff_lt]
    by_cases p1 : 0 < o 1 <;> by_cases p2 : 0 < o 2 <;>
      simp only [p1, p2, if_true, if_false, decide_true, decide_false] <;> decide
  · have h1 := hi 0 (by decide)
    have h2 := hi 2 (by decide)
    have t0 : tan0 1 = 0 := rfl
    have t1 : tan1 1 = 2 := rfl
    rw [t0, t1]
    simp only [hz, ne_eq, not_true_eq_false, h1, h2, not_false_eq_true, if_true, if_false, gt_iff_lt]
    by_cases p1 : 0 < o 0 <;> by_cases p2 : 0 < o 2 <;>
      simp only [p1, p2, if_true, if_false, decide_true, decide_false] <;> decide
  · have h1 := hi 0 (by decide)
    have h2 := hi 1 (by decide)
    have t0 : tan0 2 = 0 := rfl
    have t1 : tan1 2 = 1 := rfl
    rw [t0, t1]
    simp only [hz, ne_eq, not_true_eq_false, h1, h2, not_false_eq_true, if_true, if_false, gt_iff_lt]
    by_cases p1 : 0 < o 0 <;> by_cases p2 : 0 < o 1 <;>
      simp only [p1, p2, if_true, if_false, decide_true, decide_false] <;> decide

theorem ConSpec.flag {q p : Quad d} {r : Bool × Quad d} (h : ConSpec k q p r) {m : ℕ}
    (hm : q.level = p.level + m + 1) : r.1 = false ↔ CanReach k m (halfDist q p) := by
  obtain ⟨b, hb, hr⟩ := h
  rw [← hb _ _ hm, hr]
  split
  · simp; omega
  · simp; omega

/-- The function that is called for a quadrant outside. -/
def seedsOutside (q p : Quad d) (codim : ℕ) : Bool × List (Quad d) :=
  if outsideType (outs q p) = 1 then seedsFace q p (outsideFace (outs q p)) codim
  else if outsideType (outs q p) = d then seedsCorner q p (outsideCorner (outs q p)) codim
  else seedsEdge q p (outsideEdge (outs q p)) codim

theorem balanceSeeds_eq (q p : Quad d) (codim : ℕ) (ws : Bool) : balanceSeeds q p codim ws =
    if q.level ≤ p.level + 1 then some (false, [])
    else if ∃ i, outsideAt q p i = none then some (false, [])
    else if outsideType (outs q p) = 0 then (if ws then some (true, [q]) else none)
    else some ((seedsOutside q p codim).1, if ws then (seedsOutside q p codim).2 else []) := rfl

theorem type_zero {q p : Quad d} : outsideType (outs q p) = 0 ↔ ∀ i, outs q p i = 0 := by
  unfold outsideType
  rw [Finset.card_eq_zero, Finset.filter_eq_empty_iff]
  simp

theorem type_all {q p : Quad d} (h : outsideType (outs q p) = d) : ∀ i, outs q p i ≠ 0 := by
  unfold outsideType at h
  have h1 : (Finset.univ.filter fun i => outs q p i ≠ 0) = Finset.univ :=
    Finset.eq_univ_of_card _ (by rw [h]; simp)
  intro i
  have := Finset.mem_univ i
  rw [← h1] at this
  exact (Finset.mem_filter.mp this).2

/-- The test, for a quadrant outside. -/
theorem seedsOutside_flag (hdim : d = 2 ∨ d = 3) (hk1 : 1 ≤ k) (hkd : k ≤ d) {q p : Quad d}
    (hq : Aligned q) (hp : Aligned p) (hall : ∀ i, outsideAt q p i ≠ none)
    (hne : outsideType (outs q p) ≠ 0) {m : ℕ} (hm : q.level = p.level + m + 1) :
    (seedsOutside q p k).1 = true ↔ CanReach k m (halfDist q p) := by
  have hl : p.level < q.level := by omega
  have hz := fun i => outs_zero_iff hq hp hl (hall i)
  have hex : ∃ i, outNum q p i ≠ 0 := by
    by_contra hc
    push Not at hc
    exact hne (type_zero.mpr fun i => (hz i).mpr (hc i))
  have hcon : ∀ i, outs q p i ≠ 0 → conDist q p (decide (0 < outs q p i)) i = qlen q.level * outNum q p i := by
    intro i hi
    rcases outs_cases hq hp hl (hall i) with h | h
    · exact absurd h.1 hi
    · exact h.2.2
  unfold seedsOutside
  split
  · rename_i h1
    obtain ⟨a, ha0, ha1, ha2, ha3⟩ := type_one h1
    have hs := faceCon_spec hk1 hq hp hl ha2 (by rw [ha3]; exact hcon a ha0)
      (fun h => ha0 ((hz a).mpr h)) (fun i hi => (hz i).mp (ha1 i hi))
    rw [← hs.flag hm]
    unfold seedsFace
    dsimp only
    split <;> rename_i hf
    · simp [hf]
    · simp at hf; simp [hf]
  · split
    · rename_i _ h1
      have hnz := type_all h1
      have hs := cornerCon_spec hdim hk1 hkd hq hp hl (conDist_corner hq hp hl hall hnz) hex
      rw [← hs.flag hm]
      unfold seedsCorner
      dsimp only
      split <;> rename_i hf
      · simp [hf]
      · simp at hf; simp [hf]
    · rename_i h1 h2
      have hcard : outsideType (outs q p) ≤ d := by
        unfold outsideType
        exact (Finset.card_le_univ _).trans (by simp)
      rcases hdim with rfl | rfl
      · omega
      · obtain ⟨z, hz0, hzn, he, hb0, hb1⟩ := type_edge (show outsideType (outs q p) = 2 by omega)
        obtain ⟨-, -, -, tz0, tz1, -⟩ := tan_facts z
        have hs := edgeCon_spec hk1 hkd hq hp hl he (by rw [hb0]; exact hcon _ (hzn _ tz0))
          (by rw [hb1]; exact hcon _ (hzn _ tz1)) hex ((hz z).mp hz0)
        rw [← hs.flag hm]
        unfold seedsEdge
        dsimp only
        split <;> rename_i hf
        · simp [hf]
        · simp at hf; simp [hf]

/-- The test: whatever is returned says whether the distances can be made zero. -/
theorem balanceSeeds_flag (hdim : d = 2 ∨ d = 3) (hk1 : 1 ≤ k) (hkd : k ≤ d) {q p : Quad d}
    (hq : Aligned q) (hp : Aligned p) {m : ℕ} (hm : q.level = p.level + m + 2) {ws b : Bool}
    {ss : List (Quad d)} (h : balanceSeeds q p k ws = some (b, ss)) :
    b = true ↔ CanReach k (m + 1) (halfDist q p) := by
  have hl : p.level < q.level := by omega
  rw [balanceSeeds_eq, if_neg (by omega)] at h
  split at h
  · rename_i hn
    obtain ⟨i, hi⟩ := hn
    injection h with h
    injection h with h1 h2
    subst h1
    constructor
    · intro hc; cases hc
    · intro hr
      exfalso
      have h3 := hr.lt i
      rcases outside_cases hq hp hl i with h4 | h4 | h4 | h4
      · have h5 := h4.2
        have := outNum_nonneg q p i
        rw [halfDist, halfUp_lt this, show q.level - p.level = m + 1 + 1 by omega] at *
        omega
      · rw [hi] at h4; simp at h4
      · rw [hi] at h4; simp at h4
      · rw [hi] at h4; simp at h4
  · rename_i hall
    push Not at hall
    split at h
    · rename_i ht
      have h0 : ∀ i, halfDist q p i = 0 := fun i =>
        halfDist_eq_zero.mpr ((outs_zero_iff hq hp hl (hall i)).mp (type_zero.mp ht i))
      have hr : CanReach k (m + 1) (halfDist q p) := by
        rw [reach_few (by simp [h0])]
        intro i
        rw [h0 i]
        positivity
      split at h
      · injection h with h
        injection h with h1 h2
        simp [← h1, hr]
      · cases h
    · rename_i ht
      injection h with h
      injection h with h1 h2
      rw [← h1]
      exact seedsOutside_flag hdim hk1 hkd hq hp hall ht (by omega)

/-- The distances are zero exactly for a quadrant inside. -/
theorem halfDist_zero_iff {q p : Quad d} (hq : Aligned q) (hp : Aligned p) (hl : p.level ≤ q.level) :
    (∀ i, halfDist q p i = 0) ↔ Cells q ⊆ Cells p := by
  rw [show Cells p = BoxOf p.c (fun i => p.c i + side p) from rfl, cells_sub_box]
  apply forall_congr'
  intro i
  rw [halfDist_eq_zero]
  have hL := hq.1
  have c1 := coord_num hq i
  have c2 := coord_num hp i
  have hh := qlen_pos q.level
  have hm := qlen_mul hl hL
  have hM : (1 : ℤ) ≤ 2 ^ (q.level - p.level) := one_le_pow₀ (by norm_num)
  have s1 : side q = qlen q.level := rfl
  have s2 : side p = qlen p.level := rfl
  unfold outNum
  rw [s1, s2, c1, c2, hm]
  clear c1 c2 s1 s2 hm
  generalize numAt q q.level i = Q at *
  generalize numAt p p.level i = P at *
  generalize qlen q.level = h at *
  rw [show (P + 1) * 2 ^ (q.level - p.level) = P * 2 ^ (q.level - p.level) + 2 ^ (q.level - p.level) by ring,
    show h * 2 ^ (q.level - p.level) * P = h * (P * 2 ^ (q.level - p.level)) by ring]
  generalize P * 2 ^ (q.level - p.level) = X at *
  generalize (2 : ℤ) ^ (q.level - p.level) = M at *
  have e1 : h * Q + h = h * (Q + 1) := by ring
  have e2 : h * X + h * M = h * (X + M) := by ring
  rw [e1, e2, mul_le_mul_iff_right₀ hh, mul_le_mul_iff_right₀ hh]
  omega

end P4est
