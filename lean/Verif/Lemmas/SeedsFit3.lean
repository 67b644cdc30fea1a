import Verif.Lemmas.SeedsList3

/-! # The seeds at a face in 3D -/

namespace P4est
open Spec

variable {k : ℕ}

/-- A face by its axis and its side. -/
def faceNum (f : Fin 3) (b : Bool) : ℕ := 2 * f + (if b then 1 else 0)

theorem table_edge0 : ∀ (f : Fin 3) (b up : Bool),
    tableAt faceEdgesTable (faceNum f b) (2 + (1 - sgn up) / 2).toNat / 4 = tan1 f ∧
    ∀ w, w ≠ tan1 f → (if w = tan0 (tan1 f) then (tableAt faceEdgesTable (faceNum f b) (2 + (1 - sgn up) / 2).toNat).testBit 0
      else (tableAt faceEdgesTable (faceNum f b) (2 + (1 - sgn up) / 2).toNat).testBit 1) = if w = f then b else !up := by
  decide +kernel

theorem table_edge1 : ∀ (f : Fin 3) (b up : Bool),
    tableAt faceEdgesTable (faceNum f b) ((1 - sgn up) / 2).toNat / 4 = tan0 f ∧
    ∀ w, w ≠ tan0 f → (if w = tan0 (tan0 f) then (tableAt faceEdgesTable (faceNum f b) ((1 - sgn up) / 2).toNat).testBit 0
      else (tableAt faceEdgesTable (faceNum f b) ((1 - sgn up) / 2).toNat).testBit 1) = if w = f then b else !up := by
  decide +kernel

theorem table_child : ∀ (f : Fin 3) (b up vp : Bool) (x : Fin 3),
    (tableAt (faceCornersTable 3) (faceNum f b) ((1 - sgn vp) + (1 - sgn up) / 2).toNat).testBit x =
      if x = tan0 f then !up else if x = tan1 f then !vp else b := by decide +kernel

theorem table_dual : ∀ (f : Fin 3) (b up vp : Bool),
    tableAt (faceCornersTable 3) (faceNum f b) ((1 + sgn vp) + (1 + sgn up) / 2).toNat < 2 ^ 3 ∧ ∀ x : Fin 3,
    (tableAt (faceCornersTable 3) (faceNum f b) ((1 + sgn vp) + (1 + sgn up) / 2).toNat).testBit x =
      if x = tan0 f then up else if x = tan1 f then vp else b := by decide +kernel

theorem faceNum_half : ∀ (f : Fin 3) (b : Bool), faceNum f b / 2 = f ∧ decide (faceNum f b % 2 = 1) = b := by decide

theorem faceTemp_across {q p : Quad 3} {l : ℕ} (f : Fin 3) (b up vp : Bool) :
    faceTemp (nearest q p l) (faceNum f b) (sgn vp) (sgn up) = besides q p l (diagStep f up vp) := by
  obtain ⟨t0, t1, tne, tz0, tz1, tall⟩ := tan_facts f
  unfold faceTemp
  rw [code_temp, (faceNum_half f b).1, t0, t1]
  congr 1
  funext x
  simp only [diagStep, ← Fin.ext_iff]
  by_cases h0 : x = tan0 f
  · subst h0; simp [tne]
  · by_cases h1 : x = tan1 f
    · subst h1; simp [tne.symm]
    · simp [h0, h1]

theorem faceTemp_along0 {q p : Quad 3} {l : ℕ} (f : Fin 3) (b up : Bool) :
    faceTemp (nearest q p l) (faceNum f b) 0 (sgn up) = besides q p l (along (tan0 f) up) := by
  obtain ⟨t0, t1, tne, tz0, tz1, tall⟩ := tan_facts f
  unfold faceTemp
  rw [code_temp, (faceNum_half f b).1, t0, t1]
  congr 1
  funext x
  simp only [along, ← Fin.ext_iff, ite_self, add_zero]

theorem faceTemp_along1 {q p : Quad 3} {l : ℕ} (f : Fin 3) (b up : Bool) :
    faceTemp (nearest q p l) (faceNum f b) (sgn up) 0 = besides q p l (along (tan1 f) up) := by
  obtain ⟨t0, t1, tne, tz0, tz1, tall⟩ := tan_facts f
  unfold faceTemp
  rw [code_temp, (faceNum_half f b).1, t0, t1]
  congr 1
  funext x
  simp only [along, ← Fin.ext_iff, ite_self, zero_add]

/-- The number of the nearest quadrant along an axis outside. -/
theorem near_end {d : ℕ} {q p : Quad d} (hq : Aligned q) (hp : Aligned p) {l : ℕ} (hpl : p.level ≤ l) (hlq : l ≤ q.level)
    {i : Fin d} {up : Bool} (h : conDist q p up i = qlen q.level * outNum q p i) :
    numAt (nearest q p l) l i =
      if up then (numAt p p.level i + 1) * 2 ^ (l - p.level) - 1 else numAt p p.level i * 2 ^ (l - p.level) := by
  have hL := hq.1
  rw [con_iff hq hp (by omega)] at h
  rw [nearest_num]
  unfold movedNum
  rw [pow_levels hpl hlq] at h ⊢
  have hC : (0 : ℤ) < 2 ^ (q.level - l) := by positivity
  have hE : (0 : ℤ) < 2 ^ (l - p.level) := by positivity
  generalize numAt p p.level i = P at *
  generalize numAt q q.level i = Q at *
  generalize (2 : ℤ) ^ (q.level - l) = C at *
  generalize (2 : ℤ) ^ (l - p.level) = E at *
  have hCE : 0 < C * E := mul_pos hC hE
  have e1 : (P + 1) * (C * E) = P * (C * E) + C * E := by ring
  cases up
  · simp only [Bool.false_eq_true, if_false] at h ⊢
    rw [max_eq_left (by omega), show P * (C * E) = (P * E) * C by ring, Int.mul_ediv_cancel _ hC.ne']
  · simp only [if_true] at h ⊢
    have e2 : max (P * (C * E)) (min Q ((P + 1) * (C * E) - 1)) = (P + 1) * (C * E) - 1 := by omega
    rw [e2, show (P + 1) * (C * E) - 1 = (C - 1) + ((P + 1) * E - 1) * C by ring,
      Int.add_mul_ediv_right _ _ hC.ne', Int.ediv_eq_zero_of_lt (by omega) (by omega)]
    ring

theorem pos_one (up : Bool) (A : ℤ) : pos up 1 A = 1 ↔ decide (A % 2 = 1) = up := by
  unfold pos
  rw [pow_one]
  cases up
  · simp only [Bool.false_eq_true, if_false, decide_eq_false_iff_not]; omega
  · simp only [if_true, decide_eq_true_eq]; omega

/-- The choice of the coarser quadrant. -/
theorem code_dual {q p : Quad 3} (hq : Aligned q) (hp : Aligned p) {l : ℕ} (hpl : p.level < l) (hlq : l ≤ q.level)
    {f : Fin 3} {b : Bool} (hcon : conDist q p b f = qlen q.level * outNum q p f) (up vp : Bool) :
    childId (nearest q p l) = tableAt (faceCornersTable 3) (faceNum f b) ((1 + sgn vp) + (1 + sgn up) / 2).toNat ↔
      pos up 1 (numAt (nearest q p l) l (tan0 f)) = 1 ∧ pos vp 1 (numAt (nearest q p l) l (tan1 f)) = 1 := by
  obtain ⟨t0, t1, tne, tz0, tz1, tall⟩ := tan_facts f
  obtain ⟨hd1, hd2⟩ := table_dual f b up vp
  have hbit : ∀ x, (childId (nearest q p l)).testBit (x : Fin 3) = decide (numAt (nearest q p l) l x % 2 = 1) :=
    fun x => childId_testBit (nearest q p l) (show 0 < l by omega) x
  rw [pos_one, pos_one, ← hbit, ← hbit]
  constructor
  · intro h
    rw [h, hd2, hd2]
    simp [tne.symm]
  · rintro ⟨h1, h2⟩
    refine bits_ext (childId_lt _) hd1 (fun x => ?_)
    rw [hd2]
    by_cases hx0 : x = tan0 f
    · rw [hx0, h1]; simp
    · by_cases hx1 : x = tan1 f
      · rw [hx1, h2]; simp [tne.symm]
      · rw [tall x hx0 hx1, hbit, near_end hq hp hpl.le hlq hcon]
        simp only [tz0.symm, tz1.symm, if_false]
        obtain ⟨c, hc⟩ : ∃ c, l - p.level = c + 1 := ⟨l - p.level - 1, by omega⟩
        rw [hc, pow_succ]
        generalize numAt p p.level f = P
        generalize (2 : ℤ) ^ c = M
        cases b
        · simp only [Bool.false_eq_true, if_false, decide_eq_false_iff_not]
          rw [show P * (M * 2) = 2 * (P * M) by ring]
          omega
        · simp only [if_true, decide_eq_true_eq]
          rw [show (P + 1) * (M * 2) = 2 * ((P + 1) * M) by ring]
          omega

/-- The test of a quadrant beside along one axis. -/
theorem edge_side_spec (hk1 : 1 ≤ k) (hkd : k ≤ 3) {q p : Quad 3} (hq : Aligned q) (hp : Aligned p) {l : ℕ}
    (hpl : p.level ≤ l) (hlq : l < q.level) {f : Fin 3} {b : Bool} (hf : outNum q p f ≠ 0)
    (hi : ∀ i, i ≠ f → outNum q p i = 0) (hcon : conDist q p b f = qlen q.level * outNum q p f)
    {x z : Fin 3} {up : Bool} (hx : x ≠ f) (hz : z ≠ f) (hxz : x ≠ z) (hall : ∀ w, w ≠ z → w ≠ f → w = x) {e : ℕ}
    (he : e / 4 = z)
    (hb : ∀ w, w ≠ z → (if w = tan0 z then e.testBit 0 else e.testBit 1) = if w = f then b else !up) :
    ConSpec k q (besides q p l (along x up)) (edgeConBase q (besides q p l (along x up)) e (ibalance 3 k)) := by
  have hL := hq.1
  obtain ⟨t0, t1, tne, tz0, tz1, tall⟩ := tan_facts z
  have hc : ∀ w, w ≠ z → conDist q (besides q p l (along x up)) (if w = f then b else !up) w =
      qlen q.level * outNum q (besides q p l (along x up)) w := by
    intro w hw
    by_cases hwf : w = f
    · rw [if_pos hwf, hwf]
      exact con_same hq hp hpl hlq (along_ne hx.symm) hcon
    · rw [if_neg hwf, hall w hw hwf]
      exact con_shift hq hlq along_self (hi x hx)
  refine edgeCon_spec hk1 hkd hq (qat_aligned (by omega) _) hlq he ?_ ?_ ⟨f, ?_⟩ ?_
  · have h1 := hc _ tz0
    rw [← hb _ tz0, if_pos rfl] at h1
    exact h1
  · have h1 := hc _ tz1
    rw [← hb _ tz1, if_neg tne.symm] at h1
    exact h1
  · have := besides_out (q := q) (p := p) (l := l) hpl hlq.le (along_ne (up := up) hx.symm)
    exact fun h => hf (this.symm.trans h)
  · have := besides_out (q := q) (p := p) (l := l) hpl hlq.le (along_ne (up := up) hxz.symm)
    exact this.trans (hi z hz)

/-- The test of a quadrant beside along two axes. -/
theorem corner_side_spec (hk1 : 1 ≤ k) (hkd : k ≤ 3) {q p : Quad 3} (hq : Aligned q) (hp : Aligned p) {l : ℕ}
    (hpl : p.level ≤ l) (hlq : l < q.level) {f : Fin 3} {b : Bool} (hf : outNum q p f ≠ 0)
    (hi : ∀ i, i ≠ f → outNum q p i = 0) (hcon : conDist q p b f = qlen q.level * outNum q p f) (up vp : Bool) :
    ConSpec k q (besides q p l (diagStep f up vp)) (cornerCon q (besides q p l (diagStep f up vp))
      (tableAt (faceCornersTable 3) (faceNum f b) ((1 - sgn vp) + (1 - sgn up) / 2).toNat) (ibalance 3 k)) := by
  have hL := hq.1
  obtain ⟨t0, t1, tne, tz0, tz1, tall⟩ := tan_facts f
  have cf : diagStep f up vp f = 0 := by simp [diagStep, tz0.symm, tz1.symm]
  have cy : diagStep f up vp (tan0 f) = sgn up := by simp [diagStep]
  have cz : diagStep f up vp (tan1 f) = sgn vp := by simp [diagStep, tne.symm]
  refine cornerCon_spec (.inr rfl) hk1 hkd hq (qat_aligned (by omega) _) hlq ?_ ⟨f, ?_⟩
  · intro x
    rw [table_child]
    split
    · rename_i h; subst h
      exact con_shift hq hlq cy (hi _ tz0)
    · split
      · rename_i _ h; subst h
        exact con_shift hq hlq cz (hi _ tz1)
      · rename_i h1 h2
        obtain rfl := tall x h1 h2
        exact con_same hq hp hpl hlq cf hcon
  · have := besides_out (q := q) (p := p) (l := l) hpl hlq.le cf
    exact fun h => hf (this.symm.trans h)

theorem ibalance_zero : ∀ k, 1 ≤ k → k ≤ 3 → (ibalance 3 k = 0 ↔ k = 1) := by
  intro k h1 h2
  obtain rfl | rfl | rfl : k = 1 ∨ k = 2 ∨ k = 3 := by omega
  all_goals decide

theorem along_of {d : ℕ} {δ : Fin d → ℤ} {x : Fin d} {up : Bool} (h : δ x = sgn up) (h0 : ∀ i, i ≠ x → δ i = 0) :
    δ = along x up := by
  funext i
  by_cases hi : i = x
  · subst hi; rw [h, along_self]
  · rw [h0 i hi, along_ne hi]

theorem SeedOf.forces {d : ℕ} {q t s : Quad d} (h : SeedOf k q t s) (hl : t.level < q.level) : Forces k q t := by
  obtain ⟨m, hm⟩ : ∃ m, q.level = t.level + m + 1 := ⟨q.level - t.level - 1, by omega⟩
  exact ⟨m, hm, (h.reach _ _ hm).mp h.level⟩

/-- The seeds at a face in 3D. -/
theorem face3_fit {ok : Prop} (hk1 : 1 ≤ k) (hkd : k ≤ 3) {q p s0 : Quad 3} (hq : Aligned q)
    (hq29 : q.level ≤ 29) (hp : Aligned p) (hp29 : p.level ≤ 29) (hpq : p.level < q.level)
    {f : Fin 3} {b : Bool} (hf : outNum q p f ≠ 0) (hi : ∀ i, i ≠ f → outNum q p i = 0)
    (hcon : conDist q p b f = qlen q.level * outNum q p f) (h0 : SeedOf k q p s0) :
    SeedsFit k ok q p {s | s ∈ (faceConExtra q p s0 (faceNum f b) (ibalance 3 k)).toList 9} := by
  have hL := hq.1
  obtain ⟨t0, t1, tne, tz0, tz1, tall⟩ := tan_facts f
  have hb := h0.fine hpq ⟨f, hf⟩
  have hlt := h0.level
  -- the array before the removal
  obtain ⟨E, hE⟩ : ∃ E, E = faceLoop3 q p (nearest q p (s0.level - 1)) s0.level (faceNum f b) (ibalance 3 k)
    (fun n => if n = 4 then some s0 else none) := ⟨_, rfl⟩
  have hF : faceConExtra q p s0 (faceNum f b) (ibalance 3 k) = if k = 1 then facePrune3 s0.level E else E := by
    unfold faceConExtra
    simp only [if_true]
    rw [if_neg (by omega), code_a hq h0 hb.le, ← hE]
    by_cases hk : k = 1
    · rw [if_pos ((ibalance_zero k hk1 hkd).mpr hk), if_pos hk]
    · rw [if_neg (fun h => hk ((ibalance_zero k hk1 hkd).mp h)), if_neg hk]
  have hEat := fun n => (congrFun hE n).trans (faceLoop3_at q p (nearest q p (s0.level - 1)) s0 s0.level (faceNum f b) (ibalance 3 k) n)
  have hY : ∀ up, E (4 + sgn up).toNat = entryOf (leaves (besides q p (s0.level - 1) (along (tan0 f) up)) p)
      (faceTest q (nearest q p (s0.level - 1)) s0.level (faceNum f b) (ibalance 3 k) 0 (sgn up)) := by
    intro up
    rw [← faceTemp_along0 f b up, hEat]
    cases up <;> rfl
  have hZ : ∀ vp, E (4 + 3 * sgn vp).toNat = entryOf (leaves (besides q p (s0.level - 1) (along (tan1 f) vp)) p)
      (faceTest q (nearest q p (s0.level - 1)) s0.level (faceNum f b) (ibalance 3 k) (sgn vp) 0) := by
    intro vp
    rw [← faceTemp_along1 f b vp, hEat]
    cases vp <;> rfl
  have hD : ∀ up vp, E (4 + 3 * sgn vp + sgn up).toNat =
      entryOf (leaves (besides q p (s0.level - 1) (diagStep f up vp)) p)
      (faceTest q (nearest q p (s0.level - 1)) s0.level (faceNum f b) (ibalance 3 k) (sgn vp) (sgn up)) := by
    intro up vp
    rw [← faceTemp_across f b up vp, hEat]
    cases up <;> cases vp <;> rfl
  have h4 : E 4 = some s0 := by rw [hEat]; rfl
  have hcases : ∀ n < 9, n = 4 ∨ (∃ up, n = (4 + sgn up).toNat) ∨ (∃ vp, n = (4 + 3 * sgn vp).toNat) ∨
      ∃ up vp, n = (4 + 3 * sgn vp + sgn up).toNat := by decide
  -- what the tests find
  have tY : ∀ up, ConSpec k q (besides q p (s0.level - 1) (along (tan0 f) up))
      (faceTest q (nearest q p (s0.level - 1)) s0.level (faceNum f b) (ibalance 3 k) 0 (sgn up)) := by
    intro up
    obtain ⟨he, hbt⟩ := table_edge0 f b up
    have := edge_side_spec hk1 hkd hq hp (show p.level ≤ s0.level - 1 by omega) (by omega) hf hi hcon (x := tan0 f)
      (z := tan1 f) (up := up) tz0 tz1 tne (fun w h1 h2 => by by_contra hc; exact h2 (tall w hc h1)) he hbt
    unfold faceTest
    rw [if_neg (by simp), if_neg (sgn_ne up), faceTemp_along0]
    exact this
  have tZ : ∀ vp, ConSpec k q (besides q p (s0.level - 1) (along (tan1 f) vp))
      (faceTest q (nearest q p (s0.level - 1)) s0.level (faceNum f b) (ibalance 3 k) (sgn vp) 0) := by
    intro vp
    obtain ⟨he, hbt⟩ := table_edge1 f b vp
    have := edge_side_spec hk1 hkd hq hp (show p.level ≤ s0.level - 1 by omega) (by omega) hf hi hcon (x := tan1 f)
      (z := tan0 f) (up := vp) tz1 tz0 tne.symm (fun w h1 h2 => by by_contra hc; exact h2 (tall w h1 hc)) he hbt
    unfold faceTest
    rw [if_neg (by simp), if_pos rfl, faceTemp_along1]
    exact this
  have cf : ∀ up vp, diagStep f up vp f = 0 := fun up vp => by simp [diagStep, tz0.symm, tz1.symm]
  have cy : ∀ up vp, diagStep f up vp (tan0 f) = sgn up := fun up vp => by simp [diagStep]
  have cz : ∀ up vp, diagStep f up vp (tan1 f) = sgn vp := fun up vp => by simp [diagStep, tne.symm]
  have hroom : ∀ up vp, Cells (besides q p (s0.level - 1) (diagStep f up vp)) ⊆ Cells p → p.level < s0.level - 1 :=
    fun up vp h => besides_room hq hp (by omega) (by omega) ⟨tan0 f, by rw [cy]; exact sgn_ne up⟩ h
  have tD : ∀ up vp, Cells (besides q p (s0.level - 1) (diagStep f up vp)) ⊆ Cells p →
      ¬ (k = 1 ∧ pos up 1 (numAt (nearest q p (s0.level - 1)) (s0.level - 1) (tan0 f)) = 1 ∧
        pos vp 1 (numAt (nearest q p (s0.level - 1)) (s0.level - 1) (tan1 f)) = 1) →
      ConSpec k q (besides q p (s0.level - 1) (diagStep f up vp))
      (faceTest q (nearest q p (s0.level - 1)) s0.level (faceNum f b) (ibalance 3 k) (sgn vp) (sgn up)) := by
    intro up vp hsub hnd
    have hr := hroom up vp hsub
    have := corner_side_spec hk1 hkd hq hp (show p.level ≤ s0.level - 1 by omega) (by omega) hf hi hcon up vp
    unfold faceTest
    rw [if_pos ⟨sgn_ne up, sgn_ne vp⟩, faceTemp_across, if_neg, ]
    · exact this
    · rw [ibalance_zero k hk1 hkd, code_dual hq hp hr (by omega) hcon]
      exact hnd
  have tU : ∀ up vp, Cells (besides q p (s0.level - 1) (diagStep f up vp)) ⊆ Cells p →
      (k = 1 ∧ pos up 1 (numAt (nearest q p (s0.level - 1)) (s0.level - 1) (tan0 f)) = 1 ∧
        pos vp 1 (numAt (nearest q p (s0.level - 1)) (s0.level - 1) (tan1 f)) = 1) →
      ConSpec k q (besides q p (s0.level - 2) (diagStep f up vp))
      (faceTest q (nearest q p (s0.level - 1)) s0.level (faceNum f b) (ibalance 3 k) (sgn vp) (sgn up)) ∧
      Cells (besides q p (s0.level - 2) (diagStep f up vp)) ⊆ Cells p := by
    intro up vp hsub hd
    have hr := hroom up vp hsub
    obtain ⟨c, hc⟩ : ∃ c, s0.level = c + 2 := ⟨s0.level - 2, by omega⟩
    have hcoarse : ∀ i, (numAt (nearest q p (c + 1)) (c + 1) i + diagStep f up vp i) / 2 =
        numAt (nearest q p (c + 1)) (c + 1) i / 2 + diagStep f up vp i := by
      intro i
      have hdv : ∀ (w : Bool) (A : ℤ), pos w 1 A = 1 → (A + sgn w) / 2 = A / 2 + sgn w := by
        intro w A hw
        rw [pos_one] at hw
        cases w
        · simp [sgn] at hw ⊢; omega
        · simp [sgn] at hw ⊢; omega
      rw [hc, show c + 2 - 1 = c + 1 by omega] at hd
      by_cases hx0 : i = tan0 f
      · rw [hx0, cy]; exact hdv _ _ hd.2.1
      · by_cases hx1 : i = tan1 f
        · rw [hx1, cz]; exact hdv _ _ hd.2.2
        · rw [tall i hx0 hx1, cf, add_zero, add_zero]
    have hmask := code_coarse (q := q) (p := p) (l := c) (δ := diagStep f up vp) (by omega) hL hcoarse
    constructor
    · have := corner_side_spec hk1 hkd hq hp (show p.level ≤ s0.level - 2 by omega) (by omega) hf hi hcon up vp
      unfold faceTest
      rw [if_pos ⟨sgn_ne up, sgn_ne vp⟩, faceTemp_across, if_pos]
      · rw [hc, show c + 2 - 1 = c + 1 by omega, show c + 2 - 2 = c by omega, hmask]
        rw [hc, show c + 2 - 2 = c by omega] at this
        exact this
      · rw [ibalance_zero k hk1 hkd, code_dual hq hp hr (by omega) hcon]
        exact hd
    · have h1 := (sub_iff (r := besides q p (s0.level - 1) (diagStep f up vp)) (qat_aligned (by omega) _) hp
        (show p.level ≤ s0.level - 1 by omega)).mp hsub
      refine (sub_iff (r := besides q p (s0.level - 2) (diagStep f up vp)) (qat_aligned (by omega) _) hp
        (show p.level ≤ s0.level - 2 by omega)).mpr ?_
      intro i
      have h2 := h1 i
      rw [besides_num] at h2 ⊢
      have h2' : (numAt (nearest q p (s0.level - 1)) (s0.level - 1) i + diagStep f up vp i) / 2 ^ (s0.level - 1 - p.level) =
        numAt p p.level i := h2
      show (numAt (nearest q p (s0.level - 2)) (s0.level - 2) i + diagStep f up vp i) / 2 ^ (s0.level - 2 - p.level) = _
      rw [hc, show c + 2 - 1 = c + 1 by omega] at h2'
      rw [hc, show c + 2 - 2 = c by omega]
      have h3 := nearest_up (q := q) (p := p) (l := c) (c := 1) (by omega) hL
      rw [← h3, num_div (s := nearest q p (c + 1)) (l := c) (c := 1) (by omega), pow_one, ← hcoarse i,
        Int.ediv_ediv_of_nonneg (by norm_num), ← h2']
      congr 1
      rw [← pow_succ']
      congr 1
      omega
  have fY := fun up => cell_facts (t := besides q p (s0.level - 1) (along (tan0 f) up)) (qat_aligned (by omega) _) hp
    (show p.level ≤ s0.level - 1 by omega) (tY up)
  have fZ := fun up => cell_facts (t := besides q p (s0.level - 1) (along (tan1 f) up)) (qat_aligned (by omega) _) hp
    (show p.level ≤ s0.level - 1 by omega) (tZ up)
  have fD := fun up vp h1 h2 => cell_facts (t := besides q p (s0.level - 1) (diagStep f up vp)) (qat_aligned (by omega) _) hp
    (show p.level ≤ s0.level - 1 by omega) (tD up vp h1 h2)
  have fU := fun up vp h1 h2 => cell_facts (t := besides q p (s0.level - 1) (diagStep f up vp)) (qat_aligned (by omega) _) hp
    (show p.level ≤ s0.level - 1 by omega) (tU up vp h1 h2).1
  have hsubD : ∀ up vp s, E (4 + 3 * sgn vp + sgn up).toNat = some s →
      Cells (besides q p (s0.level - 1) (diagStep f up vp)) ⊆ Cells p := by
    intro up vp s h
    rw [hD] at h
    refine (code_leaves (t := besides q p (s0.level - 1) (diagStep f up vp)) (qat_aligned (by omega) _) hp
      (show p.level ≤ s0.level - 1 by omega)).mp ?_
    unfold entryOf at h
    split at h
    · cases h
    · rename_i h1
      simpa using h1
  -- what is kept
  have keep1 : ∀ n s, (if k = 1 then facePrune3 s0.level E else E) n = some s → E n = some s := by
    intro n s h
    split at h
    · exact (facePrune3_at s0.level E).1 n s h
    · exact h
  have keep2 : ∀ n s, E n = some s → n ≠ 0 → n ≠ 2 → n ≠ 6 → n ≠ 8 →
      (if k = 1 then facePrune3 s0.level E else E) n = some s := by
    intro n s h a1 a2 a3 a4
    split
    · exact (facePrune3_at s0.level E).2.1 n s h a1 a2 a3 a4
    · exact h
  rw [hF]
  have hYmem : ∀ up s, E (4 + sgn up).toNat = some s →
      s ∈ Extra.toList (if k = 1 then facePrune3 s0.level E else E) 9 := by
    intro up s h
    refine mem_toList.mpr ⟨(4 + sgn up).toNat, by cases up <;> decide, keep2 _ _ h ?_ ?_ ?_ ?_⟩ <;>
      cases up <;> decide
  have hZmem : ∀ up s, E (4 + 3 * sgn up).toNat = some s →
      s ∈ Extra.toList (if k = 1 then facePrune3 s0.level E else E) 9 := by
    intro up s h
    refine mem_toList.mpr ⟨(4 + 3 * sgn up).toNat, by cases up <;> decide, keep2 _ _ h ?_ ?_ ?_ ?_⟩ <;>
      cases up <;> decide
  have h0mem : s0 ∈ Extra.toList (if k = 1 then facePrune3 s0.level E else E) 9 :=
    mem_toList.mpr ⟨4, by decide, keep2 _ _ h4 (by decide) (by decide) (by decide) (by decide)⟩
  constructor
  · intro s hs
    obtain ⟨n, hn, h⟩ := mem_toList.mp hs
    have h := keep1 n s h
    rcases hcases n hn with rfl | ⟨up, rfl⟩ | ⟨vp, rfl⟩ | ⟨up, vp, rfl⟩
    · rw [h4] at h
      injection h with h
      subst h
      exact ⟨p, hp, subset_rfl, le_rfl, hpq, ⟨f, hf⟩, h0⟩
    · rw [hY] at h
      obtain ⟨h1, h2⟩ := (fY up).1 s h
      refine ⟨_, qat_aligned (by omega) _, h1, show p.level ≤ s0.level - 1 by omega, show s0.level - 1 < q.level by omega,
        ⟨f, ?_⟩, h2⟩
      have := besides_out (q := q) (p := p) (l := s0.level - 1) (by omega) (by omega) (along_ne (up := up) tz0.symm)
      exact fun h => hf (this.symm.trans h)
    · rw [hZ] at h
      obtain ⟨h1, h2⟩ := (fZ vp).1 s h
      refine ⟨_, qat_aligned (by omega) _, h1, show p.level ≤ s0.level - 1 by omega, show s0.level - 1 < q.level by omega,
        ⟨f, ?_⟩, h2⟩
      have := besides_out (q := q) (p := p) (l := s0.level - 1) (by omega) (by omega) (along_ne (up := vp) tz1.symm)
      exact fun h => hf (this.symm.trans h)
    · have hsub := hsubD up vp s h
      have hr := hroom up vp hsub
      rw [hD] at h
      by_cases hd : k = 1 ∧ pos up 1 (numAt (nearest q p (s0.level - 1)) (s0.level - 1) (tan0 f)) = 1 ∧
        pos vp 1 (numAt (nearest q p (s0.level - 1)) (s0.level - 1) (tan1 f)) = 1
      · obtain ⟨h1, h2⟩ := (fU up vp hsub hd).1 s h
        refine ⟨_, qat_aligned (by omega) _, (tU up vp hsub hd).2, show p.level ≤ s0.level - 2 by omega,
          show s0.level - 2 < q.level by omega, ⟨f, ?_⟩, h2⟩
        have := besides_out (q := q) (p := p) (l := s0.level - 2) (by omega) (by omega) (cf up vp)
        exact fun h => hf (this.symm.trans h)
      · obtain ⟨h1, h2⟩ := (fD up vp hsub hd).1 s h
        refine ⟨_, qat_aligned (by omega) _, h1, show p.level ≤ s0.level - 1 by omega, show s0.level - 1 < q.level by omega,
          ⟨f, ?_⟩, h2⟩
        have := besides_out (q := q) (p := p) (l := s0.level - 1) (by omega) (by omega) (cf up vp)
        exact fun h => hf (this.symm.trans h)
  · intro _ r hr hrp hforce
    have hside : ∀ x up, x ≠ f → Cells (besides q p (s0.level - 1) (along x up)) ⊆ Cells p →
        Forces k q (besides q p (s0.level - 1) (along x up)) →
        ∃ s ∈ {s | s ∈ Extra.toList (if k = 1 then facePrune3 s0.level E else E) 9},
          SeedOf k q (besides q p (s0.level - 1) (along x up)) s := by
      intro x up hx hsub hF
      by_cases hx0 : x = tan0 f
      · subst hx0
        obtain ⟨s, h1, h2⟩ := (fY up).2 hsub hF
        exact ⟨s, hYmem up s (by rw [hY]; exact h1), h2⟩
      · have hx1 : x = tan1 f := by by_contra hc; exact hx (tall x hx0 hc)
        subst hx1
        obtain ⟨s, h1, h2⟩ := (fZ up).2 hsub hF
        exact ⟨s, hZmem up s (by rw [hZ]; exact h1), h2⟩
    by_cases hk : k = 1
    · subst hk
      refine complete_face3 hq hq29 hp hp29 hpq hf hi h0mem h0 hside ?_ ?_ hr hrp hforce
      · intro up vp hsub hnd hF
        obtain ⟨s, h1, h2⟩ := (fD up vp hsub fun h => hnd h.2).2 hsub hF
        rw [← hD] at h1
        rcases (facePrune3_at s0.level E).2.2 up vp s h1 with h3 | ⟨h3, _⟩
        · refine ⟨s, mem_toList.mpr ⟨(4 + 3 * sgn vp + sgn up).toNat, by cases up <;> cases vp <;> decide, ?_⟩, h2⟩
          rw [if_pos rfl]; exact h3
        · have h4 : s0.level - 1 < s.level := h2.level
          omega
      · intro up vp hsub hd hF
        obtain ⟨s, h1, h2⟩ := (fU up vp hsub ⟨rfl, hd⟩).2 hsub hF
        rw [← hD] at h1
        refine ⟨s, h2, ?_⟩
        rcases (facePrune3_at s0.level E).2.2 up vp s h1 with h3 | ⟨h3, h4 | h4⟩
        · left
          refine mem_toList.mpr ⟨(4 + 3 * sgn vp + sgn up).toNat, by cases up <;> cases vp <;> decide, ?_⟩
          rw [if_pos rfl]; exact h3
        · right
          refine ⟨h3, .inr ?_⟩
          obtain ⟨s', h5⟩ := Option.ne_none_iff_exists'.mp h4
          rw [hZ] at h5
          exact ((fZ vp).1 s' h5).2.forces (show s0.level - 1 < q.level by omega)
        · right
          refine ⟨h3, .inl ?_⟩
          obtain ⟨s', h5⟩ := Option.ne_none_iff_exists'.mp h4
          rw [hY] at h5
          exact ((fY up).1 s' h5).2.forces (show s0.level - 1 < q.level by omega)
    · refine complete_few (by norm_num) hq hq29 hp hp29 hpq ⟨f, hf⟩ h0mem h0 ?_ ?_ ?_ hr hrp hforce
      · intro δ hδ hδ0 hδn hsub hF
        have df := hδ0 f hf
        have hD' : ∀ up vp, Cells (besides q p (s0.level - 1) (diagStep f up vp)) ⊆ Cells p →
            Forces k q (besides q p (s0.level - 1) (diagStep f up vp)) →
            ∃ s ∈ {s | s ∈ Extra.toList (if k = 1 then facePrune3 s0.level E else E) 9},
              SeedOf k q (besides q p (s0.level - 1) (diagStep f up vp)) s := by
          intro up vp hsub hF
          obtain ⟨s, h1, h2⟩ := (fD up vp hsub fun h => hk h.1).2 hsub hF
          rw [← hD] at h1
          refine ⟨s, mem_toList.mpr ⟨(4 + 3 * sgn vp + sgn up).toNat, by cases up <;> cases vp <;> decide, ?_⟩, h2⟩
          rw [if_neg hk]; exact h1
        rcases hδ (tan0 f) with h0' | ⟨up, hup⟩
        · rcases hδ (tan1 f) with h1' | ⟨vp, hvp⟩
          · exfalso
            obtain ⟨i, hi'⟩ := hδn
            by_cases hx0 : i = tan0 f
            · exact hi' (hx0 ▸ h0')
            · by_cases hx1 : i = tan1 f
              · exact hi' (hx1 ▸ h1')
              · exact hi' (tall i hx0 hx1 ▸ df)
          · have e : δ = along (tan1 f) vp := by
              refine along_of hvp fun i hi' => ?_
              by_cases hx0 : i = tan0 f
              · exact hx0 ▸ h0'
              · exact tall i hx0 hi' ▸ df
            subst e
            exact hside _ vp tz1 hsub hF
        · rcases hδ (tan1 f) with h1' | ⟨vp, hvp⟩
          · have e : δ = along (tan0 f) up := by
              refine along_of hup fun i hi' => ?_
              by_cases hx1 : i = tan1 f
              · exact hx1 ▸ h1'
              · exact tall i hi' hx1 ▸ df
            subst e
            exact hside _ up tz0 hsub hF
          · have e : δ = diagStep f up vp := by
              funext i
              by_cases hx0 : i = tan0 f
              · rw [hx0, cy, hup]
              · by_cases hx1 : i = tan1 f
                · rw [hx1, cz, hvp]
                · rw [tall i hx0 hx1, cf, df]
            subst e
            exact hD' up vp hsub hF
      · have hsubs : (Finset.univ.filter fun i => outNum q p i = 0) ⊆ Finset.univ.erase f := by
          intro i hi'
          rw [Finset.mem_erase]
          refine ⟨fun hc => ?_, Finset.mem_univ _⟩
          subst hc
          exact hf (Finset.mem_filter.mp hi').2
        refine (Finset.card_le_card hsubs).trans ?_
        rw [Finset.card_erase_of_mem (Finset.mem_univ _)]
        simp
        omega
      · intro m j E1 E2 hlow _ hreach
        exact lowered_face3 (by omega) hlow (f := f) hf hi hreach

end P4est
