import Verif.Model.Balance
import Verif.Spec.Balance
import Verif.Lemmas.SearchPartition

/-! # Geometry of the balance condition -/

namespace P4est
open Spec

variable {d : ℕ}

theorem child_zero (q : Quad d) : child q 0 = ⟨q.c, q.level + 1⟩ := by simp [child]

theorem first_child_eq {e : Quad d} (he : Aligned e) (h1 : 0 < e.level) (h0 : childId e = 0) :
    child (parent e) 0 = e := by
  have := child_parent he h1
  rwa [h0] at this

theorem side_parent {p : Quad d} (hp : p.level ≤ 30) (h1 : 0 < p.level) : side (parent p) = 2 * side p := by
  unfold side
  rw [parent_level, pow_split (l := p.level - 1) (by omega), show p.level - 1 + 1 = p.level by omega]

/-- Corner of a quadrant in its parent. -/
theorem corner_in_parent {p : Quad d} (hp : Aligned p) (h1 : 0 < p.level) (i : Fin d) :
    p.c i = (parent p).c i + (if (childId p).testBit i then side p else 0) := by
  have hl := hp.1
  have h : (child (parent p) (childId p)).c i = p.c i := by rw [child_parent hp h1]
  rw [child_c (parent_aligned hp h1) (by rw [parent_level]; omega), parent_level,
    show p.level - 1 + 1 = p.level by omega] at h
  exact h.symm

@[simp] theorem coarseNeighbor_level (e : Quad d) (sid : ℕ) :
    (coarseNeighbor e sid).level = e.level - 1 := rfl

theorem coarseNeighbor_c {e : Quad d} (he : Aligned e) (h2 : 2 ≤ e.level) (sid : ℕ) (i : Fin d) :
    (coarseNeighbor e sid).c i = (parent (parent e)).c i + (if shiftAxis sid i then
      (if (childId (parent e)).testBit i then side (parent (parent e)) else - side (parent (parent e)))
      else 0) := by
  unfold coarseNeighbor
  have hp := parent_aligned he (by omega)
  dsimp only
  rw [sibling_eq hp (by rw [parent_level]; omega), child_zero]
  rfl

theorem coarseNeighbor_zero {e : Quad d} (he : Aligned e) (h2 : 2 ≤ e.level) :
    coarseNeighbor e 0 = child (parent (parent e)) 0 := by
  apply Quad.ext'
  · intro i
    rw [coarseNeighbor_c he h2, child_zero]
    simp [shiftAxis]
  · rw [coarseNeighbor_level, child_level, parent_level, parent_level]; omega

/-- The shifted quadrant is a first child, of the neighbor of the grandparent. -/
theorem coarseNeighbor_eq_child {e N : Quad d} (h2 : 2 ≤ e.level) (sid : ℕ)
    (hl : N.level + 2 = e.level) (hc : ∀ i, N.c i = (coarseNeighbor e sid).c i) :
    coarseNeighbor e sid = child N 0 := by
  apply Quad.ext'
  · intro i; rw [child_zero, hc]
  · rw [coarseNeighbor_level, child_level]; omega

/-- The neighbor of the grandparent. -/
def bigNeighbor (e : Quad d) (sid : ℕ) : Quad d := ⟨(coarseNeighbor e sid).c, e.level - 2⟩

theorem side_bigNeighbor (e : Quad d) (sid : ℕ) : side (bigNeighbor e sid) = side (parent (parent e)) := by
  unfold side; rw [parent_level, parent_level]; rfl

theorem bigNeighbor_aligned {e : Quad d} (he : Aligned e) (h2 : 2 ≤ e.level) (sid : ℕ) :
    Aligned (bigNeighbor e sid) := by
  have hp := parent_aligned he (by omega)
  have hg := parent_aligned hp (by rw [parent_level]; omega)
  have hl := he.1
  refine ⟨by show e.level - 2 ≤ 30; omega, fun i => ?_⟩
  rw [side_bigNeighbor]
  show _ ∣ (coarseNeighbor e sid).c i
  rw [coarseNeighbor_c he h2]
  apply dvd_add (hg.2 i)
  split
  · split
    · exact dvd_rfl
    · exact (dvd_neg).mpr dvd_rfl
  · exact dvd_zero _

theorem coarseNeighbor_child {e : Quad d} (he : Aligned e) (h2 : 2 ≤ e.level) (sid : ℕ) :
    coarseNeighbor e sid = child (bigNeighbor e sid) 0 := by
  apply coarseNeighbor_eq_child h2
  · show e.level - 2 + 2 = _; omega
  · intro i; rfl

theorem coarseNeighbor_aligned {e : Quad d} (he : Aligned e) (h2 : 2 ≤ e.level) (sid : ℕ) :
    Aligned (coarseNeighbor e sid) := by
  rw [coarseNeighbor_child he h2]
  exact child_aligned (bigNeighbor_aligned he h2 sid) (by have := he.1; show e.level - 2 < 30; omega) 0

/-- What a neighbor inside the domain is like. -/
theorem coarseNeighbor_inside (hd : 0 < d) {dom e : Quad d} (hdom : Valid dom) (he : Valid e)
    (h2 : 2 ≤ e.level) {sid : ℕ} (h : isAncestor dom (coarseNeighbor e sid) = true) :
    Valid (coarseNeighbor e sid) ∧ childId (coarseNeighbor e sid) = 0 ∧
      parent (coarseNeighbor e sid) = bigNeighbor e sid := by
  have ha := coarseNeighbor_aligned he.aligned h2 sid
  have hb := bigNeighbor_aligned he.aligned h2 sid
  have hl := he.1
  have hbl : (bigNeighbor e sid).level < 30 := by show e.level - 2 < 30; omega
  have h1 := ((isAncestor_iff hd hdom.aligned ha).mp h).1
  refine ⟨valid_subset hdom ha (by rw [coarseNeighbor_level]; omega) (h1 (corner_mem _)), ?_, ?_⟩
  · rw [coarseNeighbor_child he.aligned h2]
    exact childId_child hb hbl (by positivity)
  · rw [coarseNeighbor_child he.aligned h2]
    exact parent_child hb hbl 0

/-- The axes of a neighbor number. -/
def shiftSet (d sid : ℕ) : Finset (Fin d) := Finset.univ.filter fun i => shiftAxis sid i = true

theorem mem_shiftSet {sid : ℕ} {i : Fin d} : i ∈ shiftSet d sid ↔ shiftAxis sid i = true := by
  simp [shiftSet]

/-- The neighbor numbers below `bound` are exactly the sets of at most `k` axes, in 2D and 3D. -/
theorem shift_all (hdim : d = 2 ∨ d = 3) {k bound : ℕ} (h1 : 1 ≤ k) (hb : balanceBound d k = some bound)
    (A : Finset (Fin d)) (hA : A.card ≤ k) : ∃ sid, sid < bound ∧ shiftSet d sid = A := by
  have hk : k ≤ d := by
    unfold balanceBound at hb
    split_ifs at hb <;> omega
  rcases hdim with rfl | rfl
  · have e : ∀ k : Fin 3, 1 ≤ k.1 → ∀ A : Finset (Fin 2), A.card ≤ k.1 →
        ∃ sid : Fin 4, (∃ b ∈ balanceBound 2 k.1, sid.1 < b) ∧ shiftSet 2 sid = A := by decide
    obtain ⟨sid, ⟨b, hb', hs⟩, h⟩ := e ⟨k, by omega⟩ h1 A hA
    rw [hb] at hb'
    obtain rfl := Option.some_inj.mp hb'
    exact ⟨sid, hs, h⟩
  · have e : ∀ k : Fin 4, 1 ≤ k.1 → ∀ A : Finset (Fin 3), A.card ≤ k.1 →
        ∃ sid : Fin 8, (∃ b ∈ balanceBound 3 k.1, sid.1 < b) ∧ shiftSet 3 sid = A := by decide +kernel
    obtain ⟨sid, ⟨b, hb', hs⟩, h⟩ := e ⟨k, by omega⟩ h1 A hA
    rw [hb] at hb'
    obtain rfl := Option.some_inj.mp hb'
    exact ⟨sid, hs, h⟩

theorem shift_card (hdim : d = 2 ∨ d = 3) {k bound : ℕ} (hb : balanceBound d k = some bound)
    {sid : ℕ} (hs : sid < bound) : (shiftSet d sid).card ≤ k := by
  have hk : k ≤ d := by
    unfold balanceBound at hb
    split_ifs at hb <;> omega
  rcases hdim with rfl | rfl
  · have e : ∀ k : Fin 3, ∀ sid : Fin 4, (∃ b ∈ balanceBound 2 k.1, sid.1 < b) →
        (shiftSet 2 sid).card ≤ k := by decide
    have hb4 : ∀ k : Fin 3, ∀ b ∈ balanceBound 2 k.1, b ≤ 4 := by decide
    have := hb4 ⟨k, by omega⟩ bound hb
    exact e ⟨k, by omega⟩ ⟨sid, by omega⟩ ⟨bound, hb, hs⟩
  · have e : ∀ k : Fin 4, ∀ sid : Fin 8, (∃ b ∈ balanceBound 3 k.1, sid.1 < b) →
        (shiftSet 3 sid).card ≤ k := by decide +kernel
    have hb4 : ∀ k : Fin 4, ∀ b ∈ balanceBound 3 k.1, b ≤ 8 := by decide
    have := hb4 ⟨k, by omega⟩ bound hb
    exact e ⟨k, by omega⟩ ⟨sid, by omega⟩ ⟨bound, hb, hs⟩

/-! ## Families that must exist -/

/-- A first child strictly inside the domain; it stands for its family. -/
structure FamHead (dom e : Quad d) : Prop where
  valid : Valid e
  first : childId e = 0
  inside : isAncestor dom e = true

theorem FamHead.lt {dom e : Quad d} (h : FamHead dom e) : dom.level < e.level :=
  (isAncestor_iff_div.mp h.inside).1

/-- The families reached from those of `S`. -/
inductive Need (dom : Quad d) (bound : ℕ) (S : Quad d → Prop) : Quad d → Prop
  | seed {e : Quad d} : S e → Need dom bound S e
  | step {e : Quad d} {sid : ℕ} : Need dom bound S e → dom.level + 3 ≤ e.level → sid < bound →
      isAncestor dom (coarseNeighbor e sid) = true → Need dom bound S (coarseNeighbor e sid)

theorem Need.fam (hd : 0 < d) {dom : Quad d} (hdom : Valid dom) {bound : ℕ} {S : Quad d → Prop}
    (hS : ∀ e, S e → FamHead dom e) {e : Quad d} (h : Need dom bound S e) : FamHead dom e := by
  induction h with
  | seed h => exact hS _ h
  | step _ hl _ ha ih =>
    obtain ⟨h1, h2, _⟩ := coarseNeighbor_inside hd hdom ih.valid (by omega) ha
    exact ⟨h1, h2, ha⟩

theorem ancestor_valid {q : Quad d} (hq : Valid q) {l : ℕ} (hl : l ≤ q.level) : Valid (ancestor q l) := by
  have h := hq.1
  apply valid_super hq (ancestor_aligned q (by omega)) (by rw [ancestor_level]; omega)
  exact cells_subset_ancestor hq.aligned hl (corner_mem q)

theorem parent_ancestor' {q : Quad d} (hq : Aligned q) {l : ℕ} (h1 : 0 < l) (hl : l ≤ q.level) :
    parent (ancestor q l) = ancestor q (l - 1) := by
  have hql := hq.1
  have ha := ancestor_aligned q (show l ≤ 30 by omega)
  have hp := parent_aligned ha h1
  have := ancestor_unique hq hp (by rw [parent_level, ancestor_level]; omega)
    (by
      have h2 := cells_subset_ancestor ha (show l - 1 ≤ (ancestor q l).level by rw [ancestor_level]; omega)
      rw [parent_eq_ancestor ha h1]
      exact h2 (cells_subset_ancestor hq hl (corner_mem q)))
  rwa [parent_level, ancestor_level] at this

theorem cells_child_ssubset (hd : 0 < d) {p : Quad d} (hp : Aligned p) (hl : p.level < 30) (k : ℕ) :
    Cells (child p k) ⊂ Cells p := by
  rw [← isAncestor_iff hd hp (child_aligned hp hl k), isAncestor_iff_div]
  refine ⟨by rw [child_level]; omega, ?_⟩
  exact (mem_cells hp).mp (child_corner_mem hp hl k)

/-- A descendant of a quadrant in the domain is in the domain. -/
theorem isAncestor_trans (hd : 0 < d) {a b c : Quad d} (ha : Aligned a) (hc : Aligned c)
    (h1 : Cells b ⊆ Cells a) (h2 : Cells c ⊂ Cells b) : isAncestor a c = true :=
  (isAncestor_iff hd ha hc).mpr (lt_of_lt_of_le h2 h1)

/-- The domain contains every ancestor that is at least as fine. -/
theorem ancestor_inside {dom e : Quad d} (hdom : Aligned dom) (he : Aligned e)
    (h : Cells e ⊆ Cells dom) {m : ℕ} (hm : dom.level ≤ m) (hm2 : m ≤ e.level) :
    Cells (ancestor e m) ⊆ Cells dom := by
  have hl := he.1
  apply cells_subset hdom (ancestor_aligned e (by omega)) hm
  have h1 := h (corner_mem e)
  have e1 := ancestor_unique he hdom (by omega) h1
  have h2 := ancestor_aligned e (show m ≤ 30 by omega)
  rw [e1]
  have h3 : ancestor e dom.level = ancestor (ancestor e m) dom.level := by
    have := ancestor_unique (q := ancestor e m) (a := ancestor e dom.level) h2 (by rw [← e1]; exact hdom)
      hm (by
        rcases laminar (q := ancestor e dom.level) (r := ancestor e m) (by rw [← e1]; exact hdom) h2
          ⟨e.c, cells_subset_ancestor he (by omega) (corner_mem e), cells_subset_ancestor he hm2 (corner_mem e)⟩
          with h4 | h4
        · exact h4 (corner_mem _)
        · rw [mem_ancestor _ (by omega)]
          intro i
          rw [ancestor_c]
          have hp : (0:ℤ) < 2 ^ (30 - m) := by positivity
          obtain ⟨k, hk⟩ : (2:ℤ) ^ (30 - m) ∣ 2 ^ (30 - dom.level) := pow_dvd_pow 2 (by omega)
          have hk0 : 0 < k := by
            have : (0:ℤ) < 2 ^ (30 - dom.level) := by positivity
            rw [hk] at this
            exact (pos_iff_pos_of_mul_pos this).mp hp
          rw [hk, ← Int.ediv_ediv_of_nonneg hp.le, ← Int.ediv_ediv_of_nonneg hp.le,
            Int.mul_ediv_cancel_left _ hp.ne'])
    rwa [ancestor_level] at this
  rw [h3]
  exact cells_subset_ancestor h2 hm (corner_mem _)

/-- With a family, the coarser families around it are needed, too. -/
theorem Need.up (hd : 0 < d) {dom : Quad d} (hdom : Valid dom) {bound : ℕ} (hb : 0 < bound)
    {S : Quad d → Prop} (hS : ∀ e, S e → FamHead dom e) {e : Quad d} (h : Need dom bound S e) {m : ℕ}
    (h1 : dom.level + 1 ≤ m) (h2 : m < e.level) : Need dom bound S (child (ancestor e m) 0) := by
  have hf := h.fam hd hdom hS
  have hl := hf.valid.1
  obtain ⟨n, hn⟩ : ∃ n, e.level = m + 1 + n := ⟨e.level - m - 1, by omega⟩
  induction n generalizing e with
  | zero =>
    have : ancestor e m = parent e := by
      rw [parent_eq_ancestor hf.valid.aligned (by omega), show e.level - 1 = m by omega]
    rw [this, first_child_eq hf.valid.aligned (by omega) hf.first]
    exact h
  | succ n ih =>
    have hal := hf.valid.aligned
    have hz := coarseNeighbor_zero hal (by omega)
    have hpp : parent (parent e) = ancestor e (e.level - 2) := by
      rw [parent_eq_ancestor hal (by omega), parent_ancestor' hal (by omega) (by omega)]
      congr 1
    have hpa := ancestor_aligned e (show e.level - 2 ≤ 30 by omega)
    have hin : isAncestor dom (coarseNeighbor e 0) = true := by
      rw [hz, hpp]
      apply isAncestor_trans hd hdom.aligned (child_aligned hpa (by rw [ancestor_level]; omega) 0)
        (ancestor_inside hdom.aligned hal ((isAncestor_iff hd hdom.aligned hal).mp hf.inside).1
          (show dom.level ≤ e.level - 2 by omega) (by omega))
      exact cells_child_ssubset hd hpa (by rw [ancestor_level]; omega) 0
    have hn' := Need.step h (by omega) hb hin
    have hf' := hn'.fam hd hdom hS
    have hlv : (coarseNeighbor e 0).level = e.level - 1 := rfl
    have := ih hn' (by omega) hf' hf'.valid.1 (by omega)
    have hanc : ancestor (coarseNeighbor e 0) m = ancestor e m := by
      symm
      have hu := ancestor_unique (q := coarseNeighbor e 0) (a := ancestor e m) hf'.valid.aligned
        (ancestor_aligned e (by omega)) (by rw [ancestor_level]; omega) (by
          rw [hz, hpp]
          have h3 := (cells_child_ssubset hd hpa (by rw [ancestor_level]; omega) 0).1 (corner_mem _)
          refine ancestor_inside (ancestor_aligned e (by omega)) hal (cells_subset_ancestor hal (by omega)) ?_ (by omega) h3
          rw [ancestor_level]; omega)
      rwa [ancestor_level] at hu
    rwa [hanc] at this

theorem eq_of_dvd_near {s x y : ℤ} (hx : s ∣ x) (hy : s ∣ y) (h1 : x < y + s) (h2 : y < x + s) : x = y := by
  obtain ⟨a, rfl⟩ := hx
  obtain ⟨b, rfl⟩ := hy
  have hs : 0 < s := by linarith
  have h3 : a < b + 1 := by
    by_contra h
    have : s * (b + 1) ≤ s * a := mul_le_mul_of_nonneg_left (by omega) hs.le
    linarith [mul_add s b 1]
  have h4 : b < a + 1 := by
    by_contra h
    have : s * (a + 1) ≤ s * b := mul_le_mul_of_nonneg_left (by omega) hs.le
    linarith [mul_add s a 1]
  rw [show a = b by omega]

/-- The family of a coarse quadrant that touches a fine one is reached. -/
theorem Need.touch (hd : 0 < d) {dom : Quad d} (hdom : Valid dom) {bound k : ℕ}
    (hb : ∀ A : Finset (Fin d), A.card ≤ k → ∃ sid, sid < bound ∧ shiftSet d sid = A)
    {S : Quad d → Prop} (hS : ∀ e, S e → FamHead dom e) {e : Quad d} (h : Need dom bound S e)
    {a b : Quad d} (ha : Valid a) (hbv : Valid b) (hbd : Cells b ⊆ Cells dom)
    (had : Cells a ⊆ Cells dom) (ht : Touch k a b) (hl : b.level + 2 ≤ a.level) (hal : a.level ≤ e.level)
    (hea : Cells e ⊆ Cells (parent a)) : Need dom bound S (child b 0) := by
  have hf := h.fam hd hdom hS
  have hel := hf.valid.1
  have haal := ha.aligned
  have heal := hf.valid.aligned
  obtain ⟨A, hA1, hA2, hA3, hA4⟩ := ht
  have hdl : dom.level ≤ b.level := ((cells_subset_iff hd hdom.aligned hbv.aligned).mp hbd).1
  have sG : side (ancestor a b.level) = side b := rfl
  have sP := side_parent (p := ancestor a (b.level + 1)) (by rw [ancestor_level]; omega)
    (by rw [ancestor_level]; omega)
  have hPp : parent (ancestor a (b.level + 1)) = ancestor a b.level := by
    rw [parent_ancestor' haal (by omega) (by omega), Nat.add_sub_cancel]
  rw [hPp] at sP
  have hG := cells_subset_ancestor haal (show b.level ≤ a.level by omega)
  have hP := cells_subset_ancestor haal (show b.level + 1 ≤ a.level by omega)
  have haG := ancestor_aligned a (show b.level ≤ 30 by omega)
  have haP := ancestor_aligned a (show b.level + 1 ≤ 30 by omega)
  -- extents
  have ext : ∀ {q : Quad d}, Cells a ⊆ Cells q → ∀ i, q.c i ≤ a.c i ∧ a.c i + side a ≤ q.c i + side q := by
    intro q hq i
    have hs := side_pos a
    have h1 := hq (corner_mem a) i
    have h2 := hq (show (fun j => a.c j + side a - 1) ∈ Cells a from fun j => ⟨by dsimp only; linarith, by dsimp only; linarith⟩) i
    exact ⟨h1.1, by linarith [h2.2]⟩
  have hbne : dom.level + 1 ≤ b.level := by
    by_contra hc
    have e1 : b.level = dom.level := by omega
    have hbdom : b = dom := by
      rw [ancestor_unique hbv.aligned hdom.aligned hdl (hbd (corner_mem b)), ← e1, ancestor_self hbv.aligned]
    obtain ⟨i, hi⟩ := Finset.card_pos.mp (by omega : 0 < A.card)
    have h1 := ext (hbdom ▸ had) i
    have h2 := side_pos a
    rcases hA3 i hi with h3 | h3 <;> linarith
  have hPe : ancestor a (b.level + 1) = ancestor e (b.level + 1) := by
    have hu := ancestor_unique (q := e) (a := ancestor a (b.level + 1)) heal haP
      (by rw [ancestor_level]; omega) (by
        have h1 := hea (corner_mem e)
        rw [parent_eq_ancestor haal (by omega)] at h1
        exact ancestor_inside haP haal hP (by rw [ancestor_level]; omega) (by omega) h1)
    rwa [ancestor_level] at hu
  have hN := h.up hd hdom (by obtain ⟨s, hs, _⟩ := hb ∅ (by simp); omega) hS (m := b.level + 1) (by omega) (by omega)
  rw [← hPe] at hN
  obtain ⟨sid, hs1, hs2⟩ := hb A hA2
  have hpc : parent (child (ancestor a (b.level + 1)) 0) = ancestor a (b.level + 1) :=
    parent_child haP (by rw [ancestor_level]; omega) 0
  have hca := child_aligned haP (by rw [ancestor_level]; omega) 0
  have hcl : (child (ancestor a (b.level + 1)) 0).level = b.level + 2 := rfl
  have key : coarseNeighbor (child (ancestor a (b.level + 1)) 0) sid = child b 0 := by
    apply coarseNeighbor_eq_child (by rw [hcl]; omega) _ (by rw [hcl])
    intro i
    rw [coarseNeighbor_c hca (by rw [hcl]; omega), hpc, hPp, sG]
    have hcp := corner_in_parent haP (by rw [ancestor_level]; omega) i
    rw [hPp] at hcp
    have hx1 := ext hG i
    have hx2 := ext hP i
    have hp1 := side_pos a
    have hp2 := side_pos b
    have d1 := haG.2 i
    have d2 := hbv.aligned.2 i
    rw [sG] at sP hx1 d1
    by_cases hi : i ∈ A
    · have hsh : shiftAxis sid i = true := mem_shiftSet.mp (hs2 ▸ hi)
      rw [hsh, if_pos rfl]
      rcases hA3 i hi with h3 | h3
      · have : b.c i = (ancestor a b.level).c i + side b := by
          apply eq_of_dvd_near d2 (dvd_add d1 dvd_rfl) <;> linarith
        split
        · linarith
        · rename_i hbit
          rw [if_neg hbit] at hcp
          linarith
      · have : b.c i + side b = (ancestor a b.level).c i := by
          apply eq_of_dvd_near (dvd_add d2 dvd_rfl) d1 <;> linarith
        split
        · rename_i hbit
          rw [if_pos hbit] at hcp
          linarith
        · linarith
    · have hsh : ¬ shiftAxis sid i = true := fun h => hi (hs2 ▸ mem_shiftSet.mpr h)
      rw [if_neg hsh, add_zero]
      have h3 := hA4 i hi
      apply eq_of_dvd_near d2 d1
      · linarith [h3.2]
      · linarith [h3.1]
  rw [← key]
  refine Need.step hN (by rw [hcl]; omega) hs1 ?_
  rw [key]
  exact isAncestor_trans hd hdom.aligned (child_aligned hbv.aligned (by have := hbv.1; omega) 0) hbd
    (cells_child_ssubset hd hbv.aligned (by have := hbv.1; omega) 0)

theorem overlap_all {q r : Quad d} (h : ∀ i, OverlapOn q r i) : (Cells q ∩ Cells r).Nonempty := by
  refine ⟨fun i => max (q.c i) (r.c i), fun i => ?_, fun i => ?_⟩
  · have h1 := h i
    have h2 := side_pos q
    unfold OverlapOn at h1
    dsimp only
    constructor
    · exact le_max_left _ _
    · exact max_lt (by linarith) h1.2
  · have h1 := h i
    have h2 := side_pos r
    unfold OverlapOn at h1
    dsimp only
    constructor
    · exact le_max_right _ _
    · exact max_lt h1.1 (by linarith)

theorem linear_eq {ls : List (Quad d)} (h : Linear ls) {q r : Quad d} (hq : q ∈ ls) (hr : r ∈ ls)
    (ho : (Cells q ∩ Cells r).Nonempty) : q = r := by
  by_contra hne
  obtain ⟨i, hi, rfl⟩ := List.mem_iff_getElem.mp hq
  obtain ⟨j, hj, rfl⟩ := List.mem_iff_getElem.mp hr
  rcases Nat.lt_trichotomy i j with hij | rfl | hij
  · exact ho.ne_empty (List.pairwise_iff_getElem.mp h i j hi hj hij).2
  · exact hne rfl
  · rw [Set.inter_comm] at ho
    exact ho.ne_empty (List.pairwise_iff_getElem.mp h j i hj hi hij).2

/-- Every balanced tree that has no leaf around the seeds has none around the families reached. -/
theorem Need.minimal (hd : 0 < d) {dom : Quad d} (hdom : Valid dom) {bound k : ℕ}
    (hb : ∀ sid, sid < bound → (shiftSet d sid).card ≤ k)
    {S : Quad d → Prop} (hS : ∀ e, S e → FamHead dom e) {U : List (Quad d)} (hU : TreeComplete U)
    (hbal : Balanced k U) (hseed : ∀ e, S e → ∀ u ∈ U, ¬ Cells (parent e) ⊆ Cells u)
    {e : Quad d} (h : Need dom bound S e) : ∀ u ∈ U, ¬ Cells (parent e) ⊆ Cells u := by
  induction h with
  | seed h => exact hseed _ h
  | @step e sid h hl hs hin ih =>
    intro b hbU hsub
    have hf := h.fam hd hdom hS
    have hel := hf.valid.1
    obtain ⟨-, -, hpar⟩ := coarseNeighbor_inside hd hdom hf.valid (by omega) hin
    rw [hpar] at hsub
    have hPv := parent_valid hf.valid (by omega)
    have hPal := hPv.aligned
    have hbv := hU.valid b hbU
    have hPl : (parent e).level = e.level - 1 := rfl
    have hNal := bigNeighbor_aligned hf.valid.aligned (by omega) sid
    have hbl := ((cells_subset_iff hd hbv.aligned hNal).mp hsub).1
    have hNl : (bigNeighbor e sid).level = e.level - 2 := rfl
    have sP := side_pos (parent e)
    have sG := side_parent (p := parent e) (by omega) (by omega)
    have sN := side_bigNeighbor e sid
    -- the extreme cell of the parent
    obtain ⟨x, hx⟩ : ∃ x : Fin d → ℤ, ∀ i, x i = (parent e).c i +
        (if (childId (parent e)).testBit i then side (parent e) - 1 else 0) := ⟨_, fun i => rfl⟩
    have hxP : x ∈ Cells (parent e) := by
      intro i
      rw [hx]
      split <;> constructor <;> linarith
    obtain ⟨u, huU, hxu⟩ := hU.cover x (valid_cells_inTree hPv hxP)
    have huv := hU.valid u huU
    have huP : Cells u ⊆ Cells (parent e) := by
      rcases laminar huv.aligned hPal ⟨x, hxu, hxP⟩ with h1 | h1
      · exact absurd h1 (ih u huU)
      · exact h1
    have hul : e.level ≤ u.level := by
      have h1 := ((cells_subset_iff hd hPal huv.aligned).mp huP).1
      by_contra hc
      apply ih u huU
      have h2 : u = parent e := by
        rw [ancestor_unique huv.aligned hPal h1 (huP (corner_mem u)), show (parent e).level = u.level by omega,
          ancestor_self huv.aligned]
      rw [h2]
    have su := side_pos u
    have sb := side_pos b
    have extP : ∀ i, (parent e).c i ≤ u.c i ∧ u.c i + side u ≤ (parent e).c i + side (parent e) := by
      intro i
      have h1 := huP (corner_mem u) i
      have h2 := huP (show (fun j => u.c j + side u - 1) ∈ Cells u from
        fun j => ⟨by dsimp only; linarith, by dsimp only; linarith⟩) i
      exact ⟨h1.1, by linarith [h2.2]⟩
    have extN : ∀ i, b.c i ≤ (bigNeighbor e sid).c i ∧
        (bigNeighbor e sid).c i + side (parent (parent e)) ≤ b.c i + side b := by
      intro i
      have h0 := side_pos (bigNeighbor e sid)
      have h1 := hsub (corner_mem _) i
      have h2 := hsub (show (fun j => (bigNeighbor e sid).c j + side (bigNeighbor e sid) - 1) ∈ Cells (bigNeighbor e sid) from
        fun j => ⟨by dsimp only; linarith, by dsimp only; linarith⟩) i
      exact ⟨h1.1, by rw [← sN]; linarith [h2.2]⟩
    have hNc : ∀ i, (bigNeighbor e sid).c i = (parent (parent e)).c i + (if shiftAxis sid i then
      (if (childId (parent e)).testBit i then side (parent (parent e)) else - side (parent (parent e)))
      else 0) := fun i => coarseNeighbor_c hf.valid.aligned (by omega) sid i
    have main : ∀ i, OverlapOn u b i ∨ (MeetOn u b i ∧ shiftAxis sid i = true) := by
      intro i
      have h1 := extP i
      have h2 := extN i
      have h3 := hNc i
      have h4 := corner_in_parent hPal (by omega) i
      have h5 := hxu i
      rw [hx i] at h5
      unfold OverlapOn MeetOn
      by_cases hsh : shiftAxis sid i = true
      · rw [if_pos hsh] at h3
        by_cases hbit : (childId (parent e)).testBit i
        · rw [if_pos hbit] at h3 h4 h5
          rcases eq_or_lt_of_le h2.1 with h6 | h6
          · exact Or.inr ⟨Or.inl (by linarith), hsh⟩
          · exact Or.inl ⟨by linarith, by linarith⟩
        · rw [if_neg hbit] at h3 h4 h5
          rcases eq_or_lt_of_le h2.2 with h6 | h6
          · exact Or.inr ⟨Or.inr (by linarith), hsh⟩
          · exact Or.inl ⟨by linarith, by linarith⟩
      · rw [if_neg hsh] at h3
        left
        split at h4 <;> rename_i hbit <;> simp only [hbit] at h5 <;> constructor <;> grind
    classical
    by_cases hall : ∀ i, OverlapOn u b i
    · have := linear_eq hU.linear huU hbU (overlap_all hall)
      rw [this] at hul
      omega
    · push Not at hall
      obtain ⟨i, hi⟩ := hall
      have ht : Touch k u b := by
        refine ⟨Finset.univ.filter fun j => ¬ OverlapOn u b j, ?_, ?_, ?_, ?_⟩
        · exact Finset.card_pos.mpr ⟨i, by simp [hi]⟩
        · refine le_trans (Finset.card_le_card ?_) (hb sid hs)
          intro j hj
          rw [Finset.mem_filter] at hj
          exact mem_shiftSet.mpr ((main j).resolve_left hj.2).2
        · intro j hj
          rw [Finset.mem_filter] at hj
          exact ((main j).resolve_left hj.2).1
        · intro j hj
          by_contra hc
          exact hj (by simp [hc])
      have := hbal u huU b hbU ht
      omega

end P4est
