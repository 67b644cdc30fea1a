import Verif.Lemmas.OverlapFold
import Verif.Props.BalanceBorder

/-! # C93: the seeds between a quadrant and the leaves around it -/

namespace P4est
open Spec

variable {d : ℕ} {k : ℕ} {ι : Type}

theorem insulOff_exists (hdim : d = 2 ∨ d = 3) {o : Fin d → ℤ} (ho : ∀ i, o i = -1 ∨ o i = 0 ∨ o i = 1) :
    ∃ w < 3 ^ d, ∀ i, insulOff d w i = o i := by
  have hg : ∃ g : Fin d → Fin 3, ∀ i, ((g i : ℕ) : ℤ) - 1 = o i := by
    refine ⟨fun i => if o i = -1 then 0 else if o i = 0 then 1 else 2, fun i => ?_⟩
    dsimp only
    rcases ho i with h | h | h <;> simp only [h] <;> decide
  obtain ⟨g, hg⟩ := hg
  rcases hdim with rfl | rfl
  · have : ∀ g : Fin 2 → Fin 3, ∃ w < 9, ∀ i, insulOff 2 w i = ((g i : ℕ) : ℤ) - 1 := by decide +kernel
    obtain ⟨w, h1, h2⟩ := this g
    exact ⟨w, h1, fun i => (h2 i).trans (hg i)⟩
  · have : ∀ g : Fin 3 → Fin 3, ∃ w < 27, ∀ i, insulOff 3 w i = ((g i : ℕ) : ℤ) - 1 := by decide +kernel
    obtain ⟨w, h1, h2⟩ := this g
    exact ⟨w, h1, fun i => (h2 i).trans (hg i)⟩

theorem insulQuad_middle (hdim : d = 2 ∨ d = 3) (q : Quad d) : insulQuad q (3 ^ d / 2) = q := by
  have : ∀ i, insulOff d (3 ^ d / 2) i = 0 := by
    rcases hdim with rfl | rfl <;> decide +kernel
  refine Quad.ext' (fun i => ?_) rfl
  rw [insulQuad_c, this]
  ring

theorem touching_symm {a b : Quad d} (h : Touching a b) : Touching b a := fun i => ⟨(h i).2, (h i).1⟩

theorem touching_mono {a b c : Quad d} (hd : 0 < d) (ha : Aligned a) (hc : Aligned c) (h : Touching a b)
    (hs : Cells a ⊆ Cells c) : Touching c b := by
  intro i
  have h1 := h i
  have h2 : ∀ i, c.c i ≤ a.c i ∧ a.c i + side a ≤ c.c i + side c := by
    rw [show Cells c = BoxOf c.c (fun i => c.c i + side c) from rfl, cells_sub_box] at hs
    exact hs
  have := h2 i
  omega

/-- A larger quadrant touches exactly if it contains a quadrant of the insulation layer. -/
theorem touching_layer (hdim : d = 2 ∨ d = 3) {q x : Quad d} (hq : Aligned q) (hx : Aligned x)
    (hlev : x.level ≤ q.level) (hdis : Cells x ∩ Cells q = ∅) :
    Touching q x ↔ ∃ w < 3 ^ d, w ≠ 3 ^ d / 2 ∧ Cells (insulQuad q w) ⊆ Cells x := by
  have hd : 0 < d := by omega
  constructor
  · intro h
    let o : Fin d → ℤ := fun i => if x.c i + side x ≤ q.c i then -1 else if q.c i < x.c i then 1 else 0
    have ho : ∀ i, o i = -1 ∨ o i = 0 ∨ o i = 1 := by
      intro i
      show (if _ then _ else _) = _ ∨ (if _ then _ else _) = _ ∨ (if _ then _ else _) = _
      split_ifs <;> simp
    obtain ⟨w, hw, ho'⟩ := insulOff_exists hdim ho
    have hsub : Cells (insulQuad q w) ⊆ Cells x := by
      refine cells_subset hx (insulQuad_aligned hq w) hlev fun i => ?_
      rw [insulQuad_c, ho']
      have h1 := h i
      have hdiv : side q ∣ side x := side_dvd_side hlev
      have hp : 0 < side q := side_pos q
      have hpx : 0 < side x := side_pos x
      have hqd := hq.2 i
      have hxd : side q ∣ x.c i := hdiv.trans (hx.2 i)
      have e : side q = qlen q.level := rfl
      rw [← e]
      show x.c i ≤ q.c i + (if x.c i + side x ≤ q.c i then -1 else if q.c i < x.c i then 1 else 0) * side q ∧
        q.c i + (if x.c i + side x ≤ q.c i then -1 else if q.c i < x.c i then 1 else 0) * side q < x.c i + side x
      obtain ⟨a, ha⟩ := hqd
      obtain ⟨b, hb⟩ := hxd
      obtain ⟨c, hc⟩ := hdiv
      have hc0 : 0 < c := by
        by_contra hc0
        have : side q * c ≤ 0 := mul_nonpos_of_nonneg_of_nonpos hp.le (by omega)
        omega
      rw [ha, hb, hc] at h1 ⊢
      have g1 : a ≤ b + c := by
        have : side q * a ≤ side q * (b + c) := by linarith [h1.1]
        exact le_of_mul_le_mul_left this hp
      have g2 : b ≤ a + 1 := by
        have : side q * b ≤ side q * (a + 1) := by linarith [h1.2]
        exact le_of_mul_le_mul_left this hp
      split_ifs with i1 i2
      · have g3 : b + c ≤ a := by
          have : side q * (b + c) ≤ side q * a := by linarith
          exact le_of_mul_le_mul_left this hp
        have : a = b + c := by omega
        subst this
        constructor
        · nlinarith
        · nlinarith
      · have g3 : a < b := lt_of_mul_lt_mul_left i2 hp.le
        have : b = a + 1 := by omega
        subst this
        constructor
        · nlinarith
        · nlinarith
      · constructor
        · linarith
        · linarith
    refine ⟨w, hw, ?_, hsub⟩
    rintro rfl
    rw [insulQuad_middle hdim] at hsub
    have : q.c ∈ Cells x ∩ Cells q := ⟨hsub (corner_mem q), corner_mem q⟩
    rw [hdis] at this
    exact this
  · rintro ⟨w, _, _, h⟩
    exact touching_symm (touching_mono hd (insulQuad_aligned hq w) hx (insulQuad_touching q w) h)

/-- A smaller quadrant that is not too far away is in the insulation layer. -/
theorem layer_of_outside (hdim : d = 2 ∨ d = 3) {q x : Quad d} (hq : Aligned q) (hx : Aligned x)
    (hlev : q.level ≤ x.level) (hdis : Cells x ∩ Cells q = ∅) (ho : ∀ i, outsideAt x q i ≠ none) :
    ∃ w < 3 ^ d, w ≠ 3 ^ d / 2 ∧ Cells x ⊆ Cells (insulQuad q w) := by
  have hval : ∀ i, ∃ o, outsideAt x q i = some o ∧ (o = -1 ∨ o = 0 ∨ o = 1) ∧
      q.c i + o * qlen q.level ≤ x.c i ∧ x.c i + qlen x.level ≤ q.c i + o * qlen q.level + qlen q.level := by
    intro i
    have h := ho i
    have hdiv : side x ∣ side q := side_dvd_side hlev
    have hp : 0 < side x := side_pos x
    have hpq : 0 < side q := side_pos q
    have hxd := hx.2 i
    have hqd : side x ∣ q.c i := hdiv.trans (hq.2 i)
    have e1 : side x = qlen x.level := rfl
    have e2 : side q = qlen q.level := rfl
    unfold outsideAt at h ⊢
    dsimp only at h ⊢
    obtain ⟨a, ha⟩ := hxd
    obtain ⟨b, hb⟩ := hqd
    obtain ⟨c, hc⟩ := hdiv
    rw [← e1, ← e2, ha, hb, hc] at h ⊢
    split_ifs at h ⊢ with i1 i2 i3 i4
    · simp at h
    · refine ⟨-1, rfl, by omega, by linarith, ?_⟩
      have g : a < b := lt_of_mul_lt_mul_left i1 hp.le
      have : side x * (a + 1) ≤ side x * b := mul_le_mul_of_nonneg_left (by omega) hp.le
      linarith
    · simp at h
    · refine ⟨1, rfl, by omega, ?_, by linarith⟩
      have g : side x * (b + c) < side x * (a + 1) := by linarith
      have g' : b + c < a + 1 := lt_of_mul_lt_mul_left g hp.le
      have : side x * (b + c) ≤ side x * a := mul_le_mul_of_nonneg_left (by omega) hp.le
      linarith
    · exact ⟨0, rfl, by omega, by linarith, by linarith⟩
  choose o h1 h2 h3 using hval
  obtain ⟨w, hw, ho'⟩ := insulOff_exists hdim h2
  have hsub : Cells x ⊆ Cells (insulQuad q w) := by
    refine cells_subset (insulQuad_aligned hq w) hx hlev fun i => ?_
    rw [insulQuad_c, ho']
    have := h3 i
    have hp : 0 < side x := side_pos x
    have e1 : side x = qlen x.level := rfl
    have e2 : side (insulQuad q w) = qlen q.level := rfl
    rw [e2]
    omega
  refine ⟨w, hw, ?_, hsub⟩
  rintro rfl
  rw [insulQuad_middle hdim] at hsub
  have : x.c ∈ Cells x ∩ Cells q := ⟨corner_mem x, hsub (corner_mem x)⟩
  rw [hdis] at this
  exact this

/-- Without seeds nothing is divided. -/
theorem not_divides_empty {p r : Quad d} (hp : Aligned p) (hp29 : p.level ≤ 29) (hr : Cells r ⊆ Cells p) {S : Set (Quad d)}
    (hS : ∀ s, s ∉ S) : ¬ Divides (Cells p) k S r := by
  intro h
  refine h {p} ⟨?_, ?_, ?_⟩ ?_ ?_ p rfl hr
  · rintro u rfl; exact ⟨hp, hp29⟩
  · rintro u rfl v rfl _; rfl
  · intro x; simp
  · rintro u rfl v rfl _; omega
  · intro s hs; exact absurd hs (hS s)

/-- What acts on the quadrant: the test of C90 for leaves that do not touch it. -/
theorem acts_iff (hdim : d = 2 ∨ d = 3) (hk1 : 1 ≤ k) (hkd : k ≤ d) {lo hi : Fin d → ℤ} (hw : WholeTrees lo hi)
    {q x : Quad d} (hq : Aligned q) (hq29 : q.level ≤ 29) (hqb : Cells q ⊆ BoxOf lo hi) (hx : Aligned x)
    (hx29 : x.level ≤ 29) (hxb : Cells x ⊆ BoxOf lo hi) (hdis : Cells x ∩ Cells q = ∅) (hnt : ¬ Touching x q)
    (hdv : Divides (BoxOf lo hi) k {x} q) :
    Acts k q x ∧ balanceSeeds x q k true = some (true, (seedsOutside x q k).2) ∧
      ∃ w < 3 ^ d, w ≠ 3 ^ d / 2 ∧ Cells x ⊆ Cells (insulQuad q w) := by
  have hd : 0 < d := by omega
  have hns : ¬ Cells x ⊆ Cells q := fun h => by
    have : x.c ∈ Cells x ∩ Cells q := ⟨corner_mem x, h (corner_mem x)⟩
    rw [hdis] at this
    exact this
  obtain ⟨⟨b, ss⟩, h⟩ := Option.ne_none_iff_exists'.mp
    fun hn => Bool.noConfusion ((C90_returns hx hq k true).mp hn).1
  have hb := (C90_test_partial hdim hk1 hkd hw hx hx29 hxb hq hq29 hqb (fun h => hns h.1) h).mpr hdv
  subst hb
  have h' := h
  rw [balanceSeeds_eq] at h
  simp only [if_true] at h
  split_ifs at h with c1 c2 c3
  · injection h with h; injection h with h _; exact absurd h (by simp)
  · injection h with h; injection h with h _; exact absurd h (by simp)
  · exfalso
    have hall : ∀ i, outsideAt x q i ≠ none := fun i hi => c2 ⟨i, hi⟩
    obtain ⟨w, w1, w2, w3⟩ := layer_of_outside hdim hq hx (by omega) hdis hall
    have hl : InLayer q x w := ⟨hq, hx, w1, w2, w3, by omega⟩
    rw [type_zero, hl.outs] at c3
    obtain ⟨i, hi⟩ := insulOff_middle hdim w1 w2
    exact hi (c3 i)
  · have h1 := Option.some.inj h
    have hf : (seedsOutside x q k).1 = true := congrArg Prod.fst h1
    have hall : ∀ i, outsideAt x q i ≠ none := fun i hi => c2 ⟨i, hi⟩
    refine ⟨⟨by omega, hnt, hf⟩, ?_, layer_of_outside hdim hq hx (by omega) hdis hall⟩
    rw [h', ← h1, hf]

/-- The seeds of a leaf in the layer. -/
theorem layer_seeds (hdim : d = 2 ∨ d = 3) {q x : Quad d} {w : ℕ} (h : InLayer q x w) (ha : Acts k q x) :
    balanceSeeds x q k true = some (true, (seedsOutside x q k).2) := by
  rw [balanceSeeds_eq, if_neg (by have := ha.1; omega), if_neg, if_neg, ha.2.2]
  · simp
  · rw [type_zero, h.outs]
    obtain ⟨i, hi⟩ := insulOff_middle hdim h.range h.middle
    exact fun hc => hi (hc i)
  · rintro ⟨i, hi⟩
    rw [h.outside i] at hi
    simp at hi

/-- A quadrant can be replaced by a smaller one. -/
theorem forces_finer (hd : 0 < d) {p u u' r : Quad d} (hp : Aligned p) (hp29 : p.level ≤ 29)
    (hu : Aligned u ∧ u.level ≤ 29 ∧ p.level < u.level ∧ Cells u ⊆ Cells p)
    (hu' : Aligned u' ∧ u'.level ≤ 29 ∧ p.level < u'.level ∧ Cells u' ⊆ Cells p)
    (hs : Cells u' ⊆ Cells u) (hr : Aligned r) (hr29 : r.level ≤ 29) (hrp : Cells r ⊆ Cells p) (h : Forces k u r) :
    Forces k u' r := by
  have h1 := (divides_inside (k := k) hd hp hp29 (S := {u}) (by rintro s rfl; exact hu) hr hr29 hrp).mpr ⟨u, rfl, h⟩
  have h2 : Divides (Cells p) k {u'} r := by
    intro U a1 a2 a3
    refine h1 U a1 a2 ?_
    rintro s rfl v hv hc
    exact a3 u' rfl v hv (lt_of_le_of_lt hs hc)
  obtain ⟨s, rfl, h3⟩ := (divides_inside (k := k) hd hp hp29 (S := {u'}) (by rintro s rfl; exact hu') hr hr29 hrp).mp h2
  exact h3

/-- **C93.** For a quadrant `q` from elsewhere, `p4est_tree_compute_overlap` finds seeds for both sides of
the border.  The seeds in a leaf replace `q` in that leaf exactly if `q` touches it; the seeds in `q` replace the
leaves that do not touch `q`.  (Leaves that do touch `q` are left to the process that owns `q`, which gets them in the
same way.)  No access is out of range.  Not covered, because `C91_edge_incomplete`: in 3D with edge
balance, leaves outside along two axes. -/
theorem C93_overlap_partial (hdim : d = 2 ∨ d = 3) (hk1 : 1 ≤ k) (hkd : k ≤ d) {lo hi : Fin d → ℤ} (hw : WholeTrees lo hi)
    {f l q : Quad d} {L : List (Quad d)} (hf : Valid f) (hl : Valid l) (hf29 : f.level = 29) (hl29 : l.level = 29)
    (hq : Aligned q) (hq29 : q.level ≤ 29) (hqb : Cells q ⊆ BoxOf lo hi) (hLb : ∀ x ∈ L, Cells x ⊆ BoxOf lo hi)
    (hL : LeavesFor f l q L) :
    ∃ st, overlapQuad k L f l q = some st ∧
      (∀ u ∈ st.inseeds, Aligned u ∧ 0 < u.level ∧ u.level ≤ q.level ∧ ∃ x ∈ L, Cells u ⊂ Cells x) ∧
      (∀ u ∈ st.seeds, Aligned u ∧ u.level ≤ 29 ∧ q.level < u.level ∧ Cells u ⊆ Cells q) ∧
      (∀ x ∈ L, ¬ (d = 3 ∧ k = 2 ∧ axesOutside q x = 2) → ∀ r, Aligned r → r.level ≤ 29 → Cells r ⊆ Cells x →
        (Divides (Cells x) k {u | u ∈ st.inseeds ∧ Cells u ⊂ Cells x} r ↔
          Touching q x ∧ Divides (BoxOf lo hi) k {q} r)) ∧
      (¬ (d = 3 ∧ k = 2) → ∀ r, Aligned r → r.level ≤ 29 → Cells r ⊆ Cells q →
        (Divides (Cells q) k {u | u ∈ st.seeds} r ↔
          ∃ x ∈ L, ¬ Touching x q ∧ Divides (BoxOf lo hi) k {x} r)) := by
  have hd : 0 < d := by omega
  have hva := fun x hx => (hL.valid x hx).aligned
  have hnq : ∀ x ∈ L, ¬ Cells q ⊆ Cells x := fun x hx h => by
    have : q.c ∈ Cells x ∩ Cells q := ⟨h (corner_mem q), corner_mem q⟩
    rw [hL.apart x hx] at this
    exact this
  have hnx : ∀ x ∈ L, ¬ Cells x ⊆ Cells q := fun x hx h => by
    have : x.c ∈ Cells x ∩ Cells q := ⟨corner_mem x, h (corner_mem x)⟩
    rw [hL.apart x hx] at this
    exact this
  have hret : ∀ x ∈ L, ∃ r, balanceSeeds q x k true = some r := fun x hx => Option.ne_none_iff_exists'.mp
    fun hn => Bool.noConfusion ((C90_returns hq (hva x hx) k true).mp hn).1
  obtain ⟨st, e, hC⟩ := collected_all hdim hk1 hkd hf hl hf29 hl29 hq hq29 hL hret
  have hin : ∀ u, u ∈ st.inseeds → ∃ j ∈ st.neigh, ∃ hj : j < L.length, ∃ ss,
      balanceSeeds q L[j] k true = some (true, ss) ∧ u ∈ ss ∧ Aligned u ∧ u.level ≤ q.level ∧ L[j].level < u.level ∧
      Cells u ⊆ Cells L[j] := by
    intro u hu
    obtain ⟨j, a, hj, ss, h1, h2⟩ := (hC.inseeds u).mp hu
    have hm := List.getElem_mem hj
    exact ⟨j, a, hj, ss, h1, h2, (C91_no_more hdim hk1 hkd hw hq hq29 hqb (hva _ hm) (hL.valid _ hm).1 (hLb _ hm) h1).1 u h2⟩
  have hsd : ∀ u ∈ st.seeds, ∃ x ∈ L, Acts k q x ∧ balanceSeeds x q k true = some (true, (seedsOutside x q k).2) ∧
      u ∈ (seedsOutside x q k).2 := by
    intro u hu
    obtain ⟨x, hx, w, hw', hm, hs, ha, hu'⟩ := hC.sound u hu
    exact ⟨x, hx, ha, layer_seeds hdim ⟨hq, hva x hx, List.mem_range.mp hw', hm, hs, by have := ha.1; omega⟩ ha, hu'⟩
  have hfine : ∀ x ∈ L, balanceSeeds x q k true = some (true, (seedsOutside x q k).2) → ∀ u ∈ (seedsOutside x q k).2,
      Aligned u ∧ u.level ≤ 29 ∧ q.level < u.level ∧ Cells u ⊆ Cells q := by
    intro x hx h1 u hu
    have hx29 := (hL.valid x hx).1
    obtain ⟨a1, a2, a3, a4⟩ := (C91_no_more hdim hk1 hkd hw (hva x hx) hx29 (hLb x hx) hq hq29 hqb h1).1 u hu
    exact ⟨a1, by omega, a3, a4⟩
  have hsf : ∀ u ∈ st.seeds, Aligned u ∧ u.level ≤ 29 ∧ q.level < u.level ∧ Cells u ⊆ Cells q := by
    intro u hu
    obtain ⟨x, hx, _, h1, h2⟩ := hsd u hu
    exact hfine x hx h1 u h2
  refine ⟨st, e, ?_, hsf, ?_, ?_⟩
  · intro u hu
    obtain ⟨j, _, hj, ss, _, _, a1, a2, a3, a4⟩ := hin u hu
    refine ⟨a1, by omega, a2, L[j], List.getElem_mem hj, a4, fun hc => ?_⟩
    have := ((cells_subset_iff hd a1 (hva _ (List.getElem_mem hj))).mp hc).1
    omega
  · intro x hx hedge r hr hr29 hrx
    have hxa := hva x hx
    have hx29 := (hL.valid x hx).1
    obtain ⟨j, hj, hjx⟩ := List.getElem_of_mem hx
    have hnei : j ∈ st.neigh ↔ x.level + 1 < q.level ∧ Touching q x := by
      rw [hC.neigh j]
      constructor
      · rintro ⟨_, h1, w, hw', hm, hs⟩
        rw [hjx] at h1 hs
        exact ⟨h1, (touching_layer hdim hq hxa (by omega) (hL.apart x hx)).mpr ⟨w, List.mem_range.mp hw', hm, hs⟩⟩
      · rintro ⟨h1, h2⟩
        obtain ⟨w, hw', hm, hs⟩ := (touching_layer hdim hq hxa (by omega) (hL.apart x hx)).mp h2
        exact ⟨hj, by rw [hjx]; exact h1, w, List.mem_range.mpr hw', hm, by rw [hjx]; exact hs⟩
    have hown : ∀ u, u ∈ st.inseeds → Cells u ⊆ Cells x → j ∈ st.neigh ∧ ∃ ss, balanceSeeds q x k true = some (true, ss) ∧ u ∈ ss := by
      intro u hu hs
      obtain ⟨j', a, hj', ss, h1, h2, _, _, _, a4⟩ := hin u hu
      have : L[j'] = x := linear_eq_of_meet hL.linear (List.getElem_mem hj') hx ⟨_, a4 (corner_mem u), hs (corner_mem u)⟩
      have hjj : j' = j := (List.Nodup.getElem_inj_iff (nodup_of_linear hL.linear)).mp (this.trans hjx.symm)
      subst hjj
      rw [this] at h1
      exact ⟨a, ss, h1, h2⟩
    obtain ⟨⟨b, ss⟩, hb⟩ := hret x hx
    have h90 := C90_test_partial hdim hk1 hkd hw hq hq29 hqb hxa hx29 (hLb x hx) (fun h => hnq x hx h.1) hb
    by_cases hcase : j ∈ st.neigh ∧ b = true
    · obtain ⟨hjn, hbt⟩ := hcase
      subst hbt
      have hset : {u | u ∈ st.inseeds ∧ Cells u ⊂ Cells x} = {u | u ∈ ss} := by
        ext u
        simp only [Set.mem_setOf_eq]
        constructor
        · rintro ⟨hu, hs⟩
          obtain ⟨_, ss', h1, h2⟩ := hown u hu hs.1
          rw [hb] at h1
          have := congrArg Prod.snd (Option.some.inj h1)
          simp only at this
          rw [this]; exact h2
        · intro hu
          have hin' : u ∈ st.inseeds := (hC.inseeds u).mpr ⟨j, hjn, hj, ss, by rw [hjx]; exact hb, hu⟩
          obtain ⟨a1, a2, a3, a4⟩ := (C91_no_more hdim hk1 hkd hw hq hq29 hqb hxa hx29 (hLb x hx) hb).1 u hu
          refine ⟨hin', a4, fun hc => ?_⟩
          have := ((cells_subset_iff hd a1 hxa).mp hc).1
          omega
      rw [hset, (C91_seeds_partial hdim hk1 hkd hw hq hq29 hqb hxa hx29 (hLb x hx) (fun h => hnq x hx h.1) hedge hb).2 r hr hr29 hrx]
      exact ⟨fun h => ⟨(hnei.mp hjn).2, h⟩, fun h => h.2⟩
    · have hno : ¬ Divides (Cells x) k {u | u ∈ st.inseeds ∧ Cells u ⊂ Cells x} r := by
        apply not_divides_empty hxa hx29 hrx
        rintro u ⟨hu, hs⟩
        obtain ⟨h1, ss', h2, _⟩ := hown u hu hs.1
        rw [hb] at h2
        exact hcase ⟨h1, congrArg Prod.fst (Option.some.inj h2)⟩
      refine ⟨fun h => absurd h hno, ?_⟩
      rintro ⟨h1, h2⟩
      have hbt := h90.mpr (divides_outer hrx h2)
      subst hbt
      exfalso
      refine hcase ⟨hnei.mpr ⟨?_, h1⟩, rfl⟩
      by_contra hlev
      rw [balanceSeeds_eq, if_pos (by omega)] at hb
      have := congrArg Prod.fst (Option.some.inj hb)
      simp at this
  · intro hedge r hr hr29 hrq
    rw [divides_inside hd hq hq29 (S := {u | u ∈ st.seeds}) hsf hr hr29 hrq]
    constructor
    · rintro ⟨u, hu, hfo⟩
      obtain ⟨x, hx, ha, h1, h2⟩ := hsd u hu
      refine ⟨x, hx, ha.2.1, ?_⟩
      refine (C91_no_more hdim hk1 hkd hw (hva x hx) (hL.valid x hx).1 (hLb x hx) hq hq29 hqb h1).2 r hr hr29 hrq ?_
      rw [divides_inside hd hq hq29 (S := {u | u ∈ (seedsOutside x q k).2}) (hfine x hx h1) hr hr29 hrq]
      exact ⟨u, h2, hfo⟩
    · rintro ⟨x, hx, hnt, hdv⟩
      obtain ⟨ha, h1, w, hw', hm, hs⟩ := acts_iff hdim hk1 hkd hw hq hq29 hqb (hva x hx) (hL.valid x hx).1 (hLb x hx)
        (hL.apart x hx) hnt (divides_outer hrq hdv)
      have h2 := ((C91_seeds_partial hdim hk1 hkd hw (hva x hx) (hL.valid x hx).1 (hLb x hx) hq hq29 hqb
        (fun h => hnx x hx h.1) (fun h => hedge ⟨h.1, h.2.1⟩) h1).2 r hr hr29 hrq).mpr hdv
      rw [divides_inside hd hq hq29 (S := {u | u ∈ (seedsOutside x q k).2}) (hfine x hx h1) hr hr29 hrq] at h2
      obtain ⟨u, hu, hfo⟩ := h2
      obtain ⟨u', hu', hsub⟩ := hC.complete x hx w (List.mem_range.mpr hw') hm hs ha u hu
      exact ⟨u', hu', forces_finer hd hq hq29 (hfine x hx h1 u hu) (hsf u' hu') hsub hr hr29 hrq hfo⟩

/-- The first sibling is inside the same larger quadrants. -/
theorem sibling_ssubset (hd : 0 < d) {s u : Quad d} (a1 : Aligned s) (a2 : 0 < s.level) (hu : Aligned u) :
    Cells (sibling s 0) ⊂ Cells u ↔ Cells s ⊂ Cells u := by
  have hp := parent_aligned a1 a2
  have h30 := a1.1
  have hl : (parent s).level < 30 := by rw [parent_level]; omega
  rw [sibling_eq a1 a2, inside_iff_parent hd (child_aligned hp hl 0) (by simp) hu, parent_child hp hl,
    inside_iff_parent hd a1 a2 hu]

/-- The lists for all quadrants are put together. -/
theorem computeOverlap_eq (trees : ℕ → List (Quad d) × Quad d × Quad d) (emit : OverlapIn d ι → Quad d → List (ℕ × Quad d))
    (ins : List (OverlapIn d ι)) {res : OverlapIn d ι → OverlapSt d}
    (h : ∀ x ∈ ins, overlapQuad k (trees x.tree).1 (trees x.tree).2.1 (trees x.tree).2.2 x.q = some (res x)) :
    computeOverlap k trees emit ins = some
      (ins.flatMap fun x => ((res x).seeds.flatMap fun u => if isInsideRoot x.q = true then [(x.tree, u)] else emit x u).map
          fun y => (y.1, sibling y.2 0),
       ins.flatMap fun x => (res x).inseeds.map fun u => (x.tree, sibling u 0)) := by
  unfold computeOverlap
  have hgen : ∀ (l : List (OverlapIn d ι)) (acc : List (ℕ × Quad d) × List (ℕ × Quad d)), (∀ x ∈ l, x ∈ ins) →
      l.foldlM (fun acc x => do
        let st ← overlapQuad k (trees x.tree).1 (trees x.tree).2.1 (trees x.tree).2.2 x.q
        let found := st.seeds.flatMap fun u => if isInsideRoot x.q = true then [(x.tree, u)] else emit x u
        some (acc.1 ++ found.map fun y => (y.1, sibling y.2 0),
          acc.2 ++ st.inseeds.map fun u => (x.tree, sibling u 0))) acc = some
      (acc.1 ++ l.flatMap fun x => ((res x).seeds.flatMap fun u => if isInsideRoot x.q = true then [(x.tree, u)] else emit x u).map
          fun y => (y.1, sibling y.2 0),
       acc.2 ++ l.flatMap fun x => (res x).inseeds.map fun u => (x.tree, sibling u 0)) := by
    intro l
    induction l with
    | nil => intro acc _; simp
    | cons x l ih =>
      intro acc hl
      rw [List.foldlM_cons]
      simp only [h x (hl x List.mem_cons_self), Option.bind_eq_bind, Option.bind_some]
      have := ih (acc.1 ++ ((res x).seeds.flatMap fun u => if isInsideRoot x.q = true then [(x.tree, u)] else emit x u).map
          (fun y => (y.1, sibling y.2 0)), acc.2 ++ (res x).inseeds.map fun u => (x.tree, sibling u 0))
          (fun y hy => hl y (List.mem_cons_of_mem _ hy))
      simp only [Option.bind_eq_bind] at this
      rw [this]
      simp only [List.flatMap_cons, List.append_assoc]
  simpa using hgen ins ([], []) (fun x hx => hx)

/-- **C93**, all quadrants.  The array `inseeds` replaces, in every leaf of every tree, the quadrants of the
input that touch the leaf.  The array `out` has, for each quadrant of the input, the first siblings of seeds that
replace the leaves that do not touch it; when the quadrant is from another tree they are transformed by `emit`.
The exception is as in `C93_overlap_partial`. -/
theorem C93_forest_partial (hdim : d = 2 ∨ d = 3) (hk1 : 1 ≤ k) (hkd : k ≤ d) {lo hi : Fin d → ℤ} (hw : WholeTrees lo hi)
    (trees : ℕ → List (Quad d) × Quad d × Quad d) (emit : OverlapIn d ι → Quad d → List (ℕ × Quad d))
    (ins : List (OverlapIn d ι)) (hedge : ¬ (d = 3 ∧ k = 2))
    (hin : ∀ x ∈ ins, Valid (trees x.tree).2.1 ∧ Valid (trees x.tree).2.2 ∧ (trees x.tree).2.1.level = 29 ∧
      (trees x.tree).2.2.level = 29 ∧ Aligned x.q ∧ x.q.level ≤ 29 ∧ Cells x.q ⊆ BoxOf lo hi ∧
      (∀ y ∈ (trees x.tree).1, Cells y ⊆ BoxOf lo hi) ∧
      LeavesFor (trees x.tree).2.1 (trees x.tree).2.2 x.q (trees x.tree).1) :
    ∃ out inn, computeOverlap k trees emit ins = some (out, inn) ∧
      (∀ z ∈ inn, Valid z.2 ∧ 0 < z.2.level ∧ childId z.2 = 0 ∧ ∃ y ∈ (trees z.1).1, Cells z.2 ⊂ Cells y) ∧
      (∀ t, ∀ y ∈ (trees t).1, ∀ r, Valid y → Aligned r → r.level ≤ 29 → Cells r ⊆ Cells y →
        (Divides (Cells y) k {b | (t, b) ∈ inn ∧ Cells b ⊂ Cells y} r ↔
          ∃ x ∈ ins, x.tree = t ∧ Touching x.q y ∧ Divides (BoxOf lo hi) k {x.q} r)) ∧
      ∃ seeds : OverlapIn d ι → List (Quad d),
        (∀ x ∈ ins, ∀ u ∈ seeds x, Aligned u ∧ u.level ≤ 29 ∧ x.q.level < u.level ∧ Cells u ⊆ Cells x.q) ∧
        (∀ z, z ∈ out ↔ ∃ x ∈ ins, ∃ u ∈ seeds x, if isInsideRoot x.q = true then z = (x.tree, sibling u 0)
          else ∃ y ∈ emit x u, z = (y.1, sibling y.2 0)) ∧
        ∀ x ∈ ins, ∀ r, Aligned r → r.level ≤ 29 → Cells r ⊆ Cells x.q →
          (Divides (Cells x.q) k {u | u ∈ seeds x} r ↔
            ∃ y ∈ (trees x.tree).1, ¬ Touching y x.q ∧ Divides (BoxOf lo hi) k {y} r) := by
  classical
  have hd : 0 < d := by omega
  have hall : ∀ x ∈ ins, ∃ st, overlapQuad k (trees x.tree).1 (trees x.tree).2.1 (trees x.tree).2.2 x.q = some st ∧
      (∀ u ∈ st.inseeds, Aligned u ∧ 0 < u.level ∧ u.level ≤ x.q.level ∧ ∃ y ∈ (trees x.tree).1, Cells u ⊂ Cells y) ∧
      (∀ u ∈ st.seeds, Aligned u ∧ u.level ≤ 29 ∧ x.q.level < u.level ∧ Cells u ⊆ Cells x.q) ∧
      (∀ y ∈ (trees x.tree).1, ∀ r, Aligned r → r.level ≤ 29 → Cells r ⊆ Cells y →
        (Divides (Cells y) k {u | u ∈ st.inseeds ∧ Cells u ⊂ Cells y} r ↔
          Touching x.q y ∧ Divides (BoxOf lo hi) k {x.q} r)) ∧
      (∀ r, Aligned r → r.level ≤ 29 → Cells r ⊆ Cells x.q →
        (Divides (Cells x.q) k {u | u ∈ st.seeds} r ↔
          ∃ y ∈ (trees x.tree).1, ¬ Touching y x.q ∧ Divides (BoxOf lo hi) k {y} r)) := by
    intro x hx
    obtain ⟨a1, a2, a3, a4, a5, a6, a7, a8, a9⟩ := hin x hx
    obtain ⟨st, b1, b2, b3, b4, b5⟩ := C93_overlap_partial hdim hk1 hkd hw a1 a2 a3 a4 a5 a6 a7 a8 a9
    exact ⟨st, b1, b2, b3, fun y hy => b4 y hy (fun h => hedge ⟨h.1, h.2.1⟩), b5 hedge⟩
  have : Inhabited (OverlapSt d) := ⟨⟨[], [], []⟩⟩
  choose! res hres using hall
  refine ⟨_, _, computeOverlap_eq trees emit ins (fun x hx => (hres x hx).1), ?_, ?_, fun x => (res x).seeds,
    fun x hx => (hres x hx).2.2.1, ?_, fun x hx => (hres x hx).2.2.2.2⟩
  · rintro ⟨t, b⟩ hz
    simp only [List.mem_flatMap, List.mem_map, Prod.mk.injEq] at hz
    obtain ⟨x, hx, u, hu, rfl, rfl⟩ := hz
    obtain ⟨a1, a2, a3, y, hy, hs⟩ := (hres x hx).2.1 u hu
    have hyv := (hin x hx).2.2.2.2.2.2.2.2.valid y hy
    have hs' := (sibling_ssubset hd a1 a2 hyv.aligned).mpr hs
    have hpl : (parent u).level < 30 := by have := a1.1; show u.level - 1 < 30; omega
    have hse := sibling_eq a1 a2 0
    have hua : Aligned (sibling u 0) := by
      rw [hse]
      exact child_aligned (parent_aligned a1 a2) hpl 0
    have hx29 := (hin x hx).2.2.2.2.2.1
    refine ⟨valid_subset hyv hua (by show u.level ≤ 29; omega) (hs'.1 (corner_mem _)), a2, ?_, y, hy, hs'⟩
    rw [hse]
    exact childId_child (parent_aligned a1 a2) hpl (by positivity)
  · intro t y hy r hyv hr hr29 hry
    -- the seeds before the first siblings are taken
    let S : Set (Quad d) := {u | ∃ x ∈ ins, x.tree = t ∧ u ∈ (res x).inseeds ∧ Cells u ⊂ Cells y}
    have hS : ∀ u ∈ S, Aligned u ∧ u.level ≤ 29 ∧ y.level < u.level ∧ Cells u ⊆ Cells y := by
      rintro u ⟨x, hx, ht, hu, hs⟩
      obtain ⟨h1, _, h3, _⟩ := (hres x hx).2.1 u hu
      have h4 := (hin x hx).2.2.2.2.2.1
      have huv : Valid u := valid_subset hyv h1 (by omega) (hs.1 (corner_mem u))
      exact ⟨h1, by omega, ((valid_ssubset_iff hd hyv huv).mp hs).1, hs.1⟩
    have hset : {b | (t, b) ∈ (ins.flatMap fun x => (res x).inseeds.map fun u => (x.tree, sibling u 0)) ∧ Cells b ⊂ Cells y} =
        {b | ∃ u ∈ S, b = sibling u 0} := by
      have hsib : ∀ x ∈ ins, ∀ u ∈ (res x).inseeds, (Cells (sibling u 0) ⊂ Cells y ↔ Cells u ⊂ Cells y) := by
        intro x hx u hu
        obtain ⟨a1, a2, _⟩ := (hres x hx).2.1 u hu
        exact sibling_ssubset hd a1 a2 hyv.aligned
      ext b
      simp only [Set.mem_setOf_eq, List.mem_flatMap, List.mem_map, Prod.mk.injEq]
      constructor
      · rintro ⟨⟨x, hx, u, hu, ht, rfl⟩, hs⟩
        exact ⟨u, ⟨x, hx, ht, hu, (hsib x hx u hu).mp hs⟩, rfl⟩
      · rintro ⟨u, ⟨x, hx, ht, hu, hs⟩, rfl⟩
        exact ⟨⟨x, hx, u, hu, ht, rfl⟩, (hsib x hx u hu).mpr hs⟩
    rw [hset, divides_siblings hd (fun u hu => ⟨(hS u hu).1, by have := (hS u hu).2.2.1; omega⟩),
      divides_inside hd hyv.aligned hyv.1 hS hr hr29 hry]
    have hone : ∀ x ∈ ins, x.tree = t → ((∃ s ∈ {u | u ∈ (res x).inseeds ∧ Cells u ⊂ Cells y}, Forces k s r) ↔
        Touching x.q y ∧ Divides (BoxOf lo hi) k {x.q} r) := by
      intro x hx ht
      rw [← (hres x hx).2.2.2.1 y (by rw [ht]; exact hy) r hr hr29 hry]
      rw [divides_inside hd hyv.aligned hyv.1 (S := {u | u ∈ (res x).inseeds ∧ Cells u ⊂ Cells y})
        (fun u hu => hS u ⟨x, hx, ht, hu.1, hu.2⟩) hr hr29 hry]
    constructor
    · rintro ⟨u, ⟨x, hx, ht, hu, hs⟩, hfo⟩
      exact ⟨x, hx, ht, (hone x hx ht).mp ⟨u, ⟨hu, hs⟩, hfo⟩⟩
    · rintro ⟨x, hx, ht, h1⟩
      obtain ⟨u, ⟨hu, hs⟩, hfo⟩ := (hone x hx ht).mpr h1
      exact ⟨u, ⟨x, hx, ht, hu, hs⟩, hfo⟩
  · intro z
    simp only [List.mem_flatMap, List.mem_map]
    constructor
    · rintro ⟨x, hx, y, ⟨u, hu, hy⟩, rfl⟩
      refine ⟨x, hx, u, hu, ?_⟩
      split_ifs at hy ⊢ with hc
      · rw [List.mem_singleton] at hy
        rw [hy]
      · exact ⟨y, hy, rfl⟩
    · rintro ⟨x, hx, u, hu, h⟩
      split_ifs at h with hc
      · exact ⟨x, hx, (x.tree, u), ⟨u, hu, by simp [hc]⟩, h.symm⟩
      · obtain ⟨y, hy, rfl⟩ := h
        exact ⟨x, hx, y, ⟨u, hu, by simpa [hc] using hy⟩, rfl⟩

/-- The leaves of the whole part of a tree are enough for every quadrant from elsewhere. -/
theorem leavesFor_of_tiles {f l q : Quad d} {L : List (Quad d)} (h : Tiles f l L) (hne : L ≠ [])
    (hq : Cells q ∩ Section f l = ∅) : LeavesFor f l q L where
  valid := h.valid
  linear := h.linear
  inside x hx := by
    rw [← h.cover]
    exact fun p hp => ⟨x, hx, hp⟩
  apart x hx := by
    rw [Set.eq_empty_iff_forall_notMem] at hq ⊢
    rintro p ⟨h1, h2⟩
    refine hq p ⟨h2, ?_⟩
    rw [← h.cover]
    exact ⟨x, hx, h1⟩
  some_ := hne
  found s hs _ _ _ hm := by
    obtain ⟨p, h1, h2⟩ := hm
    rw [← h.cover] at h2
    obtain ⟨x, hx, hp⟩ := h2
    exact ⟨x, hx, (laminar (h.valid x hx).aligned hs.aligned ⟨p, hp, h1⟩).symm⟩

/-- Beside C93: a tree that is divided towards a corner. -/
def cornerLeaves : List (Quad 2) :=
  let c (n : ℕ) : Quad 2 := (fun q => child q 1)^[n] (root 2)
  [child (c 0) 0, child (c 1) 0, child (c 2) 0, child (c 3) 0, child (c 4) 0, child (c 4) 1, child (c 4) 2,
    child (c 4) 3, child (c 3) 2, child (c 3) 3, child (c 2) 2, child (c 2) 3, child (c 1) 2, child (c 1) 3,
    child (c 0) 2, child (c 0) 3]

/-- A large and a small quadrant at the right of the tree. -/
def rightPair : Quad 2 × Quad 2 := (⟨![2 ^ 30, 0], 2⟩, ⟨![2 ^ 30, 2 ^ 29], 5⟩)

theorem cornerLeaves_tiles : Tiles (firstDesc (root 2) 29) (lastDesc (root 2) 29) cornerLeaves := by
  have h0 : start (firstDesc (root 2) 29) = 0 := by decide +kernel
  have h1 : stop (lastDesc (root 2) 29) = 2 ^ (2 * 30) := by decide +kernel
  rw [root_ends (by decide) h0 h1]
  have hv : ∀ q ∈ cornerLeaves, Valid q := by
    intro q hq
    rw [← isValid_iff]
    revert q
    decide +kernel
  apply treeComplete_of_path hv
  simp only [cornerLeaves, Path]
  decide +kernel

/-- The hypotheses of C93 hold for both quadrants.  A leaf that does not touch the large one
divides it, and the small one divides leaves that it touches. -/
example : Valid (firstDesc (root 2) 29) ∧ Valid (lastDesc (root 2) 29) ∧
    WholeTrees (d := 2) (fun _ => 0) (fun _ => 2 ^ 31) ∧ (∀ x ∈ cornerLeaves, Cells x ⊆ BoxOf (fun _ => 0) (fun _ => 2 ^ 31)) ∧
    (∀ q ∈ [rightPair.1, rightPair.2], Aligned q ∧ q.level ≤ 29 ∧ Cells q ⊆ BoxOf (fun _ => 0) (fun _ => 2 ^ 31) ∧
      LeavesFor (firstDesc (root 2) 29) (lastDesc (root 2) 29) q cornerLeaves) ∧
    (∃ x ∈ cornerLeaves, ¬ Touching x rightPair.1 ∧ (balanceSeeds x rightPair.1 2 true).map (·.1) = some true) ∧
    (∃ x ∈ cornerLeaves, Touching rightPair.2 x ∧ (balanceSeeds rightPair.2 x 2 true).map (·.1) = some true) := by
  refine ⟨by rw [← isValid_iff]; decide +kernel, by rw [← isValid_iff]; decide +kernel, ?_, ?_, ?_, ?_, ?_⟩
  · intro i; constructor <;> norm_num
  · have h : ∀ x ∈ cornerLeaves, ∀ i, 0 ≤ x.c i ∧ x.c i + qlen x.level ≤ 2 ^ 31 := by decide +kernel
    intro x hx
    rw [cells_sub_box]
    exact h x hx
  · have h : ∀ q ∈ [rightPair.1, rightPair.2], isExtended q = true ∧ (∀ i, 0 ≤ q.c i ∧ q.c i + qlen q.level ≤ 2 ^ 31) ∧
        (stop q ≤ start (firstDesc (root 2) 29) ∨ stop (lastDesc (root 2) 29) ≤ start q) := by decide +kernel
    intro q hq
    obtain ⟨h1, h2, h3⟩ := h q hq
    rw [isExtended_iff] at h1
    refine ⟨h1.2.1, h1.1, by rw [cells_sub_box]; exact h2, leavesFor_of_tiles cornerLeaves_tiles (by decide +kernel) ?_⟩
    exact off_border h1 h3
  · unfold Touching side
    decide +kernel
  · unfold Touching side
    decide +kernel

end P4est
