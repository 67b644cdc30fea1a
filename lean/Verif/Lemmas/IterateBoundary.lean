import Verif.Lemmas.IterateVolume
import Verif.Lemmas.GhostOwner
import Verif.Lemmas.Repartition
import Verif.Props.RangeBoundaries

/-! # Which faces of trees are searched -/

namespace P4est
open Spec

variable {d : ℕ}

/-! ### The faces of trees that the range of a rank touches -/

theorem subset_root {q : Quad d} (h : Valid q) : Cells q ⊆ Cells (root d) := by
  apply cells_subset root_valid.aligned h.aligned (Nat.zero_le _)
  intro i
  have := h.2.2 i
  change (0:ℤ) ≤ _ ∧ _ < 0 + 2 ^ 30
  omega

theorem tree_lt_of_pos {t u n : ℕ} {c : ℕ} (hc : c < n) (h : t * n ≤ u * n + c) : t ≤ u := by
  by_contra hn
  have : (u + 1) * n ≤ t * n := Nat.mul_le_mul_right _ (by omega)
  rw [Nat.add_one_mul] at this
  omega

/-- The ends of the range of a rank in its first and last tree. -/
theorem touch_ends (hd : d = 2 ∨ d = 3) {trees : List (List (Quad d))} {P : ℕ} {leaves : ℕ → List (ℕ × Quad d)}
    (h : Distributed trees P leaves) {p : ℕ} (hp : p < P) {rt : RankTrees (Quad d)} (hh : Holds trees.length (leaves p) rt)
    (hne : leaves p ≠ []) :
    ∃ lq up uq, (globalPartition leaves P trees.length)[p]? = some lq ∧ (globalPartition leaves P trees.length)[p + 1]? = some up ∧
      (if up.tree > rt.last.toNat then some none else (predecessor up.quad).map some) = some uq ∧
      ((∀ x, leaves p = [x] → x.2.level ≠ 29) → ∀ x ∈ leaves p, ∀ f < 2 * d, OnSide f x.2 (root d) →
        (treeTouch lq.quad uq rt.first.toNat rt.last.toNat x.1).testBit f = true) := by
  have hd0 : 0 < d := by omega
  obtain ⟨s, hs⟩ := h.segments hd0
  obtain ⟨b1, b2, b3⟩ := hh.nonempty hne
  have hD : 0 < 2 ^ d := by positivity
  obtain ⟨g, e1, u, k1, k2, k3⟩ := globalPartition_at hd0 hs p hp.le
  obtain ⟨g', e2, u', k1', k2', k3'⟩ := globalPartition_at hd0 hs (p + 1) hp
  have hdp := hs.dvd hd0 p hp.le
  have hdp1 := hs.dvd hd0 (p + 1) hp
  have hc := curve_lt_of_inTree k2
  have hc' := curve_lt_of_inTree k2'
  -- the leaves lie in the range
  have hin : ∀ x ∈ leaves p, ∀ b ∈ Cells x.2, s p ≤ x.1 * 2 ^ (d * 30) + curve b ∧ x.1 * 2 ^ (d * 30) + curve b < s (p + 1) := by
    intro x hx b hb
    exact (hs.mem_iff hd0 x.1 p hp (valid_cells_inTree (hs.leaf p hp x hx).2 hb)).mp ⟨x, hx, rfl, hb⟩
  obtain ⟨x0, hx0⟩ := List.exists_mem_of_ne_nil _ hne
  have hlt : s p < s (p + 1) := by have := hin x0 hx0 _ (corner_mem _); omega
  -- the first tree
  have hu : u = rt.first.toNat := by
    obtain ⟨y, hy, hyt, hyb⟩ := (hs.mem_iff hd0 u p hp k2).mpr (by omega)
    have h1 := (hh.bounds hy).1
    rw [hyt] at h1
    have hf := hh.first
    obtain ⟨z, L', hz⟩ := List.exists_cons_of_ne_nil hne
    rw [hz] at hf
    have hf' : rt.first = (z.1 : ℤ) := by rw [hf]; rfl
    have hzm : z ∈ leaves p := by rw [hz]; simp
    have h2 := hin z hzm _ (corner_mem _)
    have h3 := curve_lt_of_inTree (valid_inTree (hs.leaf p hp z hzm).2)
    have := tree_lt_of_pos (t := u) (u := z.1) h3 (by omega)
    omega
  -- the last tree
  obtain ⟨z, hzm, hzl⟩ : ∃ z ∈ leaves p, rt.last = (z.1 : ℤ) := by
    obtain ⟨z, hz⟩ : ∃ z, (leaves p).getLast? = some z := ⟨_, List.getLast?_eq_some_getLast hne⟩
    refine ⟨z, List.mem_of_getLast? hz, ?_⟩
    rw [hh.last, hz]
    rfl
  have hz2 := hin z hzm _ (corner_mem _)
  have hz3 := curve_lt_of_inTree (valid_inTree (hs.leaf p hp z hzm).2)
  have hu' : z.1 ≤ u' := tree_lt_of_pos (t := z.1) (u := u') hc' (by omega)
  have hlz : rt.last.toNat = z.1 := by omega
  have hdg : 2 ^ d ∣ curve g.c := (Nat.dvd_add_right (tree_dvd hd0 u)).mp (by rw [k3]; exact hdp)
  have hdg' : 2 ^ d ∣ curve g'.c := (Nat.dvd_add_right (tree_dvd hd0 u')).mp (by rw [k3']; exact hdp1)
  have hg : IsCell g.quad := cell_of_dvd k2 hdg
  have hg' : IsCell g'.quad := cell_of_dvd k2' hdg'
  have hst : start g.quad = curve g.c := rfl
  have hst' : start g'.quad = curve g'.c := rfl
  obtain ⟨uq, hq1, hq2, hq3⟩ : ∃ uq, (if g'.tree > rt.last.toNat then some none else (predecessor g'.quad).map some) = some uq ∧
      (∀ q, uq = some q → IsCell q ∧ rt.last.toNat * 2 ^ (d * 30) + stop q = s (p + 1)) ∧ True := by
    by_cases c : g'.tree > rt.last.toNat
    · exact ⟨none, if_pos c, by simp, trivial⟩
    · rw [if_neg c]
      have hu2 : u' = z.1 := by omega
      subst hu2
      obtain ⟨c1, c2⟩ := C12_predecessor hd0 (by omega) g'.quad hg'.1
      cases hpre : predecessor g'.quad with
      | none => exfalso; have := c2.mp hpre; omega
      | some w =>
        obtain ⟨w1, w2, w3, -⟩ := c1 w hpre
        refine ⟨some w, rfl, ?_, trivial⟩
        rintro q ⟨⟩
        refine ⟨⟨w1, w2.trans hg'.2⟩, ?_⟩
        rw [hlz]; omega
  refine ⟨g, g', uq, e1, e2, hq1, ?_⟩
  intro hone x hx f hf hon
  have hxb := hh.bounds hx
  have hxv := (hs.leaf p hp x hx).2
  unfold treeTouch
  obtain ⟨b, hb⟩ := layer_nonempty x.2 f
  have hbr := ((onSide_layer (subset_root hxv) hon).mp hb).1
  have hbt := layer_inTree hxv hb
  have hcell := cellOf_cell hbt
  have hpos := hin x hx b hb.1
  have h6 := (mem_iff_pos hcell.1.aligned hcell.1.int32 hbt.int32).mp (cellOf_mem b)
  have hus := cell_stop hcell
  have hud := cell_dvd hcell
  have hBd : 2 ^ d ∣ x.1 * 2 ^ (d * 30) := tree_dvd hd0 x.1
  have e3 := dvd_back hdp (Nat.dvd_add hBd hud) (by omega)
  have e4 := dvd_step (Nat.dvd_add hBd hud) hdp1 (by omega)
  have hlev : (root d).level = 0 := rfl
  rw [← hlev, C56_range_boundaries_partial hd (root d) root_valid _ _ ?_ ?_ ?_ f]
  · refine ⟨?_, cellOf b, hcell, subset_root hcell.1, ?_, ?_, (touches_layer root_valid root_valid.1 hcell (subset_root hcell.1) hf).mpr
      ⟨b, cellOf_mem b, hbr⟩⟩
    · unfold boundaryParts
      rcases hd with rfl | rfl
      · rw [if_neg (by norm_num)]; omega
      · rw [if_pos rfl]; omega
    · intro l hl
      split at hl
      · rename_i c
        cases hl
        rw [c, ← hu] at e3
        omega
      · cases hl
    · intro r hr
      split at hr
      · rename_i c
        obtain ⟨r1, r2⟩ := hq2 r hr
        have := cell_stop r1
        rw [c] at e4
        omega
      · cases hr
  · intro l hl
    split at hl
    · cases hl; exact ⟨hg, subset_root hg.1⟩
    · cases hl
  · intro r hr
    split at hr
    · exact ⟨(hq2 r hr).1, subset_root (hq2 r hr).1.1⟩
    · cases hr
  · intro l r hl hr
    right
    split at hl
    swap; · cases hl
    split at hr
    swap; · cases hr
    rename_i c1 c2
    cases hl
    obtain ⟨r1, r2⟩ := hq2 r hr
    have hr3 := cell_stop r1
    rw [← c2, c1, ← hu] at r2
    by_contra hn
    have := dvd_step hdp hdp1 hlt
    have hpath := hs.path p hp
    rw [show s (p + 1) = s p + 2 ^ d by omega] at hpath
    obtain ⟨y, hy1, hy2⟩ := single_leaf hd0 (fun y hy => (hs.leaf p hp y hy).2) hpath
    exact hone y hy1 hy2

/-! ### The other side of a face of a tree -/

/-- The other side of face `f` of tree `t`. -/
def faceMate (d : ℕ) (conn : FaceConn) (x : ℕ × ℕ) : ℕ × ℕ :=
  ((conn.treeToTree[2 * d * x.1 + x.2]?).getD 0, (conn.treeToFace[2 * d * x.1 + x.2]?).getD 0 % (2 * d))

/-- The later of the two sides. -/
def faceTop (d : ℕ) (conn : FaceConn) (x : ℕ × ℕ) : ℕ × ℕ :=
  if x.1 > (faceMate d conn x).1 ∨ (x.1 = (faceMate d conn x).1 ∧ x.2 ≥ (faceMate d conn x).2) then x else faceMate d conn x

theorem code_split {m nf o : ℕ} (h : nf < m) : (nf + m * o) % m = nf ∧ (nf + m * o) / m = o := by
  have hm : 0 < m := by omega
  rw [Nat.add_mul_mod_self_left, Nat.mod_eq_of_lt h, Nat.add_mul_div_left _ _ hm, Nat.div_eq_of_lt h]
  omega

/-- A face of a tree. -/
def IsFace (d : ℕ) (conn : FaceConn) (x : ℕ × ℕ) : Prop := x.1 < conn.numTrees ∧ x.2 < 2 * d

theorem mate_entries {conn : FaceConn} (hconn : FaceConsistent d conn) {x : ℕ × ℕ} (h : IsFace d conn x) :
    ∃ o, conn.treeToTree[2 * d * x.1 + x.2]? = some (faceMate d conn x).1 ∧
      conn.treeToFace[2 * d * x.1 + x.2]? = some ((faceMate d conn x).2 + 2 * d * o) ∧ IsFace d conn (faceMate d conn x) ∧
      o < 2 ^ (d - 1) := by
  obtain ⟨t', nf, o, e1, e2, h1, h2, h3⟩ := hconn.entries h.1 h.2
  have hm := (code_split (o := o) h2).1
  have he : faceMate d conn x = (t', nf) := by unfold faceMate; rw [e1, e2]; simp [hm]
  rw [he]
  exact ⟨o, e1, e2, ⟨h1, h2⟩, h3⟩

theorem mate_mate {conn : FaceConn} (hconn : FaceConsistent d conn) {x : ℕ × ℕ} (h : IsFace d conn x) :
    faceMate d conn (faceMate d conn x) = x := by
  obtain ⟨o, e1, e2, h1, h2⟩ := mate_entries hconn h
  obtain ⟨k1, k2⟩ := hconn.back x.1 x.2 _ _ o h.1 h.2 h1.2 e1 e2
  have : faceMate d conn (faceMate d conn x) = ((conn.treeToTree[2 * d * (faceMate d conn x).1 + (faceMate d conn x).2]?).getD 0,
    (conn.treeToFace[2 * d * (faceMate d conn x).1 + (faceMate d conn x).2]?).getD 0 % (2 * d)) := rfl
  rw [this, k1, k2]
  simp [Nat.mod_eq_of_lt h.2]

theorem top_or {conn : FaceConn} (x : ℕ × ℕ) : faceTop d conn x = x ∨ faceTop d conn x = faceMate d conn x := by
  unfold faceTop
  split
  · exact Or.inl rfl
  · exact Or.inr rfl

theorem top_mate {conn : FaceConn} (hconn : FaceConsistent d conn) {x : ℕ × ℕ} (h : IsFace d conn x) :
    faceTop d conn (faceMate d conn x) = faceTop d conn x := by
  unfold faceTop
  rw [mate_mate hconn h]
  split <;> rename_i c <;> split <;> rename_i c'
  · exact Prod.ext (by omega) (by omega)
  · rfl
  · rfl
  · exfalso; omega

theorem top_isFace {conn : FaceConn} (hconn : FaceConsistent d conn) {x : ℕ × ℕ} (h : IsFace d conn x) : IsFace d conn (faceTop d conn x) := by
  rcases top_or (d := d) (conn := conn) x with e | e
  · rw [e]; exact h
  · rw [e]
    obtain ⟨o, -, -, h1, -⟩ := mate_entries hconn h
    exact h1

theorem top_top {conn : FaceConn} (hconn : FaceConsistent d conn) {x : ℕ × ℕ} (h : IsFace d conn x) :
    faceTop d conn (faceTop d conn x) = faceTop d conn x := by
  rcases top_or (d := d) (conn := conn) x with e | e
  · rw [e, e]
  · rw [e, top_mate hconn h, e]

theorem top_ge {conn : FaceConn} (x : ℕ × ℕ) : x.1 ≤ (faceTop d conn x).1 := by
  unfold faceTop
  split
  · exact le_rfl
  · omega

theorem mate_le {conn : FaceConn} {x : ℕ × ℕ} (h : faceTop d conn x = x) :
    (faceMate d conn x).1 < x.1 ∨ ((faceMate d conn x).1 = x.1 ∧ (faceMate d conn x).2 ≤ x.2) := by
  unfold faceTop at h
  split at h
  · omega
  · rename_i c
    rw [h] at c
    omega

/-! ### The loop over the faces -/

theorem foldlM_acc {σ β : Type} (f : σ → β → Option σ) (I : σ → Prop) (R : σ → σ → Prop) (Q : β → σ → Prop) (hrefl : ∀ s, R s s)
    (htrans : ∀ a b c, R a b → R b c → R a c) (hmono : ∀ x a b, R a b → Q x a → Q x b) : ∀ (l : List β) (s : σ),
    (∀ x ∈ l, ∀ s, I s → ∃ s', f s x = some s' ∧ I s' ∧ R s s' ∧ Q x s') → I s →
    ∃ s', l.foldlM f s = some s' ∧ I s' ∧ R s s' ∧ ∀ x ∈ l, Q x s' := by
  intro l
  induction l with
  | nil => intro s _ hI; exact ⟨s, rfl, hI, hrefl s, by simp⟩
  | cons x l ih =>
    intro s h hI
    obtain ⟨s1, e1, i1, r1, q1⟩ := h x (by simp) s hI
    obtain ⟨s2, e2, i2, r2, q2⟩ := ih s1 (fun y hy => h y (by simp [hy])) i1
    refine ⟨s2, ?_, i2, htrans _ _ _ r1 r2, ?_⟩
    · rw [List.foldlM_cons, e1]; exact e2
    · intro y hy
      rcases List.mem_cons.mp hy with rfl | hy
      · exact hmono _ _ _ r2 q1
      · exact q2 y hy

/-- What holds during the loops. -/
structure BInv (d : ℕ) (conn : FaceConn) (first : ℕ) (s : RunState) : Prop where
  owned : ∀ x : ℕ × ℕ, s.owned x.1 x.2 = true → IsFace d conn x ∧ faceTop d conn x = x ∧ first ≤ x.1 ∧ (x.1 : ℤ) ≤ s.lastRun
  init : ∀ x : ℕ × ℕ, s.init x.1 x.2 = true → IsFace d conn x ∧ s.owned (faceTop d conn x).1 (faceTop d conn x).2 = true
  last : s.lastRun < conn.numTrees

theorem setFace_iff (m : ℕ → ℕ → Bool) (t f : ℕ) (x : ℕ × ℕ) : setFace m t f x.1 x.2 = true ↔ x = (t, f) ∨ m x.1 x.2 = true := by
  unfold setFace
  rw [Bool.or_eq_true, decide_eq_true_eq, Prod.ext_iff]

theorem boundaryFace_eq {conn : FaceConn} (hconn : FaceConsistent d conn) {t f touch : ℕ} {s : RunState} (h : IsFace d conn (t, f))
    (hc : (touch.testBit f && !s.init t f) = true) : boundaryFace d conn t touch s f =
      some ⟨setFace (setFace s.init t f) (faceMate d conn (t, f)).1 (faceMate d conn (t, f)).2,
        setFace s.owned (faceTop d conn (t, f)).1 (faceTop d conn (t, f)).2,
        if ((faceTop d conn (t, f)).1 : ℤ) > s.lastRun then (faceTop d conn (t, f)).1 else s.lastRun⟩ := by
  obtain ⟨o, e1, e2, h1, h2⟩ := mate_entries hconn h
  unfold boundaryFace
  rw [if_pos hc]
  dsimp only at e1 e2
  rw [e1, e2]
  simp only [Option.bind_eq_bind, Option.bind_some]
  rw [(code_split h1.2).1]
  unfold faceTop
  split <;> rfl

theorem boundaryFace_spec {conn : FaceConn} (hconn : FaceConsistent d conn) {t f touch first : ℕ} {s : RunState}
    (h : IsFace d conn (t, f)) (hf : first ≤ t) (hI : BInv d conn first s) :
    ∃ s', boundaryFace d conn t touch s f = some s' ∧ BInv d conn first s' ∧
      (∀ x : ℕ × ℕ, s.owned x.1 x.2 = true → s'.owned x.1 x.2 = true) ∧
      (touch.testBit f = true → s'.owned (faceTop d conn (t, f)).1 (faceTop d conn (t, f)).2 = true) := by
  have htf := top_isFace hconn h
  by_cases hc : (touch.testBit f && !s.init t f) = true
  · refine ⟨_, boundaryFace_eq hconn h hc, ⟨?_, ?_, ?_⟩, ?_, ?_⟩
    · intro x hx
      dsimp only at hx ⊢
      rw [setFace_iff] at hx
      rcases hx with rfl | hx
      · refine ⟨htf, top_top hconn h, ?_, ?_⟩
        · have := top_ge (d := d) (conn := conn) (t, f)
          dsimp only at this ⊢
          omega
        · dsimp only; split <;> omega
      · obtain ⟨k1, k2, k3, k4⟩ := hI.owned x hx
        refine ⟨k1, k2, k3, ?_⟩
        split <;> omega
    · intro x hx
      dsimp only at hx ⊢
      rw [setFace_iff, setFace_iff] at hx
      rw [setFace_iff]
      rcases hx with rfl | rfl | hx
      · obtain ⟨o, -, -, h1, -⟩ := mate_entries hconn h
        refine ⟨h1, Or.inl ?_⟩
        show faceTop d conn (faceMate d conn (t, f)) = _
        rw [top_mate hconn h]
      · exact ⟨h, Or.inl rfl⟩
      · obtain ⟨k1, k2⟩ := hI.init x hx
        exact ⟨k1, Or.inr k2⟩
    · have := hI.last
      have := htf.1
      dsimp only
      split <;> omega
    · intro x hx
      dsimp only
      rw [setFace_iff]
      exact Or.inr hx
    · intro _
      dsimp only
      rw [setFace_iff]
      exact Or.inl rfl
  · refine ⟨s, ?_, hI, fun _ hx => hx, fun ht => ?_⟩
    · unfold boundaryFace
      rw [if_neg hc]
    · have : s.init t f = true := by
        rw [ht] at hc
        simpa using hc
      exact (hI.init (t, f) this).2

/-- The faces of trees that are searched. -/
theorem iterBoundaries_spec {conn : FaceConn} (hconn : FaceConsistent d conn) {gfp : List (GPos d)}
    {rank first last : ℕ} (hl : last < conn.numTrees) {lq up : GPos d} {uq : Option (Quad d)} (e1 : gfp[rank]? = some lq)
    (e2 : gfp[rank + 1]? = some up)
    (e3 : (if up.tree > last then some none else (predecessor up.quad).map some) = some uq) :
    ∃ s, iterBoundaries conn gfp rank first last = some s ∧ BInv d conn first s ∧
      ∀ t, first ≤ t → t ≤ last → ∀ f < 2 * d, (treeTouch lq.quad uq first last t).testBit f = true →
        s.owned (faceTop d conn (t, f)).1 (faceTop d conn (t, f)).2 = true := by
  have heq : iterBoundaries conn gfp rank first last = (List.range' first (last + 1 - first)).foldlM
      (fun s t => (List.range (2 * d)).foldlM (boundaryFace d conn t (treeTouch lq.quad uq first last t)) s)
      ⟨fun _ _ => false, fun _ _ => false, -1⟩ := by
    unfold iterBoundaries
    rw [e1, e2]
    simp only [Option.bind_eq_bind, Option.bind_some]
    split at e3 <;> rename_i c
    · rw [if_pos c]
      cases e3
      rfl
    · rw [if_neg c, e3]
      rfl
  rw [heq]
  have h0 : BInv d conn first ⟨fun _ _ => false, fun _ _ => false, -1⟩ := by
    refine ⟨fun x h => by simp at h, fun x h => by simp at h, ?_⟩
    show (-1:ℤ) < _
    omega
  have hstep : ∀ t ∈ List.range' first (last + 1 - first), ∀ s, BInv d conn first s →
      ∃ s', (List.range (2 * d)).foldlM (boundaryFace d conn t (treeTouch lq.quad uq first last t)) s = some s' ∧ BInv d conn first s' ∧
        (∀ x : ℕ × ℕ, s.owned x.1 x.2 = true → s'.owned x.1 x.2 = true) ∧
        ∀ f < 2 * d, (treeTouch lq.quad uq first last t).testBit f = true →
          s'.owned (faceTop d conn (t, f)).1 (faceTop d conn (t, f)).2 = true := by
    intro t ht s hI
    rw [List.mem_range'_1] at ht
    obtain ⟨s', k1, k2, k3, k4⟩ := foldlM_acc (boundaryFace d conn t (treeTouch lq.quad uq first last t)) (BInv d conn first)
      (fun s s' => ∀ x : ℕ × ℕ, s.owned x.1 x.2 = true → s'.owned x.1 x.2 = true)
      (fun f s => (treeTouch lq.quad uq first last t).testBit f = true →
        s.owned (faceTop d conn (t, f)).1 (faceTop d conn (t, f)).2 = true)
      (fun _ _ h => h) (fun _ _ _ h1 h2 x hx => h2 x (h1 x hx)) (fun _ _ _ h1 h2 ht => h1 _ (h2 ht))
      (List.range (2 * d)) s
      (fun f hf s hI => boundaryFace_spec hconn ⟨by dsimp only; omega, List.mem_range.mp hf⟩ ht.1 hI) hI
    exact ⟨s', k1, k2, k3, fun f hf => k4 f (List.mem_range.mpr hf)⟩
  obtain ⟨s, k1, k2, -, k4⟩ := foldlM_acc
    (fun s t => (List.range (2 * d)).foldlM (boundaryFace d conn t (treeTouch lq.quad uq first last t)) s) (BInv d conn first)
    (fun s s' => ∀ x : ℕ × ℕ, s.owned x.1 x.2 = true → s'.owned x.1 x.2 = true)
    (fun t s => ∀ f < 2 * d, (treeTouch lq.quad uq first last t).testBit f = true →
        s.owned (faceTop d conn (t, f)).1 (faceTop d conn (t, f)).2 = true)
    (fun _ _ h => h) (fun _ _ _ h1 h2 x hx => h2 x (h1 x hx)) (fun _ _ _ h1 h2 f hf ht => h1 _ (h2 f hf ht))
    (List.range' first (last + 1 - first)) ⟨fun _ _ => false, fun _ _ => false, -1⟩ hstep h0
  refine ⟨s, k1, k2, fun t h1 h2 => k4 t ?_⟩
  rw [List.mem_range'_1]
  omega

end P4est
