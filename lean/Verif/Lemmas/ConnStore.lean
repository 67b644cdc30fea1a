import Verif.Model.ConnJoin
import Verif.Spec.ConnJoin
import Verif.Props.ConnCorners

/-! # Lemmas: corners are stored -/

namespace P4est

open Spec

theorem pairLe_total (x y : ℕ × ℕ) : pairLe x y ∨ pairLe y x := by unfold pairLe; omega

theorem pairLe_trans {x y z : ℕ × ℕ} (h : pairLe x y) (h' : pairLe y z) : pairLe x z := by unfold pairLe at *; omega

theorem pairLe_antisymm {x y : ℕ × ℕ} (h : pairLe x y) (h' : pairLe y x) : x = y := by
  unfold pairLe at *
  exact Prod.ext (by omega) (by omega)

theorem mem_insertPair {x y : ℕ × ℕ} : ∀ {l : List (ℕ × ℕ)}, y ∈ insertPair x l ↔ y = x ∨ y ∈ l := by
  intro l
  induction l with
  | nil => simp [insertPair]
  | cons z l ih =>
    unfold insertPair
    split
    · simp
    · rw [List.mem_cons, ih, List.mem_cons]; tauto

theorem mem_sortPairs {y : ℕ × ℕ} : ∀ {l : List (ℕ × ℕ)}, y ∈ sortPairs l ↔ y ∈ l := by
  intro l
  induction l with
  | nil => simp [sortPairs]
  | cons z l ih =>
    have : sortPairs (z :: l) = insertPair z (sortPairs l) := rfl
    rw [this, mem_insertPair, ih, List.mem_cons]

theorem insertPair_sorted (x : ℕ × ℕ) : ∀ {l : List (ℕ × ℕ)}, l.Pairwise pairLe → (insertPair x l).Pairwise pairLe := by
  intro l
  induction l with
  | nil => intro _; simp [insertPair]
  | cons z l ih =>
    intro h
    rw [List.pairwise_cons] at h
    unfold insertPair
    split
    · rename_i hx
      rw [List.pairwise_cons, List.pairwise_cons]
      refine ⟨fun y hy => ?_, h⟩
      rcases List.mem_cons.mp hy with rfl | hy
      · exact hx
      · exact pairLe_trans hx (h.1 y hy)
    · rename_i hx
      rw [List.pairwise_cons]
      refine ⟨fun y hy => ?_, ih h.2⟩
      rcases mem_insertPair.mp hy with rfl | hy
      · exact (pairLe_total z y).resolve_right hx
      · exact h.1 y hy

theorem sortPairs_sorted : ∀ (l : List (ℕ × ℕ)), (sortPairs l).Pairwise pairLe := by
  intro l
  induction l with
  | nil => simp [sortPairs]
  | cons z l ih => exact insertPair_sorted z ih

theorem mem_uniqPairs {y : ℕ × ℕ} : ∀ {l : List (ℕ × ℕ)}, y ∈ uniqPairs l ↔ y ∈ l := by
  intro l
  induction l with
  | nil => simp [uniqPairs]
  | cons z l ih =>
    cases l with
    | nil => simp [uniqPairs]
    | cons w l =>
      unfold uniqPairs
      split
      · rename_i h
        subst h
        rw [ih]; simp
      · rw [List.mem_cons, ih, List.mem_cons (b := z)]

theorem uniqPairs_nodup : ∀ {l : List (ℕ × ℕ)}, l.Pairwise pairLe → (uniqPairs l).Nodup := by
  intro l
  induction l with
  | nil => intro _; simp [uniqPairs]
  | cons z l ih =>
    intro h
    cases l with
    | nil => simp [uniqPairs]
    | cons w l =>
      rw [List.pairwise_cons] at h
      unfold uniqPairs
      split
      · exact ih h.2
      · rename_i hne
        rw [List.nodup_cons]
        refine ⟨fun hz => ?_, ih h.2⟩
        rw [mem_uniqPairs] at hz
        rcases List.mem_cons.mp hz with e | hz
        · exact hne e
        · exact hne (pairLe_antisymm (h.1 w (by simp)) ((List.pairwise_cons.mp h.2).1 z hz))

theorem setCorners_spec (k : ℕ) : ∀ (l : List (ℕ × ℕ)) (ttc : List ℤ), (∀ x ∈ l, x.2 < 4 ∧ 4 * x.1 + x.2 < ttc.length) →
    ∃ r, setCorners k ttc l = some r ∧ r.length = ttc.length ∧
    ∀ x : ℕ × ℕ, x.2 < 4 → r[4 * x.1 + x.2]? = if x ∈ l then some (k : ℤ) else ttc[4 * x.1 + x.2]? := by
  intro l
  induction l with
  | nil => intro ttc _; exact ⟨ttc, rfl, rfl, fun x _ => by simp⟩
  | cons y l ih =>
    intro ttc h
    obtain ⟨hy, hyl⟩ := h y (by simp)
    obtain ⟨r, h0, h1, h2⟩ := ih (ttc.set (4 * y.1 + y.2) k) (by
      intro x hx
      rw [List.length_set]
      exact h x (by simp [hx]))
    refine ⟨r, ?_, by rw [h1, List.length_set], fun x hx => ?_⟩
    · unfold setCorners at h0 ⊢
      rw [List.foldlM_cons, if_pos hyl]
      exact h0
    · rw [h2 x hx]
      by_cases hxl : x ∈ l
      · simp [hxl]
      · rw [if_neg hxl]
        by_cases hxy : x = y
        · subst hxy
          rw [List.getElem?_set_self hyl]; simp
        · rw [List.getElem?_set_ne (fun k => hxy (idx_inj hx hy k.symm)), if_neg (by simp [hxl, hxy])]

/-- Corner `y` is met from corner `x` across a connected face. -/
abbrev Crosses (conn : FaceConn) (x y : ℕ × ℕ) : Prop := AcrossFace conn x.1 x.2 y

/-- A corner of a tree. -/
def TreeCorner (n : ℕ) (x : ℕ × ℕ) : Prop := x.1 < n ∧ x.2 < 4

theorem neighborCorner_back : ∀ (c : Fin 4) (i : Fin 2) (nf : Fin 4) (o : Fin 2), ∀ x ∈ faceNeighborCorner 2 c (faceOf c i) nf o, x < 4 ∧
    ∃ j : Fin 2, faceOf x j = nf.1 ∧ faceNeighborCorner 2 x (faceOf x j) (faceOf c i) o = some c.1 := by decide +kernel

section
variable {conn : FaceConn}

theorem crosses_corner (hc : FaceConsistent 2 conn) {x y : ℕ × ℕ} (hx : TreeCorner conn.numTrees x) (h : Crosses conn x y) :
    TreeCorner conn.numTrees y := by
  obtain ⟨i, nf, o, hnf, ho, k1, k2, -, h1⟩ := h
  exact ⟨(hc.range x.1 _ y.1 _ hx.1 (faceOf_lt x.2 i) k1 k2).1, (neighborCorner_lt ⟨x.2, hx.2⟩ i ⟨nf, hnf⟩ ⟨o, ho⟩ y.2 h1).1⟩

theorem crosses_symm (hc : FaceConsistent 2 conn) {x y : ℕ × ℕ} (hx : TreeCorner conn.numTrees x) (h : Crosses conn x y) :
    Crosses conn y x := by
  obtain ⟨i, nf, o, hnf, ho, k1, k2, hne, h1⟩ := h
  obtain ⟨-, j, h2, h3⟩ := neighborCorner_back ⟨x.2, hx.2⟩ i ⟨nf, hnf⟩ ⟨o, ho⟩ y.2 h1
  simp only at h2 h3
  obtain ⟨g1, g2⟩ := hc.back x.1 (faceOf x.2 i) y.1 nf o hx.1 (faceOf_lt x.2 i) hnf k1 k2
  refine ⟨j, faceOf x.2 i, o, faceOf_lt x.2 i, ho, by rw [h2]; exact g1, by rw [h2]; exact g2, ?_, h3⟩
  rw [h2]
  rcases hne with g | g
  · exact Or.inl fun e => g e.symm
  · exact Or.inr fun e => g e.symm

theorem storeAcross_spec (hc : FaceConsistent 2 conn) {x : ℕ × ℕ} (hx : TreeCorner conn.numTrees x) :
    ∃ l0 l1, storeAcross conn x.1 x.2 0 = some l0 ∧ storeAcross conn x.1 x.2 1 = some l1 ∧
      ∀ y, y ∈ x :: (l0 ++ l1) ↔ y = x ∨ Crosses conn x y := by
  have step : ∀ i : Fin 2, ∃ l, storeAcross conn x.1 x.2 i = some l ∧ ∀ y : ℕ × ℕ, y ∈ l ↔ ∃ nf o, nf < 4 ∧ o < 2 ∧
      conn.treeToTree[4 * x.1 + faceOf x.2 i]? = some y.1 ∧ conn.treeToFace[4 * x.1 + faceOf x.2 i]? = some (nf + 4 * o) ∧
      (y.1 ≠ x.1 ∨ nf ≠ faceOf x.2 i) ∧ faceNeighborCorner 2 x.2 (faceOf x.2 i) nf o = some y.2 := by
    intro i
    have hf := faceOf_lt x.2 i
    obtain ⟨t', nf, o, e1, e2, -, hnf, ho⟩ := hc.entries hx.1 hf
    have hnf : nf < 4 := hnf
    have ho : o < 2 := ho
    rw [show 2 * 2 = 4 from rfl] at e1 e2
    obtain ⟨nc, h1, -⟩ := corner_across hx.2 i hnf ho
    unfold storeAcross
    rw [entry_faceOf hx.2]
    simp only [Option.bind_eq_bind, Option.bind_some, e1, e2, show (nf + 4 * o) % 4 = nf by omega, show (nf + 4 * o) / 4 = o by omega, h1]
    split
    · rename_i hb
      refine ⟨[], rfl, fun y => ⟨by simp, ?_⟩⟩
      rintro ⟨nf', o', g1, g2, g3, g4, g5, -⟩
      simp only [Option.some.injEq] at g3 g4
      exfalso
      rcases g5 with g5 | g5
      · exact g5 (g3.symm.trans hb.1)
      · exact g5 (by omega)
    · rename_i hb
      refine ⟨_, rfl, fun y => ?_⟩
      rw [List.mem_singleton]
      constructor
      · rintro rfl
        refine ⟨nf, o, hnf, ho, rfl, rfl, ?_, h1⟩
        by_contra hcon
        simp only [not_or, not_not] at hcon
        exact hb hcon
      · rintro ⟨nf', o', g1, g2, g3, g4, g5, g6⟩
        simp only [Option.some.injEq] at g3 g4
        obtain rfl : nf' = nf := by omega
        obtain rfl : o' = o := by omega
        rw [h1, Option.some.injEq] at g6
        exact Prod.ext g3.symm g6.symm
  obtain ⟨l0, a1, a2⟩ := step 0
  obtain ⟨l1, b1, b2⟩ := step 1
  refine ⟨l0, l1, a1, b1, fun y => ?_⟩
  rw [List.mem_cons, List.mem_append, a2, b2]
  refine or_congr Iff.rfl ?_
  constructor
  · rintro (h | h)
    · exact ⟨0, h⟩
    · exact ⟨1, h⟩
  · rintro ⟨i, h⟩
    fin_cases i
    · exact Or.inl h
    · exact Or.inr h

end

/-- The entry of a corner of a tree is the number `k` of a corner. -/
def HasNumber (cc : CornerConn) (x : ℕ × ℕ) (k : ℕ) : Prop := k < cc.numCorners ∧ cc.treeToCorner[4 * x.1 + x.2]? = some (k : ℤ)

theorem HasNumber.unique {cc : CornerConn} {x : ℕ × ℕ} {k k' : ℕ} (h : HasNumber cc x k) (h' : HasNumber cc x k') : k = k' := by
  have := h.2.symm.trans h'.2
  simp only [Option.some.injEq] at this
  omega

theorem HasNumber.listed {n : ℕ} {cc : CornerConn} (hcc : CornerConsistent n cc) {x : ℕ × ℕ} (hx : TreeCorner n x) {k : ℕ} (h : HasNumber cc x k) :
    Listed cc k x.1 x.2 := by
  rcases hcc.range (by have := h.1; omega) x.1 x.2 _ hx.1 hx.2 h.2 with h3 | ⟨k', h3, -, h4⟩
  · omega
  · obtain rfl : k = k' := by omega
    exact h4

theorem HasNumber.of_listed {n : ℕ} {cc : CornerConn} (hcc : CornerConsistent n cc) {x y : ℕ × ℕ} (hx : TreeCorner n x) {k : ℕ} (h : HasNumber cc x k)
    (hl : Listed cc k y.1 y.2) : HasNumber cc y k := ⟨h.1, hcc.back _ _ k _ _ hx.1 hx.2 h.1 h.2 hl⟩

open Classical in
theorem storeCorner_spec {conn : FaceConn} {cc : CornerConn} (hc : FaceConsistent 2 conn) (hcc : CornerConsistent conn.numTrees cc)
    (ht : CornerTable conn.numTrees cc) {x : ℕ × ℕ} (hx : TreeCorner conn.numTrees x)
    (hfree : ∀ y, (y = x ∨ Crosses conn x y) → ∀ k, ¬ HasNumber cc y k) :
    ∃ cc', storeCorner conn cc x.1 x.2 = some cc' ∧ CornerConsistent conn.numTrees cc' ∧ cc'.numCorners = cc.numCorners + 1 ∧
      (∀ y k, TreeCorner conn.numTrees y → (HasNumber cc' y k ↔ if y = x ∨ Crosses conn x y then k = cc.numCorners else HasNumber cc y k)) ∧
      ∀ k (y : ℕ × ℕ), k ≤ cc.numCorners → (Listed cc' k y.1 y.2 ↔ if k = cc.numCorners then y = x ∨ Crosses conn x y else Listed cc k y.1 y.2) := by
  set n := conn.numTrees with hn
  have hca := hcc.arrays
  obtain ⟨l0, l1, e0, e1, hmem⟩ := storeAcross_spec hc hx
  set l := x :: (l0 ++ l1) with hl
  set ttc := if cc.treeToCorner = [] then List.replicate (4 * n) (-1) else cc.treeToCorner with httc
  have hN : ∀ y, y ∈ l → TreeCorner n y := by
    intro y hy
    rcases (hmem y).mp hy with rfl | h
    · exact hx
    · exact crosses_corner hc hx h
  have hlen : ttc.length = 4 * n := by
    rw [httc]
    split
    · simp
    · rename_i hne
      by_cases h0 : cc.numCorners = 0
      · exact ((ht h0).resolve_left hne).1
      · exact hca.entries h0
  -- entries before
  have hold : ∀ y : ℕ × ℕ, TreeCorner n y → ∀ v, ttc[4 * y.1 + y.2]? = some v → v = -1 ∨ ∃ k : ℕ, v = k ∧ HasNumber cc y k := by
    intro y hy v hv
    rw [httc] at hv
    split at hv
    · left
      exact (List.mem_replicate.mp (List.mem_of_getElem? hv)).2
    · rename_i hne
      by_cases h0 : cc.numCorners = 0
      · exact Or.inl (((ht h0).resolve_left hne).2 v (List.mem_of_getElem? hv))
      · rcases hcc.range h0 _ _ v hy.1 hy.2 hv with g | ⟨k, g1, g2, -⟩
        · exact Or.inl g
        · exact Or.inr ⟨k, g1, g2, by rw [hv, g1]⟩
  have hold' : ∀ (y : ℕ × ℕ) k, HasNumber cc y k → ttc[4 * y.1 + y.2]? = some (k : ℤ) := by
    intro y k h
    rw [httc]
    split
    · rename_i he
      have := h.2
      rw [he] at this
      simp at this
    · exact h.2
  obtain ⟨r, r1, r2, r3⟩ := setCorners_spec cc.numCorners l ttc (by
    intro y hy
    obtain ⟨g1, g2⟩ := hN y hy
    exact ⟨g2, by rw [hlen]; omega⟩)
  set s := uniqPairs (sortPairs l) with hs
  have hsmem : ∀ y, y ∈ s ↔ y ∈ l := fun y => by rw [hs, mem_uniqPairs, mem_sortPairs]
  have hsnd : s.Nodup := uniqPairs_nodup (sortPairs_sorted l)
  have htake : cc.cornerToTree.take cc.cornerToTree.length = cc.cornerToTree := List.take_length
  have htake' : cc.cornerToCorner.take cc.cornerToTree.length = cc.cornerToCorner := by rw [← hca.corners]; exact List.take_length
  refine ⟨⟨cc.numCorners + 1, r, cc.cttOffset ++ [cc.cornerToTree.length + s.length], cc.cornerToTree ++ s.map Prod.fst,
    cc.cornerToCorner ++ s.map Prod.snd⟩, ?_, ?_⟩
  · unfold storeCorner
    simp only [hca.trees, Option.bind_eq_bind, Option.bind_some, e0, e1, ← hn, ← httc]
    rw [show (x.1, x.2) = x from rfl, ← hl, r1]
    simp only [Option.bind_some, ← hs, htake, htake']
  set cc' : CornerConn := ⟨cc.numCorners + 1, r, cc.cttOffset ++ [cc.cornerToTree.length + s.length], cc.cornerToTree ++ s.map Prod.fst,
    cc.cornerToCorner ++ s.map Prod.snd⟩ with hcc'
  have hoff : ∀ k, k ≤ cc.numCorners → cc'.cttOffset[k]? = cc.cttOffset[k]? := by
    intro k hk
    exact List.getElem?_append_left (by rw [hca.offsets]; omega)
  have hofft : cc'.cttOffset[cc.numCorners + 1]? = some (cc.cornerToTree.length + s.length) := by
    show (cc.cttOffset ++ _)[cc.numCorners + 1]? = _
    rw [List.getElem?_append_right (by rw [hca.offsets]), hca.offsets]
    simp
  have hoffn : ∀ k v, cc'.cttOffset[k]? = some v → k ≤ cc.numCorners + 1 := by
    intro k v hk
    have := (List.getElem?_eq_some_iff.mp hk).1
    simp only [hcc', List.length_append, hca.offsets, List.length_singleton] at this
    omega
  have hlast := hoff cc.numCorners le_rfl
  rw [hca.trees] at hlast
  have htr : ∀ i, i < cc.cornerToTree.length → cc'.cornerToTree[i]? = cc.cornerToTree[i]? := fun i hi => List.getElem?_append_left hi
  have hco : ∀ i, i < cc.cornerToTree.length → cc'.cornerToCorner[i]? = cc.cornerToCorner[i]? := fun i hi =>
    List.getElem?_append_left (by rw [hca.corners]; exact hi)
  have htr' : ∀ j, cc'.cornerToTree[cc.cornerToTree.length + j]? = (s[j]?).map Prod.fst := by
    intro j
    show (cc.cornerToTree ++ _)[_]? = _
    rw [List.getElem?_append_right (by omega)]
    simp
  have hco' : ∀ j, cc'.cornerToCorner[cc.cornerToTree.length + j]? = (s[j]?).map Prod.snd := by
    intro j
    show (cc.cornerToCorner ++ _)[_]? = _
    rw [List.getElem?_append_right (by rw [hca.corners]; omega), hca.corners]
    simp
  have hb := fun {k b : ℕ} (h : cc.cttOffset[k]? = some b) => hca.bound hcc.ordered h
  -- positions of the new list
  have hpos : ∀ j (y : ℕ × ℕ), (cc'.cornerToTree[cc.cornerToTree.length + j]? = some y.1 ∧ cc'.cornerToCorner[cc.cornerToTree.length + j]? = some y.2) ↔
      s[j]? = some y := by
    intro j y
    rw [htr', hco']
    cases s[j]? with
    | none => simp
    | some z =>
      simp only [Option.map_some, Option.some.injEq]
      exact ⟨fun h => Prod.ext h.1 h.2, fun h => by rw [h]; exact ⟨rfl, rfl⟩⟩
  have hL : ∀ k (y : ℕ × ℕ), k ≤ cc.numCorners → (Listed cc' k y.1 y.2 ↔ if k = cc.numCorners then y = x ∨ Crosses conn x y else Listed cc k y.1 y.2) := by
    intro k y hk
    by_cases hkn : k = cc.numCorners
    · rw [if_pos hkn, ← hmem, ← hsmem]
      subst hkn
      constructor
      · rintro ⟨a, b, i, h1, h2, h3, h4, h5, h6⟩
        rw [hlast, Option.some.injEq] at h1
        rw [hofft, Option.some.injEq] at h2
        subst h1 h2
        obtain ⟨j, rfl⟩ := Nat.exists_eq_add_of_le h3
        exact List.mem_of_getElem? ((hpos j y).mp ⟨h5, h6⟩)
      · intro hy
        obtain ⟨j, hj, e⟩ := List.mem_iff_getElem.mp hy
        have := (hpos j y).mpr (by rw [List.getElem?_eq_getElem hj, e])
        exact ⟨_, _, cc.cornerToTree.length + j, hlast, hofft, by omega, by omega, this.1, this.2⟩
    · rw [if_neg hkn]
      unfold Listed
      rw [hoff k hk, hoff (k + 1) (by omega)]
      constructor
      · rintro ⟨a, b, i, h1, h2, h3, h4, h5, h6⟩
        have := hb h2
        rw [htr i (by omega)] at h5
        rw [hco i (by omega)] at h6
        exact ⟨a, b, i, h1, h2, h3, h4, h5, h6⟩
      · rintro ⟨a, b, i, h1, h2, h3, h4, h5, h6⟩
        have := hb h2
        exact ⟨a, b, i, h1, h2, h3, h4, by rw [htr i (by omega)]; exact h5, by rw [hco i (by omega)]; exact h6⟩
  have hH : ∀ y k, TreeCorner n y → (HasNumber cc' y k ↔ if y = x ∨ Crosses conn x y then k = cc.numCorners else HasNumber cc y k) := by
    intro y k hy
    have hr := r3 y hy.2
    by_cases hyl : y ∈ l
    · rw [if_pos ((hmem y).mp hyl)]
      rw [if_pos hyl] at hr
      unfold HasNumber
      show k < cc.numCorners + 1 ∧ r[_]? = _ ↔ _
      rw [hr, Option.some.injEq]
      constructor
      · rintro ⟨-, h⟩; omega
      · rintro rfl; exact ⟨by omega, rfl⟩
    · rw [if_neg (fun h => hyl ((hmem y).mpr h))]
      rw [if_neg hyl] at hr
      constructor
      · rintro ⟨-, h⟩
        have h : r[4 * y.1 + y.2]? = some (k : ℤ) := h
        rw [hr] at h
        rcases hold y hy _ h with g | ⟨k', g, g'⟩
        · omega
        · obtain rfl : k = k' := by omega
          exact g'
      · intro h
        refine ⟨show k < cc.numCorners + 1 from lt_trans h.1 (Nat.lt_succ_self _), ?_⟩
        show r[_]? = _
        rw [hr]
        exact hold' y k h
  refine ⟨?_, rfl, hH, hL⟩
  refine ⟨⟨fun _ => by show r.length = _; rw [r2, hlen], by simp [hcc', hca.offsets], ?_, by simp [hcc', hca.corners]⟩, ?_, ?_, ?_, ?_, ?_, ?_⟩
  · show cc'.cttOffset[cc.numCorners + 1]? = _
    rw [hofft]
    simp [hcc']
  · intro k a b h1 h2
    have hk := hoffn (k + 1) b h2
    by_cases hkn : k = cc.numCorners
    · subst hkn
      rw [hlast, Option.some.injEq] at h1
      rw [hofft, Option.some.injEq] at h2
      omega
    · rw [hoff k (by omega)] at h1
      rw [hoff (k + 1) (by omega)] at h2
      exact hcc.ordered k a b h1 h2
  · intro t h
    rcases List.mem_append.mp h with h | h
    · exact hcc.tree t h
    · obtain ⟨y, hy, rfl⟩ := List.mem_map.mp h
      exact (hN y ((hsmem y).mp hy)).1
  · intro c h
    rcases List.mem_append.mp h with h | h
    · exact hcc.corner c h
    · obtain ⟨y, hy, rfl⟩ := List.mem_map.mp h
      exact (hN y ((hsmem y).mp hy)).2
  · intro _ t c v h1 h2 h3
    have hr := r3 (t, c) h2
    have h3 : r[4 * t + c]? = some v := h3
    simp only at hr
    rw [hr] at h3
    by_cases hyl : (t, c) ∈ l
    · rw [if_pos hyl, Option.some.injEq] at h3
      right
      exact ⟨cc.numCorners, h3.symm, Nat.lt_succ_self _, (hL cc.numCorners (t, c) le_rfl).mpr (by rw [if_pos rfl]; exact (hmem _).mp hyl)⟩
    · rw [if_neg hyl] at h3
      rcases hold (t, c) ⟨h1, h2⟩ v h3 with g | ⟨k, g1, g2⟩
      · exact Or.inl g
      · right
        refine ⟨k, g1, lt_trans g2.1 (Nat.lt_succ_self _), (hL k (t, c) (by have := g2.1; omega)).mpr ?_⟩
        rw [if_neg (by have := g2.1; omega)]
        exact g2.listed hcc ⟨h1, h2⟩
  · intro t c k a b i j h1 h2 h3 h4 h5 h6 h7 h8 h9 h10 h11 h12 h13 h14
    have hnum : HasNumber cc' (t, c) k := ⟨h3, h4⟩
    have h3 : k < cc.numCorners + 1 := h3
    by_cases hkn : k = cc.numCorners
    · subst hkn
      rw [hlast, Option.some.injEq] at h5
      rw [hofft, Option.some.injEq] at h6
      subst h5 h6
      obtain ⟨i, rfl⟩ := Nat.exists_eq_add_of_le h7
      obtain ⟨j, rfl⟩ := Nat.exists_eq_add_of_le h9
      have g1 := (hpos i (t, c)).mp ⟨h11, h12⟩
      have g2 := (hpos j (t, c)).mp ⟨h13, h14⟩
      rw [(List.getElem?_inj (by omega) hsnd).mp (g1.trans g2.symm)]
    · rw [hoff k (by omega)] at h5
      rw [hoff (k + 1) (by omega)] at h6
      have := hb h6
      rw [htr i (by omega)] at h11
      rw [hco i (by omega)] at h12
      rw [htr j (by omega)] at h13
      rw [hco j (by omega)] at h14
      have hn2 := (hH (t, c) k ⟨h1, h2⟩).mp hnum
      split at hn2
      · omega
      · exact hcc.once t c k a b i j h1 h2 hn2.1 hn2.2 h5 h6 h7 h8 h9 h10 h11 h12 h13 h14
  · intro t c k t' c' h1 h2 h3 h4 h5
    have hnum : HasNumber cc' (t, c) k := ⟨h3, h4⟩
    have h3 : k < cc.numCorners + 1 := h3
    have h5' := (hL k (t', c') (by omega)).mp h5
    by_cases hkn : k = cc.numCorners
    · rw [if_pos hkn] at h5'
      have hv := hN _ ((hmem _).mpr h5')
      exact ((hH (t', c') k hv).mpr (by rw [if_pos h5']; exact hkn)).2
    · rw [if_neg hkn] at h5'
      have hn2 := (hH (t, c) k ⟨h1, h2⟩).mp hnum
      split at hn2
      · omega
      · have hv := hcc.listed h5'
        have g := HasNumber.of_listed hcc (x := (t, c)) (y := (t', c')) ⟨h1, h2⟩ hn2 h5'
        refine ((hH (t', c') k hv).mpr ?_).2
        rw [if_neg (fun h => hfree _ h k g)]
        exact g

end P4est
