import Verif.Lemmas.ConnCorners

/-! # C85: trees are connected at the corners that have the same vertex -/

namespace P4est

open Spec

variable {ttv : List ℕ}

/-- The tables that the loop over the vertices leaves. -/
theorem completeCorners_inv {conn : FaceConn} {numVertices : ℕ} (hc : FaceConsistent 2 conn)
    (hlen : ttv.length = 2 ^ 2 * conn.numTrees) (hr : ∀ v ∈ ttv, v < numVertices) :
    ∃ A e, CornerInv conn.numTrees ttv conn numVertices A e ∧
      completeCorners conn ttv numVertices = some ⟨A.length, e.ttc, e.offsets ++ [e.trees.length], e.trees, e.corners⟩ := by
  have hmem := fun x : ℕ × ℕ => mem_treeLoop (n := conn.numTrees) (k := 4) (x := x)
  obtain ⟨s, h1, h2⟩ := nodeLoop_inv hlen hr (treeLoop conn.numTrees 4) []
    (List.replicate (4 * conn.numTrees) (-1), List.replicate numVertices []) (fun x hx => (hmem x).mp (by simpa using hx))
    ⟨by simp, by simp [List.map_const'], by simp⟩
  rw [List.nil_append] at h2
  have hl : s.2 = (List.range numVertices).map (nodeList conn.numTrees ttv) := h2.lists
  obtain ⟨A, e, h3, h4⟩ := cornerLoop_inv (n := conn.numTrees) (ttv := ttv) hc rfl (s := ⟨s.1, 0, [], [], []⟩)
    ⟨by simp, by simp, by simp, by simp, rfl, rfl, rfl, rfl, h2.len, fun x hx hx4 _ => h2.done x ((hmem x).mpr ⟨hx, hx4⟩), by simp, by simp⟩ numVertices
  refine ⟨A, e, h4, ?_⟩
  unfold completeCorners
  rw [h1]
  simp only [Option.bind_eq_bind, Option.bind_some, hl, h3]
  have := h4.real
  rw [show numVertices - e.realCorners = A.length by omega]

section
variable {n m : ℕ} {conn : FaceConn} {A : List ℕ} {e : CompleteState}

theorem inv_offset (h : CornerInv n ttv conn m A e) {k : ℕ} (hk : k ≤ A.length) :
    (e.offsets ++ [e.trees.length])[k]? = some ((A.take k).flatMap (nodeList n ttv)).length := by
  rw [h.offsets, h.trees]
  rcases Nat.lt_or_ge k A.length with g | g
  · rw [List.getElem?_append_left (by simpa using g), List.getElem?_map, List.getElem?_range g]; rfl
  · have : k = A.length := by omega
    subst this
    rw [List.getElem?_append_right (by simp)]
    simp

theorem inv_listed (h : CornerInv n ttv conn m A e) {k t c : ℕ} (hk : k < A.length) :
    Listed ⟨A.length, e.ttc, e.offsets ++ [e.trees.length], e.trees, e.corners⟩ k t c ↔ (t, c) ∈ nodeList n ttv A[k] := by
  have hA : A[k]? = some A[k] := List.getElem?_eq_getElem hk
  have hnext := block_next (nodeList n ttv) hA
  constructor
  · rintro ⟨a, b, i, h1, h2, h3, h4, h5, h6⟩
    simp only at h1 h2 h5 h6
    rw [inv_offset h (by omega), Option.some.injEq] at h1
    rw [inv_offset h (by omega), Option.some.injEq] at h2
    obtain ⟨p, rfl⟩ : ∃ p, i = a + p := ⟨i - a, by omega⟩
    have hp : p < (nodeList n ttv A[k]).length := by omega
    have := block_at (nodeList n ttv) A k A[k] p hA hp
    rw [h.trees, List.getElem?_map, ← h1, this, List.getElem?_eq_getElem hp] at h5
    rw [h.corners, List.getElem?_map, ← h1, this, List.getElem?_eq_getElem hp] at h6
    simp only [Option.map_some, Option.some.injEq] at h5 h6
    rw [← h5, ← h6]
    exact List.getElem_mem hp
  · intro hm
    obtain ⟨p, hp, hpe⟩ := List.mem_iff_getElem.mp hm
    have := block_at (nodeList n ttv) A k A[k] p hA hp
    refine ⟨_, _, _, inv_offset h (by omega), inv_offset h (by omega), Nat.le_add_right _ p, by omega, ?_, ?_⟩
    · simp only [h.trees, List.getElem?_map, this, List.getElem?_eq_getElem hp, hpe, Option.map_some]
    · simp only [h.corners, List.getElem?_map, this, List.getElem?_eq_getElem hp, hpe, Option.map_some]

theorem inv_entry (h : CornerInv n ttv conn m A e) (hv : ∀ x : ℕ × ℕ, x.1 < n → x.2 < 4 → vtx ttv x < m) {x : ℕ × ℕ} (hx : x.1 < n) (hx4 : x.2 < 4) {k : ℕ} :
    e.ttc[4 * x.1 + x.2]? = some (k : ℤ) ↔ A[k]? = some (vtx ttv x) := by
  constructor
  · intro hk
    by_cases hA : vtx ttv x ∈ A
    · obtain ⟨j, hj, hje⟩ := List.mem_iff_getElem.mp hA
      have h1 : A[j]? = some (vtx ttv x) := by rw [List.getElem?_eq_getElem hj, hje]
      have h2 := h.kept x j hx hx4 h1
      rw [hk, Option.some.injEq] at h2
      have : k = j := by exact_mod_cast h2
      rw [this]; exact h1
    · rw [h.gone x hx hx4 (hv x hx hx4) hA, Option.some.injEq] at hk
      omega
  · exact h.kept x k hx hx4

theorem inv_consistent (h : CornerInv n ttv conn m A e) (hv : ∀ x : ℕ × ℕ, x.1 < n → x.2 < 4 → vtx ttv x < m) :
    CornerConsistent n ⟨A.length, e.ttc, e.offsets ++ [e.trees.length], e.trees, e.corners⟩ := by
  have hget : ∀ {k v : ℕ}, (e.offsets ++ [e.trees.length])[k]? = some v → k ≤ A.length := by
    intro k v hk
    have := (List.getElem?_eq_some_iff.mp hk).1
    rw [h.offsets] at this
    simp at this
    omega
  have hmemA : ∀ x ∈ A.flatMap (nodeList n ttv), x.1 < n ∧ x.2 < 4 := by
    intro x hx
    obtain ⟨a, -, ha⟩ := List.mem_flatMap.mp hx
    exact ⟨(mem_nodeList.mp ha).1, (mem_nodeList.mp ha).2.1⟩
  refine ⟨⟨fun _ => h.len, by simp [h.offsets], ?_, by simp [h.trees, h.corners]⟩, ?_, ?_, ?_, ?_, ?_, ?_⟩
  · simp only
    rw [inv_offset h le_rfl, List.take_length, h.trees, List.length_map]
  · intro k a b h1 h2
    simp only at h1 h2
    have hk := hget h2
    rw [inv_offset h (by omega), Option.some.injEq] at h1
    rw [inv_offset h hk, Option.some.injEq] at h2
    have := block_next (nodeList n ttv) (List.getElem?_eq_getElem (show k < A.length by omega))
    omega
  · intro t ht
    simp only [h.trees] at ht
    obtain ⟨x, hx, rfl⟩ := List.mem_map.mp ht
    exact (hmemA x hx).1
  · intro c hc
    simp only [h.corners] at hc
    obtain ⟨x, hx, rfl⟩ := List.mem_map.mp hc
    exact (hmemA x hx).2
  · intro _ t c v ht hc hval
    simp only at hval ⊢
    by_cases hA : vtx ttv (t, c) ∈ A
    · obtain ⟨j, hj, hje⟩ := List.mem_iff_getElem.mp hA
      have h1 : A[j]? = some (vtx ttv (t, c)) := by rw [List.getElem?_eq_getElem hj, hje]
      have h2 := h.kept (t, c) j ht hc h1
      rw [hval, Option.some.injEq] at h2
      exact Or.inr ⟨j, h2, hj, (inv_listed h hj).mpr (mem_nodeList.mpr ⟨ht, hc, hje.symm⟩)⟩
    · left
      have := h.gone (t, c) ht hc (hv _ ht hc) hA
      rw [hval, Option.some.injEq] at this
      exact this
  · intro t c k a b i j ht hc hk _ h1 h2 h3 h4 h5 h6 h7 h8 h9 h10
    simp only at h1 h2 hk h7 h8 h9 h10
    have hA : A[k]? = some A[k] := List.getElem?_eq_getElem hk
    have hnext := block_next (nodeList n ttv) hA
    rw [inv_offset h (by omega), Option.some.injEq] at h1
    rw [inv_offset h (by omega), Option.some.injEq] at h2
    obtain ⟨p, rfl⟩ : ∃ p, i = a + p := ⟨i - a, by omega⟩
    obtain ⟨q, rfl⟩ : ∃ q, j = a + q := ⟨j - a, by omega⟩
    have hp : p < (nodeList n ttv A[k]).length := by omega
    have hq : q < (nodeList n ttv A[k]).length := by omega
    have bp := block_at (nodeList n ttv) A k A[k] p hA hp
    have bq := block_at (nodeList n ttv) A k A[k] q hA hq
    rw [h.trees, List.getElem?_map, ← h1, bp, List.getElem?_eq_getElem hp] at h7
    rw [h.corners, List.getElem?_map, ← h1, bp, List.getElem?_eq_getElem hp] at h8
    rw [h.trees, List.getElem?_map, ← h1, bq, List.getElem?_eq_getElem hq] at h9
    rw [h.corners, List.getElem?_map, ← h1, bq, List.getElem?_eq_getElem hq] at h10
    simp only [Option.map_some, Option.some.injEq] at h7 h8 h9 h10
    have : p = q := (List.Nodup.getElem_inj_iff (nodeList_nodup (n := n) (ttv := ttv) A[k]) (hi := hp) (hj := hq)).mp
      (Prod.ext (h7.trans h9.symm) (h8.trans h10.symm))
    omega
  · intro t c k t' c' ht hc hk hval hl
    simp only at hk hval ⊢
    obtain ⟨g1, g2, g3⟩ := mem_nodeList.mp ((inv_listed h hk).mp hl)
    exact (inv_entry h hv (x := (t', c')) g1 g2).mpr (by rw [List.getElem?_eq_getElem hk, g3])

theorem inv_same (h : CornerInv n ttv conn m A e) (hv : ∀ x : ℕ × ℕ, x.1 < n → x.2 < 4 → vtx ttv x < m) {x y : ℕ × ℕ} (hx : x.1 < n) (hx4 : x.2 < 4)
    (hy : y.1 < n) (hy4 : y.2 < 4) :
    SameCorner ⟨A.length, e.ttc, e.offsets ++ [e.trees.length], e.trees, e.corners⟩ x y ↔ vtx ttv x ∈ A ∧ vtx ttv x = vtx ttv y := by
  constructor
  · rintro ⟨k, hk, h1, h2⟩
    have hA := (inv_entry h hv hx hx4).mp h1
    have hmem := (mem_nodeList.mp ((inv_listed h hk).mp h2)).2.2
    rw [List.getElem?_eq_getElem hk, Option.some.injEq] at hA
    exact ⟨List.mem_iff_getElem.mpr ⟨k, hk, hA⟩, hA.symm.trans hmem.symm⟩
  · rintro ⟨hA, hxy⟩
    obtain ⟨k, hk, hke⟩ := List.mem_iff_getElem.mp hA
    refine ⟨k, hk, (inv_entry h hv hx hx4).mpr (by rw [List.getElem?_eq_getElem hk, hke]), ?_⟩
    exact (inv_listed h hk).mpr (mem_nodeList.mpr ⟨hy, hy4, by rw [hke, hxy]⟩)

end

/-- All corners met across a face are in `distinct`. -/
theorem cornerDistinct_complete {conn : FaceConn} {t c : ℕ} (hc : c < 4) {D : List (ℕ × ℕ)} (hD : cornerDistinct conn t c = some D) {y : ℕ × ℕ}
    (hy : y = (t, c) ∨ AcrossFace conn t c y) : y ∈ D := by
  have mono : ∀ {i : ℕ} {l l' : List (ℕ × ℕ)}, cornerDistinctStep conn t c l i = some l' → ∀ z ∈ l, z ∈ l' := by
    intro i l l' hs z hz
    unfold cornerDistinctStep at hs
    simp only [Option.bind_eq_bind, Option.bind_eq_some_iff] at hs
    obtain ⟨_, -, _, -, _, -, hs⟩ := hs
    split at hs
    · simp only [Option.bind_eq_some_iff] at hs
      obtain ⟨_, -, hs⟩ := hs
      rw [Option.some.injEq] at hs
      rw [← hs]
      split
      · exact hz
      · exact List.mem_append_left _ hz
    · rw [Option.some.injEq] at hs; rw [← hs]; exact hz
  have add : ∀ {i : Fin 2} {l l' : List (ℕ × ℕ)} {nf o : ℕ}, nf < 4 → conn.treeToTree[4 * t + faceOf c i]? = some y.1 →
      conn.treeToFace[4 * t + faceOf c i]? = some (nf + 4 * o) → (y.1 ≠ t ∨ nf ≠ faceOf c i) →
      faceNeighborCorner 2 c (faceOf c i) nf o = some y.2 → cornerDistinctStep conn t c l i = some l' → y ∈ l' := by
    intro i l l' nf o hnf h1 h2 h3 h4 hs
    have hf := faceOf_lt c i
    unfold cornerDistinctStep at hs
    rw [entry_faceOf hc] at hs
    simp only [Option.bind_eq_bind, Option.bind_some, h1, h2] at hs
    rw [if_pos (by rcases h3 with g | g; exact Or.inl g; exact Or.inr (by omega)), show (nf + 4 * o) % 4 = nf by omega,
      show (nf + 4 * o) / 4 = o by omega, h4] at hs
    simp only [Option.bind_some, Option.some.injEq] at hs
    rw [← hs]
    split
    · assumption
    · simp
  unfold cornerDistinct at hD
  rw [show List.range 2 = [0, 1] from rfl] at hD
  simp only [List.foldlM_cons, List.foldlM_nil, Option.bind_eq_bind, Option.bind_eq_some_iff] at hD
  obtain ⟨l1, e1, l2, e2, e3⟩ := hD
  simp only [Option.pure_def, Option.some.injEq] at e3
  subst e3
  rcases hy with rfl | ⟨i, nf, o, h1, -, h3, h4, h5, h6⟩
  · exact mono e2 _ (mono e1 _ (by simp))
  · fin_cases i
    · exact mono e2 _ (add (i := 0) h1 h3 h4 h5 h6 e1)
    · exact add (i := 1) h1 h3 h4 h5 h6 e2

theorem cornerPoint_inj2 {a b : ℕ} (ha : a < 4) (hb : b < 4) (h : (cornerPoint a : Fin 2 → ℤ) = cornerPoint b) : a = b := by
  have h0 := congrFun h 0
  have h1 := congrFun h 1
  unfold cornerPoint at h0 h1
  interval_cases a <;> interval_cases b <;> simp [Nat.testBit] at h0 h1 ⊢

theorem neighborCorner_lt : ∀ (c : Fin 4) (i : Fin 2) (nf : Fin 4) (o : Fin 2), ∀ x ∈ faceNeighborCorner 2 c (faceOf c i) nf o, x < 4 ∧
    ∃ j < 2, (cornersOf 2 (faceOf c i))[j]? = some c.1 ∧ (cornersOf 2 nf)[j ^^^ o.1]? = some x := by decide +kernel

theorem onFace_faceOf : ∀ (c f : Fin 4), (∃ i : Fin 2, f.1 = faceOf c i) ↔ (f.1 % 2 = 1 ↔ c.1.testBit (f.1 / 2)) := by decide +kernel

/-- The face across which a corner is seen is one at the corner. -/
theorem onFace_corner {c f : ℕ} (hc : c < 4) (hf : f < 4) : OnFace f (cornerPoint c : Fin 2 → ℤ) ↔ ∃ i : Fin 2, f = faceOf c i := by
  have h := onFace_faceOf ⟨c, hc⟩ ⟨f, hf⟩
  simp only at h
  rw [h]
  constructor
  · rintro ⟨-, h2⟩
    have := h2 ⟨f / 2, by omega⟩ rfl
    unfold cornerPoint at this
    simp only at this
    by_cases h1 : f % 2 = 1 <;> by_cases h3 : c.testBit (f / 2) <;> simp [h1, h3] at this ⊢
  · intro h1
    refine ⟨fun i => by unfold cornerPoint; split <;> norm_num, fun i hi => ?_⟩
    unfold cornerPoint
    rw [hi]
    by_cases h2 : f % 2 = 1
    · rw [if_pos h2, if_pos (h1.mp h2)]
    · rw [if_neg h2, if_neg (fun k => h2 (h1.mpr k))]

theorem acrossConn_iff {conn : FaceConn} (hc : FaceConsistent 2 conn) {x y : ℕ × ℕ} (hx : x.1 < conn.numTrees) (hx4 : x.2 < 4) (hy4 : y.2 < 4) :
    AcrossConnected conn x y ↔ AcrossFace conn x.1 x.2 y := by
  constructor
  · rintro ⟨f, nf, o, T, hf, hnf, ⟨k1, k2⟩, hne, hT, hon, hTc⟩
    obtain ⟨i, rfl⟩ := (onFace_corner hx4 hf).mp hon
    simp only at k1 k2
    have ho : o < 2 := by
      have := (hc.range x.1 (faceOf x.2 i) y.1 (nf + 2 * 2 * o) hx hf k1 k2).2
      norm_num at this
      omega
    obtain ⟨nc, h1, h2⟩ := corner_across hx4 i hnf ho
    have hnc := (neighborCorner_lt ⟨x.2, hx4⟩ i ⟨nf, hnf⟩ ⟨o, ho⟩ nc h1).1
    have : nc = y.2 := cornerPoint_inj2 hnc hy4 ((h2 T hT).symm.trans hTc)
    subst this
    refine ⟨i, nf, o, hnf, ho, k1, k2, ?_, h1⟩
    by_contra hcon
    simp only [not_or, not_not] at hcon
    exact hne (Prod.ext hcon.1 hcon.2)
  · rintro ⟨i, nf, o, hnf, ho, k1, k2, hne, hfc⟩
    have hf := faceOf_lt x.2 i
    obtain ⟨ft, he, -⟩ := expand_good (d := 2) (Or.inl rfl) hf hnf (show o < 2 ^ (2 - 1) from ho)
    obtain ⟨nc, h1, h2⟩ := corner_across hx4 i hnf ho
    rw [hfc, Option.some.injEq] at h1
    subst h1
    have hT := (expand_glues (d := 2) (Or.inl rfl) hf hnf (show o < 2 ^ (2 - 1) from ho) he).2
    refine ⟨_, nf, o, _, hf, hnf, ⟨k1, k2⟩, ?_, hT, (onFace_corner hx4 hf).mpr ⟨i, rfl⟩, h2 _ hT⟩
    intro hcon
    rcases hne with g | g
    · exact g (Prod.ext_iff.mp hcon).1
    · exact g (Prod.ext_iff.mp hcon).2

theorem two_perm {a0 a1 b0 b1 : Option ℕ} (h : [a0, a1].Perm [b0, b1]) : (a0 = b0 ∧ a1 = b1) ∨ (a0 = b1 ∧ a1 = b0) := by
  have h1 : a0 = b0 ∨ a0 = b1 := by simpa using h.subset (a := a0) (by simp)
  by_cases e : a0 = b0
  · subst e
    have := (List.perm_cons a0).mp h
    simp at this
    exact Or.inl ⟨rfl, this⟩
  · have e2 := h1.resolve_left e
    subst e2
    have := (List.perm_cons a0).mp (h.trans (List.Perm.swap a0 b0 []))
    simp at this
    exact Or.inr ⟨rfl, this⟩

theorem cornersOf_two : ∀ f : Fin 4, ∃ c0 c1, cornersOf 2 f = [c0, c1] := by
  intro f; fin_cases f
  · exact ⟨0, 2, by decide⟩
  · exact ⟨1, 3, by decide⟩
  · exact ⟨0, 1, by decide⟩
  · exact ⟨2, 3, by decide⟩

/-- Corners that are the same across a face with the same vertices have the same vertex. -/
theorem fits_vertices {x y : ℕ × ℕ} {f nf o : ℕ} (hf : f < 4) (hnf : nf < 4) (ho : o < 2) (hs : FaceMatch 2 ttv (x.1, f) (y.1, nf))
    (hfit : FirstCorner 2 ttv (x.1, f) (y.1, nf) o ∨ FirstCorner 2 ttv (y.1, nf) (x.1, f) o) {j c c' : ℕ} (hj : j < 2)
    (h1 : (cornersOf 2 f)[j]? = some c) (h2 : (cornersOf 2 nf)[j ^^^ o]? = some c') : vertexAt 2 ttv x.1 c = vertexAt 2 ttv y.1 c' := by
  obtain ⟨c0, c1, e1⟩ := cornersOf_two ⟨f, hf⟩
  obtain ⟨d0, d1, e2⟩ := cornersOf_two ⟨nf, hnf⟩
  simp only at e1 e2
  unfold FaceMatch at hs
  unfold FirstCorner at hfit
  simp only [e1, e2, List.map_cons, List.map_nil] at hs hfit h1 h2
  have hp := two_perm hs
  have q : vertexAt 2 ttv x.1 c0 = vertexAt 2 ttv y.1 ([d0, d1][o]) ∨ vertexAt 2 ttv y.1 d0 = vertexAt 2 ttv x.1 ([c0, c1][o]) := by
    rcases hfit with ⟨u, v, g1, g2, g3⟩ | ⟨u, v, g1, g2, g3⟩
    · left
      rw [List.getElem?_eq_getElem (by simpa using ho), Option.some.injEq] at g2
      simp only [List.getElem?_cons_zero, Option.some.injEq] at g1
      rw [g2, g1]; exact g3
    · right
      rw [List.getElem?_eq_getElem (by simpa using ho), Option.some.injEq] at g2
      simp only [List.getElem?_cons_zero, Option.some.injEq] at g1
      rw [g2, g1]; exact g3
  clear hfit hs e1 e2
  generalize vertexAt 2 ttv x.1 = V at *
  generalize vertexAt 2 ttv y.1 = W at *
  have hj' : j = 0 ∨ j = 1 := by omega
  have ho' : o = 0 ∨ o = 1 := by omega
  rcases hj' with rfl | rfl <;> rcases ho' with rfl | rfl
  · have h1 : c0 = c := Option.some.inj h1
    have h2 : d0 = c' := Option.some.inj h2
    have q : V c0 = W d0 ∨ W d0 = V c0 := q
    rw [← h1, ← h2]
    exact q.elim id Eq.symm
  · have h1 : c0 = c := Option.some.inj h1
    have h2 : d1 = c' := Option.some.inj h2
    have q : V c0 = W d1 ∨ W d0 = V c1 := q
    rw [← h1, ← h2]
    rcases q with q | q
    · exact q
    · rcases hp with ⟨p1, p2⟩ | ⟨p1, p2⟩
      · rw [p1, q, p2]
      · exact p1
  · have h1 : c1 = c := Option.some.inj h1
    have h2 : d1 = c' := Option.some.inj h2
    have q : V c0 = W d0 ∨ W d0 = V c0 := q
    rw [← h1, ← h2]
    have q : V c0 = W d0 := q.elim id Eq.symm
    rcases hp with ⟨p1, p2⟩ | ⟨p1, p2⟩
    · exact p2
    · rw [p2, ← q, p1]
  · have h1 : c1 = c := Option.some.inj h1
    have h2 : d0 = c' := Option.some.inj h2
    have q : V c0 = W d1 ∨ W d0 = V c1 := q
    rw [← h1, ← h2]
    rcases q with q | q
    · rcases hp with ⟨p1, p2⟩ | ⟨p1, p2⟩
      · rw [p2, ← q, p1]
      · exact p2
    · exact q.symm

/-- **C85 (corners).**  The trees are squares whose vertices are such that no three faces have the same ones, and the face
tables are consistent and connect at most faces with the same vertices; in particular, all faces may be boundaries.
Then `p4est_connectivity_complete` ends without an access out of bounds, and

* the face tables and the corner tables of the result are consistent, and `p4est_connectivity_is_valid` accepts the
  corners,
* for each corner of each tree, `p4est_find_corner_transform` and the connections across faces together find exactly the
  other corners of trees with the same vertex,
* a corner is stored only if this is necessary: its list has two corners of trees that do not meet across a face. -/
theorem C85_corners (conn : FaceConn) (ttv : List ℕ) (numVertices : ℕ) (h1 : 0 < conn.numTrees)
    (hv : VertexTable 2 conn.numTrees numVertices ttv) (hc : FaceConsistent 2 conn)
    (hold : ∀ (x y : ℕ × ℕ) (o : ℕ), x.1 < conn.numTrees → x.2 < 4 → y.2 < 4 → Connected 2 conn x y o → y = x ∨ FaceMatch 2 ttv x y) :
    ∃ conn' cc, connComplete conn ttv numVertices = some (conn', cc) ∧ completeFaces 2 conn ttv = some conn' ∧
      conn'.numTrees = conn.numTrees ∧ FaceConsistent 2 conn' ∧ CornerConsistent conn.numTrees cc ∧ cornersCheck conn' cc = some true ∧
      (∀ x : ℕ × ℕ, x.1 < conn.numTrees → x.2 < 4 → ∃ l, findCornerTransform conn' cc x.1 x.2 = some l ∧
        ∀ y : ℕ × ℕ, y.1 < conn.numTrees → y.2 < 4 → y ≠ x →
          (vertexAt 2 ttv x.1 x.2 = vertexAt 2 ttv y.1 y.2 ↔ y ∈ l ∨ AcrossConnected conn' x y)) ∧
      ∀ k < cc.numCorners, ∃ x y : ℕ × ℕ, Listed cc k x.1 x.2 ∧ Listed cc k y.1 y.2 ∧ x ≠ y ∧ ¬ AcrossConnected conn' x y := by
  obtain ⟨conn', e1, e2, e3, e4⟩ := C84_complete_partial (Or.inl rfl) conn ttv numVertices hv hc hold
  obtain ⟨conn'', f1, f2, -, -, f5, -⟩ := C84_faces (Or.inl rfl) conn ttv numVertices hv hc.trees hc.faces
  rw [e1, Option.some.injEq] at f1
  subst f1
  have hlen : ttv.length = 2 ^ 2 * conn'.numTrees := by rw [e2]; exact hv.length
  obtain ⟨A, e, hi, he⟩ := completeCorners_inv (numVertices := numVertices) e3 hlen hv.range
  rw [← e2] at h1 ⊢
  have hvt : ∀ x : ℕ × ℕ, x.1 < conn'.numTrees → x.2 < 4 → vtx ttv x < numVertices :=
    fun x hx hx4 => hv.range _ (List.mem_of_getElem? (vtx_spec hlen hx hx4))
  have hcc := inv_consistent hi hvt
  have hvx : ∀ x : ℕ × ℕ, x.1 < conn'.numTrees → x.2 < 4 → vertexAt 2 ttv x.1 x.2 = some (vtx ttv x) := fun x hx hx4 => vtx_spec hlen hx hx4
  have hacross : ∀ x y : ℕ × ℕ, x.1 < conn'.numTrees → x.2 < 4 → AcrossFace conn' x.1 x.2 y →
      vertexAt 2 ttv x.1 x.2 = vertexAt 2 ttv y.1 y.2 := by
    rintro x y hx hx4 ⟨i, nf, o, hnf, ho, k1, k2, hne, hfc⟩
    have hf := faceOf_lt x.2 i
    obtain ⟨g1, j, g2, g3, g4⟩ := neighborCorner_lt ⟨x.2, hx4⟩ i ⟨nf, hnf⟩ ⟨o, ho⟩ y.2 hfc
    have hy := (e3.range x.1 (faceOf x.2 i) y.1 (nf + 2 * 2 * o) hx hf k1 k2).1
    have hne' : ((y.1, nf) : ℕ × ℕ) ≠ (x.1, faceOf x.2 i) := by
      intro k
      rcases hne with g | g
      · exact g (Prod.ext_iff.mp k).1
      · exact g (Prod.ext_iff.mp k).2
    have hcon : Connected 2 conn' (x.1, faceOf x.2 i) (y.1, nf) o := ⟨k1, k2⟩
    rw [e2] at hx hy
    have hs := (e4 (x.1, faceOf x.2 i) (y.1, nf) hx hf hy hnf hne').mp ⟨o, hcon⟩
    obtain ⟨o', -, p1, -, p3⟩ := f5 (x.1, faceOf x.2 i) (y.1, nf) hx hf hy hnf hne' hs
    have : o = o' := (hcon.unique (d := 2) hnf hnf p1).2
    subst this
    exact fits_vertices hf hnf ho hs (p3.elim (fun k => Or.inl k.2) (fun k => Or.inr k.2)) g2 g3 g4
  refine ⟨conn', _, ?_, e1, rfl, e3, hcc, ?_, ?_, ?_⟩
  · unfold connComplete
    rw [e1]
    simp only [Option.bind_eq_bind, Option.bind_some, he]
  · exact (C59_corner_checks_partial conn' e3 h1 _ hcc.arrays).1.mpr hcc
  · intro x hx hx4
    obtain ⟨l, l1, l2, l3⟩ := findCornerTransform_spec e3 hcc hx hx4
    refine ⟨l, l1, fun y hy hy4 hyx => ?_⟩
    rw [acrossConn_iff e3 hx hx4 hy4]
    constructor
    · intro hxy
      rw [hvx x hx hx4, hvx y hy hy4, Option.some.injEq] at hxy
      by_cases hA : vtx ttv x ∈ A
      · rcases l3 y ((inv_same hi hvt hx hx4 hy hy4).mpr ⟨hA, hxy⟩) with g | g | g
        · exact Or.inl g
        · exact absurd g hyx
        · exact Or.inr g
      · right
        have hxm : x ∈ nodeList conn'.numTrees ttv (vtx ttv x) := mem_nodeList.mpr ⟨hx, hx4, rfl⟩
        have hym : y ∈ nodeList conn'.numTrees ttv (vtx ttv x) := mem_nodeList.mpr ⟨hy, hy4, hxy.symm⟩
        rcases hi.rejected _ (hvt x hx hx4) hA with g | g
        · exfalso
          obtain ⟨p, hp, hpe⟩ := List.mem_iff_getElem.mp hxm
          obtain ⟨q, hq, hqe⟩ := List.mem_iff_getElem.mp hym
          have : p = q := by omega
          subst this
          exact hyx (hqe.symm.trans hpe)
        · have hall : ∀ (l r : List (ℕ × ℕ)), cornerNeeded conn' l r = some false → ∀ z ∈ r, ∃ D, cornerDistinct conn' z.1 z.2 = some D ∧ ∀ w ∈ l, w ∈ D := by
            intro l r
            induction r with
            | nil => intro _ z hz; simp at hz
            | cons w r ih =>
              intro hr z hz
              unfold cornerNeeded at hr
              simp only [Option.bind_eq_bind, Option.bind_eq_some_iff] at hr
              obtain ⟨D, hD, hr⟩ := hr
              split at hr
              · rename_i hfil
                rcases List.mem_cons.mp hz with rfl | hz
                · refine ⟨D, hD, fun w hw => ?_⟩
                  have := List.filter_eq_nil_iff.mp hfil w hw
                  simpa using this
                · exact ih hr z hz
              · simp at hr
          obtain ⟨D, hD, hDl⟩ := hall _ _ g x hxm
          obtain ⟨D', hD', hDs⟩ := cornerDistinct_spec e3 hx hx4
          rw [hD, Option.some.injEq] at hD'
          subst hD'
          exact (hDs y (hDl y hym)).resolve_left hyx
    · rintro (g | g)
      · have := ((inv_same hi hvt hx hx4 hy hy4).mp (l2 y g)).2
        rw [hvx x hx hx4, hvx y hy hy4, this]
      · exact hacross x y hx hx4 g
  · intro k hk
    simp only at hk
    obtain ⟨-, hneed⟩ := hi.accepted A[k] (List.getElem_mem hk)
    have hex : ∀ (l r : List (ℕ × ℕ)), cornerNeeded conn' l r = some true → ∃ z ∈ r, ∃ D, cornerDistinct conn' z.1 z.2 = some D ∧ ∃ w ∈ l, w ∉ D := by
      intro l r
      induction r with
      | nil => intro hr; simp [cornerNeeded] at hr
      | cons w r ih =>
        intro hr
        unfold cornerNeeded at hr
        simp only [Option.bind_eq_bind, Option.bind_eq_some_iff] at hr
        obtain ⟨D, hD, hr⟩ := hr
        split at hr
        · obtain ⟨z, hz, hzD⟩ := ih hr
          exact ⟨z, by simp [hz], hzD⟩
        · rename_i hfil
          obtain ⟨v, hv'⟩ := List.exists_mem_of_ne_nil _ hfil
          rw [List.mem_filter] at hv'
          exact ⟨w, by simp, D, hD, v, hv'.1, by simpa using hv'.2⟩
    obtain ⟨x, hx, D, hD, y, hy, hyD⟩ := hex _ _ hneed
    obtain ⟨hx1, hx4, -⟩ := mem_nodeList.mp hx
    obtain ⟨hy1, hy4, -⟩ := mem_nodeList.mp hy
    refine ⟨x, y, (inv_listed hi hk).mpr hx, (inv_listed hi hk).mpr hy, ?_, ?_⟩
    · rintro rfl
      exact hyD (cornerDistinct_complete hx4 hD (Or.inl rfl))
    · rw [acrossConn_iff e3 hx1 hx4 hy4]
      exact fun g => hyD (cornerDistinct_complete hx4 hD (Or.inr g))

/-- Four squares around a vertex. -/
def crossVertices : List ℕ := [0, 1, 3, 4, 1, 2, 4, 5, 3, 4, 6, 7, 4, 5, 7, 8]

/-- Four trees that are not connected. -/
def crossConn : FaceConn := ⟨4, [0, 0, 0, 0, 1, 1, 1, 1, 2, 2, 2, 2, 3, 3, 3, 3], [0, 1, 2, 3, 0, 1, 2, 3, 0, 1, 2, 3, 0, 1, 2, 3]⟩

/-- The four squares meet the hypotheses; the vertex in the middle is the only corner of the result. -/
example : 0 < crossConn.numTrees ∧ VertexTable 2 crossConn.numTrees 9 crossVertices ∧ FaceConsistent 2 crossConn ∧
    (∀ (x y : ℕ × ℕ) (o : ℕ), x.1 < 4 → x.2 < 4 → y.2 < 4 → Connected 2 crossConn x y o → y = x ∨ FaceMatch 2 crossVertices x y) ∧
    connComplete crossConn crossVertices 9 =
      some (⟨4, [0, 1, 0, 2, 0, 1, 1, 3, 2, 3, 0, 2, 2, 3, 1, 3], [0, 0, 2, 2, 1, 1, 2, 2, 0, 0, 3, 3, 1, 1, 3, 3]⟩,
        ⟨1, [-1, -1, -1, 0, -1, -1, 0, -1, -1, 0, -1, -1, 0, -1, -1, -1], [0, 4], [0, 1, 2, 3], [3, 2, 1, 0]⟩) :=
  ⟨by decide, vertexTable_of (Or.inl rfl) rfl (by decide) (by decide +kernel), consistent_of rfl rfl (by decide +kernel),
    fun x y o a b c => self_old (conn := crossConn) (by decide +kernel) x y o a b c, by decide +kernel⟩

end P4est
