import Verif.Props.ConnFaces

/-! # Lemmas: the loops that connect corners -/

namespace P4est

open Spec

theorem idx_inj {x y : ℕ × ℕ} (hx : x.2 < 4) (hy : y.2 < 4) (h : 4 * x.1 + x.2 = 4 * y.1 + y.2) : x = y :=
  Prod.ext (by omega) (by omega)

theorem clearCorners_spec : ∀ (l : List (ℕ × ℕ)) (ttc : List ℤ), (∀ x ∈ l, x.2 < 4 ∧ 4 * x.1 + x.2 < ttc.length) →
    (clearCorners ttc l).length = ttc.length ∧
    ∀ x : ℕ × ℕ, x.2 < 4 → (clearCorners ttc l)[4 * x.1 + x.2]? = if x ∈ l then some (-1) else ttc[4 * x.1 + x.2]? := by
  intro l
  induction l with
  | nil => intro ttc _; exact ⟨rfl, fun x _ => by simp [clearCorners]⟩
  | cons y l ih =>
    intro ttc h
    obtain ⟨hy, hyl⟩ := h y (by simp)
    obtain ⟨h1, h2⟩ := ih (ttc.set (4 * y.1 + y.2) (-1)) (by
      intro x hx
      rw [List.length_set]
      exact h x (by simp [hx]))
    have e : clearCorners ttc (y :: l) = clearCorners (ttc.set (4 * y.1 + y.2) (-1)) l := rfl
    rw [e]
    refine ⟨by rw [h1, List.length_set], fun x hx => ?_⟩
    rw [h2 x hx]
    by_cases hxl : x ∈ l
    · simp [hxl]
    · rw [if_neg hxl]
      by_cases hxy : x = y
      · subst hxy
        rw [List.getElem?_set_self hyl]; simp
      · rw [List.getElem?_set_ne (fun k => hxy (idx_inj hx hy k.symm)), if_neg (by simp [hxl, hxy])]

theorem shiftCorners_spec (real : ℕ) : ∀ (l : List (ℕ × ℕ)) (ttc : List ℤ), l.Nodup → (∀ x ∈ l, x.2 < 4 ∧ 4 * x.1 + x.2 < ttc.length) →
    ∃ r, shiftCorners ttc real l = some r ∧ r.length = ttc.length ∧
    ∀ x : ℕ × ℕ, x.2 < 4 → r[4 * x.1 + x.2]? = if x ∈ l then (ttc[4 * x.1 + x.2]?).map (· - (real : ℤ)) else ttc[4 * x.1 + x.2]? := by
  intro l
  induction l with
  | nil => intro ttc _ _; exact ⟨ttc, rfl, rfl, fun x _ => by simp⟩
  | cons y l ih =>
    intro ttc hnd h
    obtain ⟨hy, hyl⟩ := h y (by simp)
    rw [List.nodup_cons] at hnd
    obtain ⟨r, h0, h1, h2⟩ := ih (ttc.set (4 * y.1 + y.2) (ttc[4 * y.1 + y.2] - real)) hnd.2 (by
      intro x hx
      rw [List.length_set]
      exact h x (by simp [hx]))
    refine ⟨r, ?_, by rw [h1, List.length_set], fun x hx => ?_⟩
    · unfold shiftCorners at h0 ⊢
      rw [List.foldlM_cons, List.getElem?_eq_getElem hyl]
      exact h0
    · rw [h2 x hx]
      by_cases hxy : x = y
      · subst hxy
        rw [if_neg hnd.1, List.getElem?_set_self hyl, if_pos (by simp), List.getElem?_eq_getElem hyl]
        rfl
      · have hne : 4 * y.1 + y.2 ≠ 4 * x.1 + x.2 := fun k => hxy (idx_inj hx hy k.symm)
        rw [List.getElem?_set_ne hne]
        by_cases hxl : x ∈ l
        · simp [hxl]
        · simp [hxl, hxy]

variable {n numVertices : ℕ} {ttv : List ℕ}

/-- The vertex of a corner. -/
def vtx (ttv : List ℕ) (x : ℕ × ℕ) : ℕ := (ttv[4 * x.1 + x.2]?).getD 0

theorem vtx_spec (hlen : ttv.length = 2 ^ 2 * n) {x : ℕ × ℕ} (hx : x.1 < n) (hc : x.2 < 4) : ttv[4 * x.1 + x.2]? = some (vtx ttv x) := by
  unfold vtx
  rw [List.getElem?_eq_getElem (by rw [hlen]; norm_num; omega)]
  rfl

/-- The corners at a vertex in the order of the loops. -/
def nodeList (n : ℕ) (ttv : List ℕ) (k : ℕ) : List (ℕ × ℕ) := (treeLoop n 4).filter fun x => vtx ttv x = k

theorem mem_nodeList {k : ℕ} {x : ℕ × ℕ} : x ∈ nodeList n ttv k ↔ x.1 < n ∧ x.2 < 4 ∧ vtx ttv x = k := by
  unfold nodeList
  rw [List.mem_filter, mem_treeLoop]
  simp [and_assoc]

theorem nodeList_nodup (k : ℕ) : (nodeList n ttv k).Nodup := (treeLoop_nodup n 4).filter _

/-- What holds after the corners in `P`. -/
structure NodeInv (n numVertices : ℕ) (ttv : List ℕ) (P : List (ℕ × ℕ)) (s : List ℤ × List (List (ℕ × ℕ))) : Prop where
  len : s.1.length = 4 * n
  lists : s.2 = (List.range numVertices).map fun k => P.filter fun x => vtx ttv x = k
  done : ∀ x ∈ P, s.1[4 * x.1 + x.2]? = some (vtx ttv x : ℤ)

theorem nodeLoop_inv (hlen : ttv.length = 2 ^ 2 * n) (hr : ∀ v ∈ ttv, v < numVertices) :
    ∀ (Q P : List (ℕ × ℕ)) (s : List ℤ × List (List (ℕ × ℕ))), (∀ x ∈ P ++ Q, x.1 < n ∧ x.2 < 4) → NodeInv n numVertices ttv P s →
      ∃ s', Q.foldlM (completeNodeStep ttv) s = some s' ∧ NodeInv n numVertices ttv (P ++ Q) s' := by
  intro Q
  induction Q with
  | nil => intro P s _ h; exact ⟨s, rfl, by simpa using h⟩
  | cons x Q ih =>
    intro P s hm h
    obtain ⟨hx, hc⟩ := hm x (by simp)
    have hv := vtx_spec hlen hx hc
    have hvn : vtx ttv x < numVertices := hr _ (List.mem_of_getElem? hv)
    have hl : s.2[vtx ttv x]? = some (P.filter fun y => vtx ttv y = vtx ttv x) := by
      rw [h.lists, List.getElem?_map, List.getElem?_range hvn]; rfl
    have hstep : completeNodeStep ttv s x =
        some (s.1.set (4 * x.1 + x.2) (vtx ttv x), s.2.set (vtx ttv x) ((P.filter fun y => vtx ttv y = vtx ttv x) ++ [x])) := by
      unfold completeNodeStep
      rw [hv]
      simp only [Option.bind_eq_bind, Option.bind_some, hl]
    obtain ⟨s', h1, h2⟩ := ih (P ++ [x]) _ (by simpa using hm) (⟨by rw [List.length_set, h.len], by
        apply List.ext_getElem?
        intro k
        by_cases hk : k = vtx ttv x
        · subst hk
          rw [List.getElem?_set_self (by rw [h.lists]; simpa using hvn), List.getElem?_map, List.getElem?_range hvn]
          simp
        · rw [List.getElem?_set_ne (fun e => hk e.symm), h.lists, List.getElem?_map, List.getElem?_map]
          by_cases hkn : k < numVertices
          · rw [List.getElem?_range hkn]
            simp [List.filter_append, Ne.symm hk]
          · rw [List.getElem?_eq_none (by simpa using hkn)]
            rfl, by
        intro y hy
        by_cases hyx : y = x
        · subst hyx
          rw [List.getElem?_set_self (by rw [h.len]; omega)]
        · rcases List.mem_append.mp hy with g | g
          · rw [List.getElem?_set_ne (fun k => hyx (idx_inj (hm y (by simp [g])).2 hc k.symm))]
            exact h.done y g
          · exact absurd (List.mem_singleton.mp g) hyx⟩ : NodeInv n numVertices ttv (P ++ [x]) (s.1.set (4 * x.1 + x.2) (vtx ttv x), s.2.set (vtx ttv x) ((P.filter fun y => vtx ttv y = vtx ttv x) ++ [x])))
    refine ⟨s', ?_, by simpa using h2⟩
    rw [List.foldlM_cons, hstep]
    exact h1

theorem block_at (N : ℕ → List (ℕ × ℕ)) : ∀ (A : List ℕ) (k a p : ℕ), A[k]? = some a → p < (N a).length →
    (A.flatMap N)[((A.take k).flatMap N).length + p]? = (N a)[p]? := by
  intro A
  induction A with
  | nil => intro k a p h; simp at h
  | cons b A ih =>
    intro k a p h hp
    cases k with
    | zero =>
      simp only [List.getElem?_cons_zero, Option.some.injEq] at h
      subst h
      simp only [List.take_zero, List.flatMap_nil, List.length_nil, Nat.zero_add, List.flatMap_cons]
      exact List.getElem?_append_left hp
    | succ k =>
      rw [List.getElem?_cons_succ] at h
      simp only [List.take_succ_cons, List.flatMap_cons, List.length_append]
      rw [List.getElem?_append_right (by omega), show (N b).length + ((A.take k).flatMap N).length + p - (N b).length = ((A.take k).flatMap N).length + p by omega]
      exact ih k a p h hp

theorem block_next (N : ℕ → List (ℕ × ℕ)) {A : List ℕ} {k a : ℕ} (h : A[k]? = some a) :
    ((A.take (k + 1)).flatMap N).length = ((A.take k).flatMap N).length + (N a).length := by
  obtain ⟨hk, e⟩ := List.getElem?_eq_some_iff.mp h
  rw [List.take_succ_eq_append_getElem hk, List.flatMap_append, List.length_append, e]
  simp

/-- The state of the loop over the vertices after the first `m` of them; `A` are the vertices that became corners. -/
structure CornerInv (n : ℕ) (ttv : List ℕ) (conn : FaceConn) (m : ℕ) (A : List ℕ) (e : CompleteState) : Prop where
  sorted : A.Pairwise (· < ·)
  lt : ∀ a ∈ A, a < m
  accepted : ∀ a ∈ A, 1 < (nodeList n ttv a).length ∧ cornerNeeded conn (nodeList n ttv a) (nodeList n ttv a) = some true
  rejected : ∀ k < m, k ∉ A → (nodeList n ttv k).length ≤ 1 ∨ cornerNeeded conn (nodeList n ttv k) (nodeList n ttv k) = some false
  real : e.realCorners + A.length = m
  offsets : e.offsets = (List.range A.length).map fun k => ((A.take k).flatMap (nodeList n ttv)).length
  trees : e.trees = (A.flatMap (nodeList n ttv)).map Prod.fst
  corners : e.corners = (A.flatMap (nodeList n ttv)).map Prod.snd
  len : e.ttc.length = 4 * n
  later : ∀ x : ℕ × ℕ, x.1 < n → x.2 < 4 → m ≤ vtx ttv x → e.ttc[4 * x.1 + x.2]? = some (vtx ttv x : ℤ)
  kept : ∀ (x : ℕ × ℕ) (k : ℕ), x.1 < n → x.2 < 4 → A[k]? = some (vtx ttv x) → e.ttc[4 * x.1 + x.2]? = some (k : ℤ)
  gone : ∀ x : ℕ × ℕ, x.1 < n → x.2 < 4 → vtx ttv x < m → vtx ttv x ∉ A → e.ttc[4 * x.1 + x.2]? = some (-1)

theorem cornerNeeded_some {conn : FaceConn} (hc : FaceConsistent 2 conn) (l : List (ℕ × ℕ)) : ∀ (r : List (ℕ × ℕ)),
    (∀ x ∈ r, x.1 < conn.numTrees ∧ x.2 < 4) → ∃ b, cornerNeeded conn l r = some b := by
  intro r
  induction r with
  | nil => intro _; exact ⟨false, rfl⟩
  | cons x r ih =>
    intro h
    obtain ⟨D, hD⟩ := cornerDistinct_some hc (h x (by simp)).1 (h x (by simp)).2
    unfold cornerNeeded
    rw [hD]
    simp only [Option.bind_eq_bind, Option.bind_some]
    split
    · exact ih fun y hy => h y (by simp [hy])
    · exact ⟨true, rfl⟩

theorem cornerStep_inv {conn : FaceConn} (hc : FaceConsistent 2 conn) (hn : conn.numTrees = n) {m : ℕ} {A : List ℕ} {e : CompleteState}
    (h : CornerInv n ttv conn m A e) :
    ∃ A' e', completeCornerStep conn e (nodeList n ttv m) = some e' ∧ CornerInv n ttv conn (m + 1) A' e' := by
  have hmA : m ∉ A := fun k => absurd (h.lt m k) (by omega)
  have hin : ∀ (ttc : List ℤ), ttc.length = 4 * n → ∀ x ∈ nodeList n ttv m, x.2 < 4 ∧ 4 * x.1 + x.2 < ttc.length := by
    intro ttc hl x hx
    obtain ⟨a, b, -⟩ := mem_nodeList.mp hx
    exact ⟨b, by rw [hl]; omega⟩
  -- a vertex that is not accepted
  have reject : ∀ ttc : List ℤ, ttc.length = 4 * n → (∀ x : ℕ × ℕ, x.2 < 4 → x ∉ nodeList n ttv m → ttc[4 * x.1 + x.2]? = e.ttc[4 * x.1 + x.2]?) →
      ((nodeList n ttv m).length ≤ 1 ∨ cornerNeeded conn (nodeList n ttv m) (nodeList n ttv m) = some false) →
      CornerInv n ttv conn (m + 1) A { e with ttc := clearCorners ttc (nodeList n ttv m), realCorners := e.realCorners + 1 } := by
    intro ttc hl ho hrej
    obtain ⟨c1, c2⟩ := clearCorners_spec (nodeList n ttv m) ttc (hin ttc hl)
    have hother : ∀ x : ℕ × ℕ, x.1 < n → x.2 < 4 → vtx ttv x ≠ m → (clearCorners ttc (nodeList n ttv m))[4 * x.1 + x.2]? = e.ttc[4 * x.1 + x.2]? := by
      intro x hx hx4 hne
      have : x ∉ nodeList n ttv m := fun k => hne (mem_nodeList.mp k).2.2
      rw [c2 x hx4, if_neg this, ho x hx4 this]
    refine ⟨h.sorted, fun a ha => by have := h.lt a ha; omega, h.accepted, ?_, by have := h.real; simp only; omega, h.offsets, h.trees, h.corners,
      by simp only; rw [c1, hl], ?_, ?_, ?_⟩
    · intro k hk hkA
      rcases Nat.lt_or_ge k m with g | g
      · exact h.rejected k g hkA
      · have : k = m := by omega
        subst this; exact hrej
    · intro x hx hx4 hm
      rw [hother x hx hx4 (by omega)]
      exact h.later x hx hx4 (by omega)
    · intro x k hx hx4 hA
      rw [hother x hx hx4 (fun e => hmA (e ▸ List.mem_of_getElem? hA))]
      exact h.kept x k hx hx4 hA
    · intro x hx hx4 hm hA
      by_cases hvm : vtx ttv x = m
      · rw [c2 x hx4, if_pos (mem_nodeList.mpr ⟨hx, hx4, hvm⟩)]
      · rw [hother x hx hx4 hvm]
        exact h.gone x hx hx4 (by omega) hA
  unfold completeCornerStep
  by_cases hlen : (nodeList n ttv m).length ≤ 1
  · rw [if_pos hlen]
    exact ⟨A, _, rfl, reject e.ttc h.len (fun _ _ _ => rfl) (Or.inl hlen)⟩
  · rw [if_neg hlen]
    obtain ⟨r, s1, s2, s3⟩ := shiftCorners_spec e.realCorners (nodeList n ttv m) e.ttc (nodeList_nodup m) (hin e.ttc h.len)
    obtain ⟨b, hb⟩ := cornerNeeded_some hc (nodeList n ttv m) (nodeList n ttv m) (fun x hx => by
      obtain ⟨a, c, -⟩ := mem_nodeList.mp hx
      exact ⟨by rw [hn]; exact a, c⟩)
    rw [s1]
    simp only [Option.bind_eq_bind, Option.bind_some, hb]
    cases b with
    | false =>
      refine ⟨A, _, by simp, reject r (by rw [s2, h.len]) ?_ (Or.inr hb)⟩
      intro x hx4 hx
      rw [s3 x hx4, if_neg hx]
    | true =>
      have hreal := h.real
      have hother : ∀ x : ℕ × ℕ, x.2 < 4 → vtx ttv x ≠ m → r[4 * x.1 + x.2]? = e.ttc[4 * x.1 + x.2]? := by
        intro x hx4 hne
        rw [s3 x hx4, if_neg fun k => hne (mem_nodeList.mp k).2.2]
      refine ⟨A ++ [m], _, by simp; rfl, ⟨?_, ?_, ?_, ?_, ?_, ?_, ?_, ?_, ?_, ?_, ?_, ?_⟩⟩
      · rw [List.pairwise_append]
        exact ⟨h.sorted, by simp, fun a ha b hb' => by rw [List.mem_singleton.mp hb']; exact h.lt a ha⟩
      · intro a ha
        rcases List.mem_append.mp ha with g | g
        · have := h.lt a g; omega
        · rw [List.mem_singleton.mp g]; omega
      · intro a ha
        rcases List.mem_append.mp ha with g | g
        · exact h.accepted a g
        · rw [List.mem_singleton.mp g]; exact ⟨by omega, hb⟩
      · intro k hk hkA
        rcases Nat.lt_or_ge k m with g | g
        · exact h.rejected k g fun hA => hkA (List.mem_append_left _ hA)
        · have : k = m := by omega
          subst this
          exact absurd (by simp) hkA
      · simp only [List.length_append, List.length_singleton]; omega
      · simp only [List.length_append, List.length_singleton, List.range_succ, List.map_append, List.map_cons, List.map_nil]
        rw [h.offsets, h.trees]
        congr 1
        · refine List.map_congr_left fun k hk => ?_
          rw [List.take_append_of_le_length (by rw [List.mem_range] at hk; omega)]
        · rw [List.take_append_of_le_length le_rfl, List.take_length, List.length_map]
      · simp only [h.trees, List.flatMap_append, List.map_append, List.flatMap_cons, List.flatMap_nil, List.append_nil]
      · simp only [h.corners, List.flatMap_append, List.map_append, List.flatMap_cons, List.flatMap_nil, List.append_nil]
      · simp only [s2, h.len]
      · intro x hx hx4 hm
        simp only
        rw [hother x hx4 (by omega)]
        exact h.later x hx hx4 (by omega)
      · intro x k hx hx4 hA
        simp only
        rcases Nat.lt_or_ge k A.length with g | g
        · rw [List.getElem?_append_left g] at hA
          rw [hother x hx4 (fun e => hmA (e ▸ List.mem_of_getElem? hA))]
          exact h.kept x k hx hx4 hA
        · rw [List.getElem?_append_right g] at hA
          have hk : k - A.length = 0 := by
            have := (List.getElem?_eq_some_iff.mp hA).1
            simp at this; omega
          rw [hk] at hA
          simp only [List.getElem?_cons_zero, Option.some.injEq] at hA
          rw [s3 x hx4, if_pos (mem_nodeList.mpr ⟨hx, hx4, hA.symm⟩), h.later x hx hx4 (by omega)]
          simp only [Option.map_some, Option.some.injEq]
          omega
      · intro x hx hx4 hm hA
        simp only
        have hvm : vtx ttv x ≠ m := fun e => hA (by simp [e])
        rw [hother x hx4 hvm]
        exact h.gone x hx hx4 (by omega) fun g => hA (List.mem_append_left _ g)

theorem cornerLoop_inv {conn : FaceConn} (hc : FaceConsistent 2 conn) (hn : conn.numTrees = n) {s : CompleteState} (h : CornerInv n ttv conn 0 [] s) :
    ∀ m, ∃ A e, ((List.range m).map (nodeList n ttv)).foldlM (completeCornerStep conn) s = some e ∧ CornerInv n ttv conn m A e := by
  intro m
  induction m with
  | zero => exact ⟨[], s, rfl, h⟩
  | succ m ih =>
    obtain ⟨A, e, h1, h2⟩ := ih
    obtain ⟨A', e', h3, h4⟩ := cornerStep_inv hc hn h2
    refine ⟨A', e', ?_, h4⟩
    rw [List.range_succ, List.map_append, List.foldlM_append, h1]
    simp only [List.map_cons, List.map_nil, Option.bind_eq_bind, Option.bind_some, List.foldlM_cons, h3, List.foldlM_nil]
    rfl

end P4est
