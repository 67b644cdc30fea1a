import Verif.Model.ConnPermute
import Verif.Props.ConnCorners

/-! # C86: trees are renumbered -/

namespace P4est

open Spec

deriving instance DecidableEq for TreeConn

/-- The list names each number below `n` exactly once. -/
structure IsPerm (n : ℕ) (p : List ℕ) : Prop where
  length : p.length = n
  nodup : p.Nodup
  lt : ∀ v ∈ p, v < n

theorem isPerm_of {n : ℕ} {p : List ℕ} (h : p.Perm (List.range n)) : IsPerm n p :=
  ⟨by simpa using h.length_eq, h.nodup_iff.mpr List.nodup_range, fun v hv => by simpa using h.subset hv⟩

section
variable {n : ℕ} {p : List ℕ}

/-- The entry of a permutation. -/
def permAt (p : List ℕ) (t : ℕ) : ℕ := (p[t]?).getD 0

theorem IsPerm.get (h : IsPerm n p) {t : ℕ} (ht : t < n) : p[t]? = some (permAt p t) := by
  unfold permAt; rw [List.getElem?_eq_getElem (by rw [h.length]; exact ht)]; rfl

theorem IsPerm.at_lt (h : IsPerm n p) {t : ℕ} (ht : t < n) : permAt p t < n := h.lt _ (List.mem_of_getElem? (h.get ht))

theorem IsPerm.inj (h : IsPerm n p) {s t : ℕ} (hs : s < n) (ht : t < n) (e : permAt p s = permAt p t) : s = t := by
  refine (List.getElem?_inj (by rw [h.length]; exact hs) h.nodup).mp ?_
  rw [h.get hs, h.get ht, e]

theorem IsPerm.surj (h : IsPerm n p) {v : ℕ} (hv : v < n) : ∃ t < n, permAt p t = v := by
  have hperm : p.Perm (List.range n) := by
    refine List.Subperm.perm_of_length_le (List.subperm_of_subset h.nodup fun a ha => List.mem_range.mpr (h.lt a ha)) ?_
    simp [h.length]
  have : v ∈ p := hperm.symm.subset (List.mem_range.mpr hv)
  obtain ⟨t, ht, e⟩ := List.mem_iff_getElem.mp this
  refine ⟨t, by rw [← h.length]; exact ht, ?_⟩
  unfold permAt
  rw [List.getElem?_eq_getElem ht, e]; rfl

theorem renameTrees_spec (h : IsPerm n p) {l : List ℕ} (hl : ∀ v ∈ l, v < n) : renameTrees p l.length l = some (l.map (permAt p)) := by
  have aux : ∀ k ≤ l.length, ∃ r, renameTrees p k l = some r ∧ r.length = l.length ∧
      ∀ i, r[i]? = if i < k then (l[i]?).map (permAt p) else l[i]? := by
    intro k
    induction k with
    | zero => intro _; exact ⟨l, rfl, rfl, fun i => by simp⟩
    | succ k ih =>
      intro hk
      obtain ⟨r, h1, h2, h3⟩ := ih (by omega)
      have hkl : k < l.length := by omega
      have hrk : r[k]? = some l[k] := by rw [h3, if_neg (by omega), List.getElem?_eq_getElem hkl]
      have hp := h.get (hl _ (List.getElem_mem hkl))
      refine ⟨r.set k (permAt p l[k]), ?_, by simp [h2], fun i => ?_⟩
      · unfold renameTrees at h1 ⊢
        rw [List.range_succ, List.foldlM_append, h1]
        simp only [Option.bind_eq_bind, Option.bind_some, List.foldlM_cons, hrk, hp, List.foldlM_nil]
        rfl
      · by_cases hik : i = k
        · subst hik
          rw [List.getElem?_set_self (by omega), if_pos (by omega), List.getElem?_eq_getElem hkl]
          rfl
        · rw [List.getElem?_set_ne (fun e => hik e.symm), h3]
          by_cases hi : i < k
          · rw [if_pos hi, if_pos (by omega)]
          · rw [if_neg hi, if_neg (by omega)]
  obtain ⟨r, h1, h2, h3⟩ := aux l.length le_rfl
  rw [h1]
  congr 1
  apply List.ext_getElem?
  intro i
  rw [h3, List.getElem?_map]
  split
  · rfl
  · rename_i hi
    rw [List.getElem?_eq_none (by omega)]; rfl

theorem flatMap_at {β : Type} {w : ℕ} (g : ℕ → List β) : ∀ n, (∀ i < n, (g i).length = w) →
    ((List.range n).flatMap g).length = w * n ∧ ∀ i j, i < n → j < w → ((List.range n).flatMap g)[w * i + j]? = (g i)[j]? := by
  intro n
  induction n with
  | zero => intro _; exact ⟨by simp, fun i j h => by omega⟩
  | succ n ih =>
    intro h
    obtain ⟨h1, h2⟩ := ih fun i hi => h i (by omega)
    rw [List.range_succ, List.flatMap_append]
    refine ⟨by rw [List.length_append, h1]; simp [h n (by omega)]; ring, fun i j hi hj => ?_⟩
    rcases Nat.lt_or_ge i n with g' | g'
    · rw [List.getElem?_append_left (by rw [h1]; exact row_lt g' hj)]
      exact h2 i j g' hj
    · have : i = n := by omega
      subst this
      rw [List.getElem?_append_right (by rw [h1]; omega), h1]
      simp

theorem permuteRows_spec {β : Type} (h : IsPerm n p) {w : ℕ} {l : List β} (hl : l.length = w * n) :
    (permuteRows w n p l).length = w * n ∧
    ∀ t j, t < n → j < w → (permuteRows w n p l)[w * permAt p t + j]? = l[w * t + j]? := by
  have hidx : ∀ t, t < n → p.idxOf (permAt p t) = t := by
    intro t ht
    have htl : t < p.length := by rw [h.length]; exact ht
    have e : permAt p t = p[t] := by unfold permAt; rw [List.getElem?_eq_getElem htl]; rfl
    rw [e, List.Nodup.idxOf_getElem h.nodup]
  have hblock : ∀ t j, t < n → j < w → ((l.drop (w * t)).take w)[j]? = l[w * t + j]? := by
    intro t j ht hj
    rw [List.getElem?_take, if_pos hj, List.getElem?_drop]
  have hlen : ∀ i < n, ((l.drop (w * p.idxOf i)).take w).length = w := by
    intro i hi
    obtain ⟨t, ht, rfl⟩ := h.surj hi
    rw [hidx t ht, List.length_take, List.length_drop, hl]
    have := Nat.mul_le_mul_left w (show t + 1 ≤ n from ht)
    rw [Nat.mul_add] at this
    omega
  obtain ⟨h1, h2⟩ := flatMap_at (fun i => (l.drop (w * p.idxOf i)).take w) n hlen
  refine ⟨h1, fun t j ht hj => ?_⟩
  unfold permuteRows
  rw [h2 _ j (h.at_lt ht) hj, hidx t ht, hblock t j ht hj]

theorem invertPerm_spec (h : IsPerm n p) {mem : List ℕ} (hm : mem.length = n) :
    ∃ q, invertPerm mem p n = some q ∧ IsPerm n q ∧ ∀ t < n, permAt q (permAt p t) = t := by
  have aux : ∀ k ≤ n, ∃ q, invertPerm mem p k = some q ∧ q.length = n ∧ ∀ t < k, q[permAt p t]? = some t := by
    intro k
    induction k with
    | zero => intro _; exact ⟨mem, rfl, hm, fun t ht => by omega⟩
    | succ k ih =>
      intro hk
      obtain ⟨q, h1, h2, h3⟩ := ih (by omega)
      have hlt : permAt p k < q.length := by rw [h2]; exact h.at_lt (by omega)
      refine ⟨q.set (permAt p k) k, ?_, by simp [h2], fun t ht => ?_⟩
      · unfold invertPerm at h1 ⊢
        rw [List.range_succ, List.foldlM_append, h1]
        simp only [Option.bind_eq_bind, Option.bind_some, List.foldlM_cons, h.get (show k < n by omega), List.foldlM_nil, if_pos hlt]
        rfl
      · by_cases e : t = k
        · subst e
          rw [List.getElem?_set_self hlt]
        · rw [List.getElem?_set_ne (fun c => e (h.inj (by omega) (by omega) c.symm)), h3 t (by omega)]
  obtain ⟨q, h1, h2, h3⟩ := aux n le_rfl
  have hinv : ∀ v, v < n → ∃ t < n, permAt p t = v ∧ q[v]? = some t := by
    intro v hv
    obtain ⟨t, ht, e⟩ := h.surj hv
    exact ⟨t, ht, e, by rw [← e]; exact h3 t ht⟩
  refine ⟨q, h1, ⟨h2, ?_, ?_⟩, fun t ht => by unfold permAt at *; rw [h3 t ht]; rfl⟩
  · rw [List.nodup_iff_injective_getElem]
    intro i j hij
    obtain ⟨s, hs, e1, e2⟩ := hinv i (by have := i.2; omega)
    obtain ⟨t, ht, e3, e4⟩ := hinv j (by have := j.2; omega)
    have hij : q[i.1] = q[j.1] := hij
    rw [List.getElem?_eq_getElem i.2, Option.some.injEq] at e2
    rw [List.getElem?_eq_getElem j.2, Option.some.injEq] at e4
    have : s = t := by rw [← e2, ← e4, hij]
    subst this
    exact Fin.ext (e1.symm.trans e3)
  · intro v hv
    obtain ⟨i, hi, e⟩ := List.mem_iff_getElem.mp hv
    obtain ⟨t, ht, -, e2⟩ := hinv i (by omega)
    rw [List.getElem?_eq_getElem hi, Option.some.injEq, e] at e2
    rw [e2]; exact ht

end

/-- The second connectivity is the first one with trees renumbered by `σ`. -/
structure Spec.Renumbered (σ : ℕ → ℕ) (conn conn' : TreeConn) : Prop where
  trees : conn'.faces.numTrees = conn.faces.numTrees
  corners : conn'.corners.numCorners = conn.corners.numCorners
  range : ∀ t, t < conn.faces.numTrees → σ t < conn.faces.numTrees
  inj : ∀ s t, s < conn.faces.numTrees → t < conn.faces.numTrees → σ s = σ t → s = t
  face : ∀ t f t' nf o, t < conn.faces.numTrees → f < 4 → t' < conn.faces.numTrees → nf < 4 →
    (Connected 2 conn'.faces (σ t, f) (σ t', nf) o ↔ Connected 2 conn.faces (t, f) (t', nf) o)
  entry : conn.corners.numCorners ≠ 0 → ∀ t c, t < conn.faces.numTrees → c < 4 →
    conn'.corners.treeToCorner[4 * σ t + c]? = conn.corners.treeToCorner[4 * t + c]?
  listed : ∀ k t c, t < conn.faces.numTrees → (Listed conn'.corners k (σ t) c ↔ Listed conn.corners k t c)
  vertex : ∀ ttv, conn.ttv = some ttv → ∃ ttv', conn'.ttv = some ttv' ∧ ttv'.length = ttv.length ∧
    ∀ t c, t < conn.faces.numTrees → c < 4 → vertexAt 2 ttv' (σ t) c = vertexAt 2 ttv t c

/-- **C86 (permutation).**  The face tables and corner tables are consistent, each corner of each tree has a vertex, and
`perm` has each number of a tree exactly once.  Then `p4est_connectivity_permute` ends without an access out of bounds, the
tables of the result are consistent, and the result is the connectivity with renumbered trees: tree `t` becomes tree
`perm[t]` if `is_current_to_new` is set, and tree `perm[t]` becomes tree `t` otherwise.

For a connectivity without vertices, which is valid as well, the call fails, see `C86_no_vertices`. -/
theorem C86_permute_partial (mem : List ℕ) (conn : TreeConn) (ttv perm : List ℕ) (isCurrentToNew : Bool)
    (hc : FaceConsistent 2 conn.faces) (hcc : CornerConsistent conn.faces.numTrees conn.corners) (hv : conn.ttv = some ttv)
    (hlen : ttv.length = 4 * conn.faces.numTrees) (hp : perm.Perm (List.range conn.faces.numTrees)) (hm : mem.length = conn.faces.numTrees) :
    ∃ conn' σ, connPermute mem conn perm isCurrentToNew = some conn' ∧
      (∀ t < conn.faces.numTrees, if isCurrentToNew then perm[t]? = some (σ t) else perm[σ t]? = some t) ∧
      Renumbered σ conn conn' ∧ FaceConsistent 2 conn'.faces ∧ CornerConsistent conn.faces.numTrees conn'.corners := by
  set n := conn.faces.numTrees with hn
  have hip := isPerm_of hp
  obtain ⟨q, hq, hqp, hqs⟩ : ∃ q, (if isCurrentToNew then some perm else invertPerm mem perm n) = some q ∧ IsPerm n q ∧
      ∀ t < n, if isCurrentToNew then perm[t]? = some (permAt q t) else perm[permAt q t]? = some t := by
    cases isCurrentToNew with
    | true => exact ⟨perm, rfl, hip, fun t ht => hip.get ht⟩
    | false =>
      obtain ⟨q, h1, h2, h3⟩ := invertPerm_spec hip hm
      refine ⟨q, h1, h2, fun t ht => ?_⟩
      obtain ⟨s, hs, e⟩ := hip.surj ht
      have := h3 s hs
      rw [e] at this
      simp only [Bool.false_eq_true, if_false]
      rw [this, hip.get hs, e]
  have hrange : ∀ v ∈ conn.faces.treeToTree, v < n := by
    intro v hv'
    obtain ⟨i, hi, e⟩ := List.mem_iff_getElem.mp hv'
    have hi' : i < 2 * 2 * n := by rw [← hc.trees]; exact hi
    have e1 : conn.faces.treeToTree[2 * 2 * (i / 4) + i % 4]? = some v := by
      rw [show 2 * 2 * (i / 4) + i % 4 = i by omega, List.getElem?_eq_getElem hi, e]
    have e2 : conn.faces.treeToFace[2 * 2 * (i / 4) + i % 4]? = some (conn.faces.treeToFace[i]'(by rw [hc.faces]; exact hi')) := by
      rw [show 2 * 2 * (i / 4) + i % 4 = i by omega, List.getElem?_eq_getElem]
    exact (hc.range (i / 4) (i % 4) v _ (by omega) (by omega) e1 e2).1
  have hr1 := renameTrees_spec hqp hrange
  rw [hc.trees] at hr1
  have hr2 := renameTrees_spec hqp hcc.tree
  have htt : (conn.faces.treeToTree.map (permAt q)).length = 4 * n := by rw [List.length_map, hc.trees]
  obtain ⟨a1, a2⟩ := permuteRows_spec hqp htt
  obtain ⟨b1, b2⟩ := permuteRows_spec hqp (l := conn.faces.treeToFace) (w := 4) hc.faces
  obtain ⟨v1, v2⟩ := permuteRows_spec hqp (l := ttv) (w := 4) hlen
  have hca := hcc.arrays
  refine ⟨⟨⟨n, permuteRows 4 n q (conn.faces.treeToTree.map (permAt q)), permuteRows 4 n q conn.faces.treeToFace⟩,
    ⟨conn.corners.numCorners, permuteRows 4 n q conn.corners.treeToCorner, conn.corners.cttOffset, conn.corners.cornerToTree.map (permAt q),
      conn.corners.cornerToCorner⟩,
    some (permuteRows 4 n q ttv)⟩, permAt q, ?_, hqs, ?_, ?_, ?_⟩
  · unfold connPermute
    simp only [← hn, hq, hv, hca.trees, Option.bind_eq_bind, Option.bind_some]
    rw [show 4 * n = 2 * 2 * n by ring, hr1, Option.bind_some, hr2]
    rfl
  -- entries
  all_goals
    have hTT : ∀ t f, t < n → f < 4 → (permuteRows 4 n q (conn.faces.treeToTree.map (permAt q)))[4 * permAt q t + f]? =
        (conn.faces.treeToTree[4 * t + f]?).map (permAt q) := by
      intro t f ht hf
      rw [a2 t f ht hf, List.getElem?_map]
    have hTC : conn.corners.numCorners ≠ 0 → ∀ t c, t < n → c < 4 →
        (permuteRows 4 n q conn.corners.treeToCorner)[4 * permAt q t + c]? = conn.corners.treeToCorner[4 * t + c]? := by
      intro h0 t c ht hc'
      exact (permuteRows_spec hqp (l := conn.corners.treeToCorner) (w := 4) (hca.entries h0)).2 t c ht hc'
    have hL : ∀ k t c, t < n → (Listed ⟨conn.corners.numCorners, permuteRows 4 n q conn.corners.treeToCorner, conn.corners.cttOffset,
        conn.corners.cornerToTree.map (permAt q), conn.corners.cornerToCorner⟩ k (permAt q t) c ↔ Listed conn.corners k t c) := by
      intro k t c ht
      unfold Listed
      simp only [List.getElem?_map]
      constructor
      · rintro ⟨a, b, i, h1, h2, h3, h4, h5, h6⟩
        obtain ⟨s, h7, h8⟩ := Option.map_eq_some_iff.mp h5
        have : s = t := hqp.inj (hcc.tree s (List.mem_of_getElem? h7)) ht h8
        subst this
        exact ⟨a, b, i, h1, h2, h3, h4, h7, h6⟩
      · rintro ⟨a, b, i, h1, h2, h3, h4, h5, h6⟩
        exact ⟨a, b, i, h1, h2, h3, h4, by rw [h5]; rfl, h6⟩
  · refine ⟨rfl, rfl, fun t ht => hqp.at_lt ht, fun s t hs ht => hqp.inj hs ht, ?_, hTC, hL, ?_⟩
    · intro t f t' nf o ht hf ht' hnf
      unfold Connected
      simp only
      rw [show 2 * 2 * permAt q t + f = 4 * permAt q t + f by ring, show 2 * 2 * t + f = 4 * t + f by ring, hTT t f ht hf, b2 t f ht hf]
      refine and_congr ?_ Iff.rfl
      constructor
      · intro h
        obtain ⟨s, h1, h2⟩ := Option.map_eq_some_iff.mp h
        rw [h1, hqp.inj (hrange s (List.mem_of_getElem? h1)) ht' h2]
      · intro h; rw [h]; rfl
    · intro ttv' e
      rw [hv, Option.some.injEq] at e
      subst e
      exact ⟨_, rfl, by rw [v1, hlen], fun t c ht hc' => v2 t c ht hc'⟩
  · refine ⟨a1, b1, ?_, ?_, ?_⟩
    · intro t f t' c ht hf h1 h2
      obtain ⟨s, hs, rfl⟩ := hqp.surj ht
      simp only [show 2 * 2 = 4 from rfl] at h1 h2 ⊢
      rw [hTT s f hs hf] at h1
      rw [b2 s f hs hf] at h2
      obtain ⟨u, h3, rfl⟩ := Option.map_eq_some_iff.mp h1
      obtain ⟨g1, g2⟩ := hc.range s f u c hs hf h3 h2
      exact ⟨hqp.at_lt g1, g2⟩
    · intro t f t' nf o ht hf hnf h1 h2
      obtain ⟨s, hs, rfl⟩ := hqp.surj ht
      simp only [show 2 * 2 = 4 from rfl] at h1 h2 ⊢
      rw [hTT s f hs hf] at h1
      rw [b2 s f hs hf] at h2
      obtain ⟨u, h3, rfl⟩ := Option.map_eq_some_iff.mp h1
      obtain ⟨g1, g2⟩ := hc.back s f u nf o hs hf hnf h3 h2
      have hu := (hc.range s f u _ hs hf h3 h2).1
      rw [hTT u nf hu hnf, b2 u nf hu hnf]
      exact ⟨by rw [g1]; rfl, g2⟩
    · intro t f o ht hf h1 h2
      obtain ⟨s, hs, rfl⟩ := hqp.surj ht
      simp only [show 2 * 2 = 4 from rfl] at h1 h2
      rw [hTT s f hs hf] at h1
      rw [b2 s f hs hf] at h2
      obtain ⟨u, h3, h4⟩ := Option.map_eq_some_iff.mp h1
      have : u = s := hqp.inj (hc.range s f u _ hs hf h3 h2).1 hs h4
      subst this
      exact hc.boundary u f o hs hf h3 h2
  · refine ⟨⟨fun h0 => (permuteRows_spec hqp (l := conn.corners.treeToCorner) (w := 4) (hca.entries h0)).1, hca.offsets, by simpa using hca.trees,
      by simpa using hca.corners⟩, hcc.ordered, ?_, hcc.corner, ?_, ?_, ?_⟩
    · intro t ht
      obtain ⟨s, hs, rfl⟩ := List.mem_map.mp ht
      exact hqp.at_lt (hcc.tree s hs)
    · intro h0 t c v ht hc' h1
      obtain ⟨s, hs, rfl⟩ := hqp.surj ht
      simp only at h0 h1
      rw [hTC h0 s c hs hc'] at h1
      rcases hcc.range h0 s c v hs hc' h1 with g | ⟨k, g1, g2, g3⟩
      · exact Or.inl g
      · exact Or.inr ⟨k, g1, g2, (hL k s c hs).mpr g3⟩
    · intro t c k a b i j ht hc' hk h1 h2 h3 h4 h5 h6 h7 h8 h9 h10 h11
      obtain ⟨s, hs, rfl⟩ := hqp.surj ht
      simp only at h1 h2 h3 h8 h9 h10 h11 hk
      rw [hTC (by omega) s c hs hc'] at h1
      rw [List.getElem?_map] at h8 h10
      obtain ⟨u, u1, u2⟩ := Option.map_eq_some_iff.mp h8
      obtain ⟨w, w1, w2⟩ := Option.map_eq_some_iff.mp h10
      have e1 : u = s := hqp.inj (hcc.tree u (List.mem_of_getElem? u1)) hs u2
      have e2 : w = s := hqp.inj (hcc.tree w (List.mem_of_getElem? w1)) hs w2
      subst e1
      rw [e2] at w1
      exact hcc.once u c k a b i j hs hc' hk h1 h2 h3 h4 h5 h6 h7 u1 h9 w1 h11
    · intro t c k t' c' ht hc' hk h1 hl
      obtain ⟨s, hs, rfl⟩ := hqp.surj ht
      simp only at h1 hk ⊢
      rw [hTC (by omega) s c hs hc'] at h1
      have hl' := hl
      obtain ⟨a, b, i, -, -, -, -, h5, -⟩ := hl'
      simp only [List.getElem?_map] at h5
      obtain ⟨u, u1, u2⟩ := Option.map_eq_some_iff.mp h5
      have hu := hcc.tree u (List.mem_of_getElem? u1)
      subst u2
      have hlu := (hL k u c' hu).mp hl
      have hc4 := (hcc.listed hlu).2
      rw [hTC (by omega) u c' hu hc4]
      exact hcc.back s c k u c' hs hc' hk h1 hlu

/-- The four squares around a vertex, connected. -/
def crossTrees : TreeConn :=
  ⟨⟨4, [0, 1, 0, 2, 0, 1, 1, 3, 2, 3, 0, 2, 2, 3, 1, 3], [0, 0, 2, 2, 1, 1, 2, 2, 0, 0, 3, 3, 1, 1, 3, 3]⟩,
    ⟨1, [-1, -1, -1, 0, -1, -1, 0, -1, -1, 0, -1, -1, 0, -1, -1, -1], [0, 4], [0, 1, 2, 3], [3, 2, 1, 0]⟩, some crossVertices⟩

theorem cross_consistent : FaceConsistent 2 crossTrees.faces := consistent_of rfl rfl (by decide +kernel)

theorem cross_corners : CornerConsistent 4 crossTrees.corners :=
  (C59_corner_checks_partial crossTrees.faces cross_consistent (by decide) _ ⟨fun _ => rfl, rfl, rfl, rfl⟩).1.mp (by decide +kernel)

/-- The four squares meet the hypotheses with a cyclic permutation of three trees, and permuting with the same list in the
other direction restores them. -/
example : FaceConsistent 2 crossTrees.faces ∧ CornerConsistent crossTrees.faces.numTrees crossTrees.corners ∧
    crossTrees.ttv = some crossVertices ∧ crossVertices.length = 4 * crossTrees.faces.numTrees ∧
    [2, 0, 1, 3].Perm (List.range crossTrees.faces.numTrees) ∧
    ∃ conn', connPermute [9, 9, 9, 9] crossTrees [2, 0, 1, 3] true = some conn' ∧ conn' ≠ crossTrees ∧
      conn'.faces.treeToTree = [2, 0, 0, 3, 1, 3, 2, 1, 2, 0, 2, 1, 1, 3, 0, 3] ∧
      connPermute [9, 9, 9, 9] conn' [2, 0, 1, 3] false = some crossTrees :=
  ⟨cross_consistent, cross_corners, rfl, rfl, by decide +kernel, ⟨_, rfl, by decide +kernel, by decide +kernel, by decide +kernel⟩⟩

/-- **C86 (no vertices).**  A connectivity without vertices is valid.  With a permutation that moves a tree,
`p4est_connectivity_permute` accesses the missing array `tree_to_vertex`. -/
theorem C86_no_vertices : ∃ conn : TreeConn, FaceConsistent 2 conn.faces ∧ CornerConsistent conn.faces.numTrees conn.corners ∧
    ∃ perm : List ℕ, perm.Perm (List.range conn.faces.numTrees) ∧ ∀ mem, connPermute mem conn perm true = none :=
  ⟨{ crossTrees with ttv := none }, cross_consistent, cross_corners, [2, 0, 1, 3], by decide +kernel, fun _ => rfl⟩

/-- **C86 (reduce).**  `p4est_connectivity_reduce` keeps the faces and vertices and removes the corners: the result passes the
corner checks of `p4est_connectivity_is_valid`, and no corner of it has neighbors beyond those across faces. -/
theorem C86_reduce (conn : TreeConn) (hc : FaceConsistent 2 conn.faces) (h1 : 0 < conn.faces.numTrees) :
    (connReduce conn).faces = conn.faces ∧ (connReduce conn).ttv = conn.ttv ∧
    CornerConsistent conn.faces.numTrees (connReduce conn).corners ∧
    cornersCheck conn.faces (connReduce conn).corners = some true ∧
    ∀ t c, findCornerTransform conn.faces (connReduce conn).corners t c = some [] := by
  have hcc : CornerConsistent conn.faces.numTrees (connReduce conn).corners := by
    refine ⟨⟨fun h => absurd rfl h, rfl, rfl, rfl⟩, ?_, by simp [connReduce], by simp [connReduce], fun h => absurd rfl h, ?_, ?_⟩
    · intro k a b _ h2
      simp [connReduce] at h2
    · intro t c k a b i j _ _ hk
      exact absurd hk (Nat.not_lt_zero k)
    · intro t c k t' c' _ _ hk
      exact absurd hk (Nat.not_lt_zero k)
  exact ⟨rfl, rfl, hcc, (C59_corner_checks_partial _ hc h1 _ hcc.arrays).1.mpr hcc, fun t c => rfl⟩

example : FaceConsistent 2 crossTrees.faces ∧ 0 < crossTrees.faces.numTrees ∧ (connReduce crossTrees).corners ≠ crossTrees.corners :=
  ⟨cross_consistent, by decide, by decide⟩

end P4est
