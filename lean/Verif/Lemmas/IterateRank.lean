import Verif.Lemmas.IterateCall
import Verif.Lemmas.GhostNew
import Verif.Lemmas.ForestOps

/-! # The iteration of one rank -/

namespace P4est
open Spec

variable {d : ℕ}

theorem mem_leavesIn {β : Type} {L : List (ℕ × β)} {t : ℕ} {q : β} : q ∈ leavesIn L t ↔ (t, q) ∈ L := by
  unfold leavesIn
  rw [List.mem_map]
  constructor
  · rintro ⟨x, hx, rfl⟩
    obtain ⟨h1, h2⟩ := List.mem_filter.mp hx
    rw [decide_eq_true_eq] at h2
    rw [← h2]
    exact h1
  · intro h
    exact ⟨_, List.mem_filter.mpr ⟨h, by simp⟩, rfl⟩

theorem leavesIn_sublist {β : Type} {L M : List (ℕ × β)} (h : L.Sublist M) (t : ℕ) : (leavesIn L t).Sublist (leavesIn M t) :=
  (h.filter _).map _

theorem tagFrom_range' {β : Type} (f : ℕ → List β) : ∀ (n a : ℕ),
    tagFrom a ((List.range n).map fun i => f (a + i)) = (List.range' a n).flatMap fun t => (f t).map fun q => (t, q) := by
  intro n
  induction n with
  | zero => intro a; rfl
  | succ n ih =>
    intro a
    rw [List.range_succ_eq_map, List.map_cons, List.map_map, tagFrom, List.range'_succ, List.flatMap_cons, ← ih (a + 1)]
    have : ((fun i => f (a + i)) ∘ Nat.succ) = fun i => f (a + 1 + i) := by
      funext i
      simp only [Function.comp, Nat.succ_eq_add_one]
      rw [show a + (i + 1) = a + 1 + i by omega]
    rw [this]
    rfl

/-- The argument for the ghosts, as the search reads it. -/
structure GhostsOk (trees : List (List (Quad d))) (mine gl : List (ℕ × Quad d)) (offsets : List ℕ) : Prop where
  order : gl.Sublist (forestLeaves trees)
  other : ∀ x ∈ gl, x ∉ mine
  cut : ∀ t < trees.length, ∃ a b, offsets[t]? = some a ∧ offsets[t + 1]? = some b ∧ a ≤ b ∧ b ≤ gl.length ∧
    (gl.drop a).take (b - a) = gl.filter fun x => x.1 = t

theorem cut_le {β : Type} {l : List β} {offs : List ℕ} {n : ℕ} {piece : ℕ → List β} (h : CutInto l offs n piece) :
    ∀ i ≤ n, ∀ a, offs[i]? = some a → a ≤ l.length := by
  obtain ⟨h1, h2, h3, h4⟩ := h
  intro i hi
  induction hk : n - i generalizing i with
  | zero =>
    intro a ha
    obtain rfl : i = n := by omega
    rw [h3, Option.some.injEq] at ha
    omega
  | succ k ih =>
    intro a ha
    obtain ⟨a', b, e1, e2, e3, -⟩ := h4 i (by omega)
    have := ih (i + 1) (by omega) (by omega) b e2
    rw [e1, Option.some.injEq] at ha
    omega

theorem ghosts_null (trees : List (List (Quad d))) (mine : List (ℕ × Quad d)) :
    GhostsOk trees mine [] (List.replicate (trees.length + 1) 0) := by
  refine ⟨List.nil_sublist _, by simp, fun t ht => ⟨0, 0, ?_, ?_, le_rfl, by simp, by simp⟩⟩
  · rw [List.getElem?_replicate, if_pos (by omega)]
  · rw [List.getElem?_replicate, if_pos (by omega)]

theorem Spec.GhostArray.ok {trees : List (List (Quad d))} {mine : List (ℕ × Quad d)} {g : GhostLayer d} (h : GhostArray trees mine g) :
    GhostsOk trees mine (g.ghosts.map Prod.fst) g.treeOffsets := by
  refine ⟨h.order, ?_, fun t ht => ?_⟩
  · intro x hx
    obtain ⟨y, hy, rfl⟩ := List.mem_map.mp hx
    exact h.other y hy
  · obtain ⟨a, b, e1, e2, e3, e4⟩ := h.cut.2.2.2 t ht
    refine ⟨a, b, e1, e2, e3, ?_, ?_⟩
    · rw [List.length_map]
      exact cut_le h.cut _ (by omega) b e2
    · rw [← List.map_drop, ← List.map_take, e4, List.filter_map]
      rfl

section Rank

variable {conn : FaceConn} {trees : List (List (Quad d))} {P : ℕ} {leaves : ℕ → List (ℕ × Quad d)} {p : ℕ} {rt : RankTrees (Quad d)}

theorem Spec.Distributed.sublist (h : Distributed trees P leaves) (hp : p < P) : (leaves p).Sublist (forestLeaves trees) := by
  rw [← h.split]
  exact sublist_flatMap (List.mem_range.mpr hp) leaves

theorem Spec.Distributed.tree_get (h : Distributed trees P leaves) {t : ℕ} {q : Quad d} (hq : (t, q) ∈ forestLeaves trees) :
    ∃ l ∈ trees, trees.getD t [] = l ∧ q ∈ l := by
  rw [mem_forest_iff] at hq
  dsimp only at hq
  rw [List.getD_eq_getElem?_getD] at hq ⊢
  cases e : trees[t]? with
  | none => rw [e] at hq; simp at hq
  | some l =>
    rw [e] at hq
    exact ⟨l, List.mem_of_getElem? e, rfl, hq⟩

theorem forest_sorted (h : Distributed trees P leaves) (t : ℕ) : Sorted (leavesIn (forestLeaves trees) t) := by
  rw [leavesIn_forest, List.getD_eq_getElem?_getD]
  cases e : trees[t]? with
  | none => exact List.Pairwise.nil
  | some l => exact (h.complete l (List.mem_of_getElem? e)).linear.sorted

theorem rank_world (hn : conn.numTrees = trees.length) (h : Distributed trees P leaves) (hp : p < P)
    (hh : Holds trees.length (leaves p) rt) (hb : MeshBalanced conn trees) {gl : List (ℕ × Quad d)} {offsets : List ℕ}
    (hg : GhostsOk trees (leaves p) gl offsets) :
    IterWorld conn (fun t q => (t, q) ∈ forestLeaves trees) (fun t => rt.trees.getD t []) (leavesIn gl) where
  valid := by
    intro t q hq
    obtain ⟨l, hl, -, hql⟩ := h.tree_get hq
    exact (h.complete l hl).valid q hql
  disj := by
    intro t q r b hq hr h1 h2
    obtain ⟨l, hl, e, hql⟩ := h.tree_get hq
    obtain ⟨l', hl', e', hrl⟩ := h.tree_get hr
    rw [e] at e'
    subst e'
    exact linear_eq (h.complete l hl).linear hql hrl ⟨b, h1, h2⟩
  cover := by
    intro t b ht hbt
    rw [hn] at ht
    have e : trees[t]? = some trees[t] := List.getElem?_eq_getElem ht
    obtain ⟨q, hq, hqb⟩ := (h.complete _ (List.mem_of_getElem? e)).cover b hbt
    refine ⟨q, ?_, hqb⟩
    rw [mem_forest_iff, List.getD_eq_getElem?_getD, e]
    exact hq
  loc := by
    intro t q hq
    have : (t, q) ∈ forestLeaves rt.trees := mem_forest_iff.mpr hq
    rw [hh.split] at this
    exact (h.sublist hp).subset this
  gho := by
    intro t q hq
    exact hg.order.subset (mem_leavesIn.mp hq)
  apart := by
    intro t q hq hq'
    have : (t, q) ∈ forestLeaves rt.trees := mem_forest_iff.mpr hq
    rw [hh.split] at this
    exact hg.other _ (mem_leavesIn.mp hq') this
  lsort := by
    intro t
    rw [← leavesIn_forest, hh.split]
    exact (forest_sorted h t).sublist (leavesIn_sublist (h.sublist hp) t)
  gsort := by
    intro t
    exact (forest_sorted h t).sublist (leavesIn_sublist hg.order t)
  balance := by
    intro t q t' q' hq hq' _ _ hs
    exact hb _ hq _ hq' hs

theorem rank_arrays (hn : conn.numTrees = trees.length) (hh : Holds trees.length (leaves p) rt) {gl : List (ℕ × Quad d)} {offsets : List ℕ}
    (hg : GhostsOk trees (leaves p) gl offsets) :
    IterArrays conn rt.trees offsets (fun t => rt.trees.getD t []) (leavesIn gl) (gl.map Prod.snd) (fun i => offsets.getD i 0) where
  trees := by
    intro t ht
    rw [hn, ← hh.trees] at ht
    simp [ht]
  window := by
    intro t ht
    rw [hn] at ht
    obtain ⟨a, b, e1, e2, -⟩ := hg.cut t ht
    unfold ghostWindow tierWindow
    simp [e1, e2]
  cut := by
    intro t ht
    rw [hn] at ht
    obtain ⟨a, b, e1, e2, e3, e4, e5⟩ := hg.cut t ht
    simp only [List.getD_eq_getElem?_getD, e1, e2, Option.getD_some]
    refine ⟨e3, by rw [List.length_map]; exact e4, ?_⟩
    rw [← List.map_drop, ← List.map_take, e5]
    rfl

theorem rank_known (hn : conn.numTrees = trees.length) {gl : List (ℕ × Quad d)} {offsets : List ℕ}
    (hg : GhostsOk trees (leaves p) gl offsets) :
    KnownOk conn ⟨fun t => rt.trees.getD t [], gl⟩ (fun t => rt.trees.getD t []) (leavesIn gl) (gl.map Prod.snd)
      (fun i => offsets.getD i 0) where
  loc := fun _ => rfl
  gho := fun t q => mem_leavesIn.symm
  num := by
    intro t ht n h1 h2 q hq
    rw [hn] at ht
    obtain ⟨a, b, e1, e2, e3, e4, e5⟩ := hg.cut t ht
    simp only [List.getD_eq_getElem?_getD, e1, e2, Option.getD_some] at h1 h2
    rw [List.getElem?_map] at hq
    cases e : gl[n]? with
    | none => rw [e] at hq; cases hq
    | some x =>
      rw [e] at hq
      simp only [Option.map_some, Option.some.injEq] at hq
      rw [← hq]
      have hx : x ∈ (gl.drop a).take (b - a) := by
        refine List.mem_of_getElem? (i := n - a) ?_
        rw [List.getElem?_take, if_pos (by omega), List.getElem?_drop, show a + (n - a) = n by omega, e]
      rw [e5] at hx
      have := (List.mem_filter.mp hx).2
      rw [decide_eq_true_eq] at this
      rw [← this]

/-- What the iteration does with the face callback. -/
theorem rank_run (hd : d = 2 ∨ d = 3) (hconn : FaceConsistent d conn) (hn : conn.numTrees = trees.length)
    (h : Distributed trees P leaves) (hp : p < P) (hh : Holds trees.length (leaves p) rt) (hb : MeshBalanced conn trees)
    (hne : leaves p ≠ []) {ghost : Option (GhostLayer d)} (hg : ∀ g, ghost = some g → GhostArray trees (leaves p) g) (v : Bool) :
    ∃ (offsets : List ℕ) (owned : ℕ → ℕ → Bool) (n : ℕ) (parts : List (List (IterCall d))),
      GhostsOk trees (leaves p) (ghostArg ghost) offsets ∧
      iterate conn (globalPartition leaves P trees.length) p rt ghost v true = some parts.flatten ∧
      (∀ x : ℕ × ℕ, owned x.1 x.2 = true → IsFace d conn x ∧ faceTop d conn x = x) ∧
      (∀ x : ℕ × ℕ, owned x.1 x.2 = true → rt.first.toNat ≤ x.1 ∧ x.1 < rt.first.toNat + n) ∧
      rt.first.toNat + n ≤ trees.length ∧ (∀ x ∈ leaves p, rt.first.toNat ≤ x.1 ∧ x.1 < rt.first.toNat + n) ∧
      ((∀ x, leaves p = [x] → x.2.level ≠ 29) → ∀ t, ∀ q ∈ rt.trees.getD t [], ∀ f < 2 * d, OnSide f q (root d) →
        owned (faceTop d conn (t, f)).1 (faceTop d conn (t, f)).2 = true) ∧
      List.Forall₂ (TreeOk conn (fun t => rt.trees.getD t []) (leavesIn (ghostArg ghost)) ((ghostArg ghost).map Prod.snd)
        (fun i => offsets.getD i 0) v owned) (List.range' rt.first.toNat n) parts := by
  obtain ⟨b1, b2, b3⟩ := hh.nonempty hne
  obtain ⟨lq, up, uq, e1, e2, e3, e4⟩ := touch_ends hd h hp hh hne
  obtain ⟨s, k1, k2, k3⟩ := iterBoundaries_spec hconn (first := rt.first.toNat) (by rw [hn]; omega) e1 e2 e3
  set offsets := iterOffsets rt.trees.length ghost with hoff
  have hgo : GhostsOk trees (leaves p) (ghostArg ghost) offsets := by
    cases ghost with
    | none => rw [hoff, hh.trees]; exact ghosts_null _ _
    | some g => exact (hg g rfl).ok
  have hG : iterGhosts ghost = (ghostArg ghost).map Prod.snd := by
    cases ghost with
    | none => rfl
    | some g => unfold ghostArg iterGhosts; rw [List.map_map]; rfl
  have W := rank_world hn h hp hh hb hgo
  have A := rank_arrays hn hh hgo
  have hk := k2.last
  set lastRun : ℤ := if s.lastRun < rt.last then rt.last else s.lastRun with hlr
  have hlr1 : rt.last ≤ lastRun := by rw [hlr]; split <;> omega
  have hlr2 : s.lastRun ≤ lastRun := by rw [hlr]; split <;> omega
  have hlr3 : lastRun < trees.length := by rw [hlr, ← hn]; rw [← hn] at b3; split <;> omega
  have howned : ∀ x : ℕ × ℕ, s.owned x.1 x.2 = true → IsFace d conn x ∧ faceTop d conn x = x := fun x hx =>
    ⟨(k2.owned x hx).1, (k2.owned x hx).2.1⟩
  obtain ⟨parts, p1, p2⟩ := mapM_forall2 (f := iterTree v conn rt ((ghostArg ghost).map Prod.snd) offsets s.owned) (g := id)
    (P := TreeOk conn (fun t => rt.trees.getD t []) (leavesIn (ghostArg ghost)) ((ghostArg ghost).map Prod.snd)
        (fun i => offsets.getD i 0) v s.owned) (List.range' rt.first.toNat (lastRun + 1 - rt.first).toNat) (by
      intro t ht
      rw [List.mem_range'_1] at ht
      refine iterTree_spec hd hconn W A v howned (t := t) (by rw [hn]; omega) ?_
      intro q hq
      have : (t, q) ∈ forestLeaves rt.trees := mem_forest_iff.mpr hq
      rw [hh.split] at this
      exact (hh.bounds this).2)
  rw [List.map_id] at p1
  refine ⟨offsets, s.owned, (lastRun + 1 - rt.first).toNat, parts, hgo, ?_, howned, ?_, by omega, ?_, ?_, p2⟩
  · unfold iterate
    rw [if_neg (by simp; omega)]
    rw [if_neg (by simp), k1, hG]
    simp only [Option.bind_eq_bind, Option.bind_some]
    rw [p1]
    rfl
  · intro x hx
    obtain ⟨-, -, m1, m2⟩ := k2.owned x hx
    omega
  · intro x hx
    have := hh.bounds hx
    omega
  · intro hone t q hq f hf hon
    have : (t, q) ∈ forestLeaves rt.trees := mem_forest_iff.mpr hq
    rw [hh.split] at this
    have hbd := hh.bounds this
    dsimp only at hbd
    exact k3 t (by omega) (by omega) f hf (e4 hone _ this f hf hon)

end Rank

end P4est
