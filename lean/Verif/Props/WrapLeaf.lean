import Verif.Props.WrapNewly

/-! # C83: leaves that stay on a process, and the iterator over the local leaves -/

namespace P4est
open Spec

variable {d : ℕ}

/-- C83. A process has the leaves with global numbers from `preMe` to before `preNext` before a partition and from
`postMe` to before `postNext` after it.  The range returned is exactly that of the leaves it has before and after, with
their local numbers after and before the partition. -/
theorem C83_unchanged (preMe preNext postMe postNext : ℤ) (h0 : 0 ≤ preMe) (h1 : preMe ≤ preNext) (h2 : 0 ≤ postMe)
    (h3 : postMe ≤ postNext) :
    ∃ first len old, wrapPartitionUnchanged preMe preNext postMe postNext = some (first, len, old) ∧
      0 ≤ first ∧ 0 ≤ len ∧ 0 ≤ old ∧
      (∀ g, (preMe ≤ g ∧ g < preNext ∧ postMe ≤ g ∧ g < postNext) ↔ ∃ k, 0 ≤ k ∧ k < len ∧ g = postMe + first + k) ∧
      (0 < len → preMe + old = postMe + first) := by
  unfold wrapPartitionUnchanged
  rw [if_pos ⟨h0, h1, h2, h3⟩]
  dsimp only
  by_cases hc : preMe < postNext ∧ postMe < preNext
  · rw [if_pos hc]
    by_cases hle : preMe ≤ postMe
    · rw [if_pos hle, if_pos (by dsimp only; omega)]
      refine ⟨_, _, _, rfl, by omega, ?_, by omega, fun g => ⟨fun h => ⟨g - postMe, ?_⟩, ?_⟩, ?_⟩
      · omega
      · omega
      · rintro ⟨k, k1, k2, rfl⟩; omega
      · omega
    · rw [if_neg hle, if_pos (by dsimp only; omega)]
      refine ⟨_, _, _, rfl, by omega, ?_, by omega, fun g => ⟨fun h => ⟨g - preMe, ?_⟩, ?_⟩, ?_⟩
      · omega
      · omega
      · rintro ⟨k, k1, k2, rfl⟩; omega
      · omega
  · rw [if_neg hc, if_pos (by dsimp only; omega)]
    refine ⟨0, 0, 0, rfl, le_rfl, le_rfl, le_rfl, fun g => ⟨fun h => by omega, ?_⟩, by omega⟩
    rintro ⟨k, k1, k2, -⟩; omega

example : wrapPartitionUnchanged 10 20 15 40 = some (0, 5, 5) := by decide

/-- What the user reads from the iterator: number of the tree, of the leaf in the tree, of the leaf on the process, and
whether it is a mirror. -/
def Spec.leafView (l : WrapLeaf) : ℕ × ℕ × ℤ × Bool := (l.tree, l.quad, l.localQuad, l.isMirror)

/-- All local leaves in order, as the user should see them. -/
def Spec.leafViews (trees : List (List (Quad d) × ℤ)) (mirrors : Option (List ℤ)) : List (ℕ × ℕ × ℤ × Bool) :=
  trees.zipIdx.flatMap fun ti => (List.range ti.1.1.length).map fun j : ℕ =>
    (ti.2, j, ti.1.2 + (j : ℤ), decide (∃ ms, mirrors = some ms ∧ ti.1.2 + (j : ℤ) ∈ ms))

/-- State of the search in the mirrors when the mirrors before local number `g` have been passed. -/
def MirrorAt (mirrors : Option (List ℤ)) (g : ℤ) (l : WrapLeaf) : Prop :=
  match mirrors with
  | none => l.isMirror = false
  | some ms => ∃ A B, ms = A ++ B ∧ (∀ x ∈ A, x < g) ∧ (∀ x ∈ B, g ≤ x) ∧ l.nm + 1 = A.length ∧ l.next = B.head?.getD (-1)

theorem quads_length (t : Tree d Unit) : t.quads.count = (quadsOf t).length := by
  unfold quadsOf; simp [LArr.toList]

theorem leafInfo_run {trees : List (Tree d Unit)} {N : ℤ} {mirrors : Option (List ℤ)}
    (hm : ∀ ms, mirrors = some ms → ms.Pairwise (· < ·) ∧ ∀ x ∈ ms, 0 ≤ x ∧ x < N) {l : WrapLeaf} {t : Tree d Unit}
    (ht : trees[l.tree]? = some t) (hq : l.quad < (quadsOf t).length) (h0 : 0 ≤ t.offset)
    (hs : MirrorAt mirrors (t.offset + l.quad) l) :
    ∃ l', wrapLeafInfo trees N mirrors l = some l' ∧
      leafView l' = (l.tree, l.quad, t.offset + l.quad, decide (∃ ms, mirrors = some ms ∧ t.offset + (l.quad : ℤ) ∈ ms)) ∧
      MirrorAt mirrors (t.offset + l.quad + 1) l' := by
  have hidx : ∃ x, t.quads.index l.quad = some x := by
    unfold LArr.index
    rw [quads_length, if_pos hq]; exact ⟨_, rfl⟩
  obtain ⟨x, hx⟩ := hidx
  unfold wrapLeafInfo
  rw [ht]
  simp only [Option.bind_eq_bind, Option.bind_some, hx]
  cases mirrors with
  | none =>
    refine ⟨_, rfl, ?_, hs⟩
    have : l.isMirror = false := hs
    simp [leafView, this]
  | some ms =>
    obtain ⟨hsort, hrange⟩ := hm ms rfl
    obtain ⟨A, B, hAB, hA, hB, hnm, hnext⟩ := hs
    set g := t.offset + (l.quad : ℤ) with hg
    have hg0 : 0 ≤ g := by omega
    have hview : (∃ ms', some ms = some ms' ∧ g ∈ ms') ↔ g ∈ ms := by simp
    dsimp only
    cases B with
    | nil =>
      have hne : ¬ g = l.next := by rw [hnext]; simp; omega
      rw [if_neg hne]
      refine ⟨_, rfl, ?_, A, [], hAB, fun x hx => by have := hA x hx; omega, by simp, hnm, hnext⟩
      have : g ∉ ms := by
        rw [hAB]; simp only [List.append_nil]
        intro h; have := hA g h; omega
      simp [leafView, this]
    | cons b B =>
      have hb := hB b (by simp)
      have hnext' : l.next = b := hnext
      rw [hAB] at hsort
      have hbB : ∀ y ∈ B, b < y := by
        have := (List.pairwise_append.mp hsort).2.1
        exact (List.pairwise_cons.mp this).1
      by_cases hbg : g = b
      · rw [if_pos (by rw [hnext']; exact hbg)]
        have hmem : g ∈ ms := by rw [hAB, hbg]; simp
        have hA' : ∀ x ∈ A ++ [b], x < g + 1 := by
          intro x hx
          rcases List.mem_append.mp hx with h | h
          · have := hA x h; omega
          · simp at h; omega
        have hB' : ∀ x ∈ B, g + 1 ≤ x := fun x hx => by have := hbB x hx; omega
        cases B with
        | nil =>
          rw [if_neg (by rw [hAB]; simp; omega)]
          refine ⟨_, rfl, by simp [leafView, hmem], A ++ [b], [], by simpa using hAB, hA', hB', ?_, rfl⟩
          simp only [List.length_append, List.length_singleton]; push_cast; omega
        | cons c B =>
          rw [if_pos (by rw [hAB]; simp; omega)]
          have hget : ms[(l.nm + 1 + 1).toNat]? = some c := by
            rw [hAB, show (l.nm + 1 + 1).toNat = A.length + 1 by omega]
            simp
          have hc := hbB c (by simp)
          have hcN := (hrange c (by rw [hAB]; simp)).2
          rw [hget]
          simp only [Option.bind_some]
          rw [if_pos ⟨by omega, hcN⟩]
          refine ⟨_, rfl, by simp [leafView, hmem], A ++ [b], c :: B, by simpa using hAB, hA', hB', ?_, rfl⟩
          simp only [List.length_append, List.length_singleton]; push_cast; omega
      · rw [if_neg (by rw [hnext']; exact hbg)]
        have hmem : g ∉ ms := by
          rw [hAB]
          intro h
          rcases List.mem_append.mp h with h | h
          · have := hA g h; omega
          · rcases List.mem_cons.mp h with h | h
            · exact hbg h
            · have := hbB g h; omega
        refine ⟨_, rfl, by simp [leafView, hmem], A, b :: B, hAB, fun x hx => by have := hA x hx; omega, ?_, hnm, hnext⟩
        intro x hx
        rcases List.mem_cons.mp hx with rfl | hx
        · omega
        · have := hbB x hx; omega

theorem leafLoop_run {trees : List (Tree d Unit)} {N : ℤ} {mirrors : Option (List ℤ)}
    (hm : ∀ ms, mirrors = some ms → ms.Pairwise (· < ·) ∧ ∀ x ∈ ms, 0 ≤ x ∧ x < N) (hne : ∀ t ∈ trees, quadsOf t ≠ []) :
    ∀ (ts pre : List (Tree d Unit)) (t : Tree d Unit), trees = pre ++ t :: ts → OffsetsOk t.offset (t :: ts) → 0 ≤ t.offset →
    N = t.offset + ((t :: ts).map fun t => (quadsOf t).length).sum →
    ∀ (n j : ℕ) (l : WrapLeaf), j + 1 + n = (quadsOf t).length → l.tree = pre.length → l.quad = j →
    MirrorAt mirrors (t.offset + j + 1) l →
    ∃ ls, wrapLeafLoop trees N mirrors (some l) = some (l :: ls) ∧ ls.map leafView =
      ((List.range' (j + 1) n).map fun k : ℕ => (pre.length, k, t.offset + (k : ℤ),
        decide (∃ ms, mirrors = some ms ∧ t.offset + (k : ℤ) ∈ ms))) ++
      ((ts.map fun t => (quadsOf t, t.offset)).zipIdx (pre.length + 1)).flatMap fun ti => (List.range ti.1.1.length).map fun j : ℕ =>
        (ti.2, j, ti.1.2 + (j : ℤ), decide (∃ ms, mirrors = some ms ∧ ti.1.2 + (j : ℤ) ∈ ms)) := by
  intro ts
  induction ts with
  | nil =>
    intro pre t htr hoff h0 hN n
    have hget : trees[pre.length]? = some t := by rw [htr]; simp
    induction n with
    | zero =>
      intro j l hj ht hq hs
      refine ⟨[], ?_, by simp⟩
      have hnx : wrapLeafNext trees N mirrors l = some none := by
        unfold wrapLeafNext
        rw [ht, hget]
        simp only [Option.bind_eq_bind, Option.bind_some]
        rw [quads_length, if_pos (by omega), if_pos (by rw [htr]; simp)]
        cases mirrors with
        | none => rfl
        | some ms =>
          obtain ⟨A, B, hAB, hA, hB, hnm, hnext⟩ := hs
          have hBn : B = [] := by
            cases B with
            | nil => rfl
            | cons b B =>
              have h1 := ((hm ms rfl).2 b (by rw [hAB]; simp)).2
              have h2 := hB b (by simp)
              simp only [List.map_cons, List.map_nil, List.sum_cons, List.sum_nil] at hN
              omega
          subst hBn
          dsimp only
          rw [if_pos ⟨by rw [hnm, hAB]; simp, by rw [hnext]; rfl⟩]
      rw [wrapLeafLoop]
      simp only [Option.bind_eq_bind, hnx, Option.bind_some]
      rw [wrapLeafLoop]
      rfl
    | succ n ih =>
      intro j l hj ht hq hs
      obtain ⟨l', e1, e2, e3⟩ := leafInfo_run (trees := trees) (N := N) hm (l := { l with quad := l.quad + 1 }) (t := t) (by simpa [ht] using hget)
        (by dsimp only; omega) h0 (by
          dsimp only
          rw [hq]
          have : t.offset + ((j + 1 : ℕ) : ℤ) = t.offset + j + 1 := by push_cast; ring
          rw [this]
          cases mirrors <;> exact hs)
      have hl' : l'.tree = pre.length ∧ l'.quad = j + 1 := by
        have h1 := congrArg Prod.fst e2
        have h2 := congrArg (fun x => x.2.1) e2
        simp only [leafView] at h1 h2
        exact ⟨by rw [h1, ht], by rw [h2, hq]⟩
      obtain ⟨ls, k1, k2⟩ := ih (j + 1) l' (by omega) hl'.1 hl'.2 (by
        dsimp only at e3
        rw [hq] at e3
        exact e3)
      refine ⟨l' :: ls, ?_, ?_⟩
      · have hnx : wrapLeafNext trees N mirrors l = some (some l') := by
          unfold wrapLeafNext
          rw [ht, hget]
          simp only [Option.bind_eq_bind, Option.bind_some]
          rw [quads_length, if_neg (by omega)]
          rw [← ht, e1]; rfl
        rw [wrapLeafLoop]
        simp only [Option.bind_eq_bind, hnx, Option.bind_some, k1]
      · rw [List.map_cons, k2, e2, List.range'_succ, List.map_cons]
        dsimp only
        rw [ht, hq]
        rfl
  | cons t2 ts ihts =>
    intro pre t htr hoff h0 hN n
    have hget : trees[pre.length]? = some t := by rw [htr]; simp
    have hget2 : trees[pre.length + 1]? = some t2 := by
      rw [htr, List.getElem?_append_right (by omega)]; simp
    obtain ⟨-, ho2, ho3⟩ := hoff
    induction n with
    | zero =>
      intro j l hj ht hq hs
      have hne2 : 0 < (quadsOf t2).length := List.length_pos_iff.mpr (hne t2 (by rw [htr]; simp))
      obtain ⟨l', e1, e2, e3⟩ := leafInfo_run (trees := trees) (N := N) hm (l := { l with tree := l.tree + 1, quad := 0 }) (t := t2)
        (by simpa [ht] using hget2) (by dsimp only; omega) (by rw [ho2]; omega) (by
          dsimp only
          have : t2.offset + ((0 : ℕ) : ℤ) = t.offset + j + 1 := by rw [ho2]; push_cast; omega
          rw [this]
          cases mirrors <;> exact hs)
      have hl' : l'.tree = (pre ++ [t]).length ∧ l'.quad = 0 := by
        have h1 := congrArg Prod.fst e2
        have h2 := congrArg (fun x => x.2.1) e2
        simp only [leafView] at h1 h2
        exact ⟨by rw [h1, ht]; simp, h2⟩
      obtain ⟨n2, hn2⟩ : ∃ n2, (quadsOf t2).length = 0 + 1 + n2 := ⟨(quadsOf t2).length - 1, by omega⟩
      obtain ⟨ls, k1, k2⟩ := ihts (pre ++ [t]) t2 (by rw [htr]; simp) (by rw [ho2]; exact ⟨ho2, ho3⟩) (by rw [ho2]; omega) (by
          rw [hN, ho2, List.map_cons, List.sum_cons]; push_cast; ring) n2 0 l' hn2.symm hl'.1 hl'.2 e3
      refine ⟨l' :: ls, ?_, ?_⟩
      · have hnx : wrapLeafNext trees N mirrors l = some (some l') := by
          unfold wrapLeafNext
          rw [ht, hget]
          simp only [Option.bind_eq_bind, Option.bind_some]
          rw [quads_length, if_pos (by omega), if_neg (by rw [htr]; simp), ← ht, e1]; rfl
        rw [wrapLeafLoop]
        simp only [Option.bind_eq_bind, hnx, Option.bind_some, k1]
      · rw [List.map_cons, k2, e2, List.map_cons, List.zipIdx_cons, List.flatMap_cons]
        dsimp only
        rw [hn2, ht, List.range_eq_range', show 0 + 1 + n2 = n2 + 1 by omega, List.range'_succ, List.map_cons]
        simp
    | succ n ih =>
      intro j l hj ht hq hs
      obtain ⟨l', e1, e2, e3⟩ := leafInfo_run (trees := trees) (N := N) hm (l := { l with quad := l.quad + 1 }) (t := t) (by simpa [ht] using hget)
        (by dsimp only; omega) h0 (by
          dsimp only
          rw [hq]
          have : t.offset + ((j + 1 : ℕ) : ℤ) = t.offset + j + 1 := by push_cast; ring
          rw [this]
          cases mirrors <;> exact hs)
      have hl' : l'.tree = pre.length ∧ l'.quad = j + 1 := by
        have h1 := congrArg Prod.fst e2
        have h2 := congrArg (fun x => x.2.1) e2
        simp only [leafView] at h1 h2
        exact ⟨by rw [h1, ht], by rw [h2, hq]⟩
      obtain ⟨ls, k1, k2⟩ := ih (j + 1) l' (by omega) hl'.1 hl'.2 (by
        dsimp only at e3
        rw [hq] at e3
        exact e3)
      refine ⟨l' :: ls, ?_, ?_⟩
      · have hnx : wrapLeafNext trees N mirrors l = some (some l') := by
          unfold wrapLeafNext
          rw [ht, hget]
          simp only [Option.bind_eq_bind, Option.bind_some]
          rw [quads_length, if_neg (by omega), ← ht, e1]; rfl
        rw [wrapLeafLoop]
        simp only [Option.bind_eq_bind, hnx, Option.bind_some, k1]
      · rw [List.map_cons, k2, e2, List.range'_succ, List.map_cons]
        dsimp only
        rw [ht, hq]
        rfl

/-- C83. For any local trees (none of them empty) and any mirrors (in order, or not tracked) the loop over the leaves
ends, no assertion fails, and it visits every local leaf exactly once and in order, with the right numbers and the right
answer to whether the leaf is a mirror. -/
theorem C83_leaves (trees : List (Tree d Unit)) (ho : OffsetsOk 0 trees) (hne : ∀ t ∈ trees, quadsOf t ≠ [])
    (mirrors : Option (List ℤ)) (N : ℤ) (hN : N = (trees.map fun t => (quadsOf t).length).sum)
    (hm : ∀ ms, mirrors = some ms → ms.Pairwise (· < ·) ∧ ∀ x ∈ ms, 0 ≤ x ∧ x < N) :
    ∃ first ls, wrapLeafFirst trees N mirrors = some first ∧ wrapLeafLoop trees N mirrors first = some ls ∧
      ls.map leafView = leafViews (trees.map fun t => (quadsOf t, t.offset)) mirrors := by
  cases trees with
  | nil =>
    refine ⟨none, [], ?_, ?_, rfl⟩
    · unfold wrapLeafFirst
      rw [if_pos (by rw [hN]; rfl), if_pos rfl]
    · rw [wrapLeafLoop]
  | cons t ts =>
    have hpos : 0 < (quadsOf t).length := List.length_pos_iff.mpr (hne t (by simp))
    obtain ⟨h1, h2⟩ := ho
    have hN0 : N ≠ 0 := by
      rw [List.map_cons, List.sum_cons] at hN
      omega
    obtain ⟨next, hnx, hat⟩ : ∃ next, wrapLeafFirst (t :: ts) N mirrors =
        (wrapLeafInfo (t :: ts) N mirrors ⟨0, 0, 0, false, -1, next⟩).bind (fun l => some (some l)) ∧
        MirrorAt mirrors (t.offset + ((0 : ℕ) : ℤ)) ⟨0, 0, 0, false, -1, next⟩ := by
      unfold wrapLeafFirst
      rw [if_neg hN0]
      cases mirrors with
      | none => exact ⟨-1, rfl, rfl⟩
      | some ms =>
        cases ms with
        | nil => exact ⟨-1, rfl, [], [], rfl, by simp, by simp, by simp, rfl⟩
        | cons m ms =>
          have := (hm _ rfl).2
          refine ⟨m, (if_pos (this m (by simp))).trans rfl, [], m :: ms, rfl, by simp, fun x hx => ?_, by simp, rfl⟩
          have := (this x hx).1
          rw [h1]; simpa using this
    obtain ⟨l', e1, e2, e3⟩ := leafInfo_run (trees := t :: ts) (N := N) hm (l := ⟨0, 0, 0, false, -1, next⟩) (t := t) rfl hpos
      (by omega) hat
    have hl' : l'.tree = 0 ∧ l'.quad = 0 := by
      have h1 := congrArg Prod.fst e2
      have h2 := congrArg (fun x => x.2.1) e2
      simp only [leafView] at h1 h2
      exact ⟨h1, h2⟩
    obtain ⟨n, hn⟩ : ∃ n, 0 + 1 + n = (quadsOf t).length := ⟨(quadsOf t).length - 1, by omega⟩
    obtain ⟨ls, k1, k2⟩ := leafLoop_run (trees := t :: ts) hm hne ts [] t rfl (by rw [h1]; exact ⟨h1, h2⟩) (by omega)
      (by rw [hN, h1]; simp) n 0 l' hn hl'.1 hl'.2 e3
    refine ⟨some l', l' :: ls, ?_, k1, ?_⟩
    · rw [hnx, e1]; rfl
    · rw [List.map_cons, k2, e2]
      unfold leafViews
      rw [List.map_cons, List.zipIdx_cons, List.flatMap_cons]
      dsimp only
      rw [← hn, List.range_eq_range', show 0 + 1 + n = n + 1 by omega, List.range'_succ, List.map_cons]
      simp

example : OffsetsOk 0 [collideTree] ∧ (∀ t ∈ [collideTree], quadsOf t ≠ []) ∧
    ([3, 7, 27] : List ℤ).Pairwise (· < ·) := by
  refine ⟨collide_legal.offsets, ?_, by decide⟩
  simp only [List.mem_singleton, forall_eq]
  rw [collideTree_quads]
  decide

end P4est
