import Verif.Lemmas.MeshStep
import Verif.Props.Iterate

/-! # The mesh after all calls -/

namespace P4est
open Spec

variable {d : ℕ}

section Run

variable {conn : FaceConn} {forest : List (ℕ × Quad d)} {rt : RankTrees (Quad d)} {mine : List (ℕ × Quad d)} {g : GhostLayer d}
  {m : Mesh} {done : (ℕ × Quad d) × ℕ → Prop}

theorem full_local {s : FaceSide d} {x : FaceSlot d} (hs : s.data = .full x) {e : (ℕ × Quad d) × ℕ} (he : e ∈ sideFaces s) :
    x.isGhost = false := by
  unfold sideFaces at he
  rw [hs] at he
  simp only [SideData.slots, List.flatMap_cons, List.flatMap_nil, List.append_nil] at he
  unfold slotFaces at he
  by_contra hc
  have hc : x.isGhost = true := by simpa using hc
  rw [hc] at he
  simp at he

/-- The two sides of a call. -/
theorem step_pair (W : MeshWorld conn forest rt mine g) (I : MeshInv conn mine (ghostArg (some g)) m done) {info : FaceInfo d}
    {s s' : FaceSide d} {a a' : Quad d} (sides : info.sides = [s, s'])
    (j : Joined conn s.face s'.face info.orientation (s.tree, a) (s'.tree, a')) (shows : SideShows (knownBy rt (some g)) s a)
    (shows' : SideShows (knownBy rt (some g)) s' a')
    (leaf : FullLeaf (knownBy rt (some g)) s a ∨ FullLeaf (knownBy rt (some g)) s' a')
    (hsome : ∃ e, e ∈ localFaces (.face info)) (hnd : (localFaces (.face info)).Nodup)
    (hfree : ∀ e ∈ localFaces (.face info), ¬ done e) :
    ∃ m', meshFace rt m info = some m' ∧
      MeshInv conn mine (ghostArg (some g)) m' (fun e => e ∈ localFaces (.face info) ∨ done e) ∧ m'.rest = m.rest := by
  have hlf : localFaces (.face info) = sideFaces s ++ sideFaces s' := by
    show info.sides.flatMap sideFaces = _
    rw [sides]
    simp
  rw [hlf] at hsome hnd hfree ⊢
  unfold meshFace
  rw [sides]
  dsimp only
  unfold SideShows at shows shows'
  cases e : s.data with
  | full x =>
    rw [e] at shows
    cases e' : s'.data with
    | full x' =>
      rw [e'] at shows'
      obtain ⟨el, hel⟩ := hsome
      refine step_same W I e e' j shows shows' ?_ hnd hfree
      rcases List.mem_append.mp hel with h | h
      · exact Or.inl (full_local e h)
      · exact Or.inr (full_local e' h)
    | hanging xs =>
      rw [e'] at shows'
      obtain ⟨h1, h2, h3, h4⟩ := shows'
      have hq : x.quad ≠ none := by
        rcases leaf with ⟨-, x', k1, k2⟩ | ⟨-, x', k1, k2⟩
        · rw [e, SideData.full.injEq] at k1
          rw [k1, k2]
          simp
        · rw [e'] at k1
          cases k1
      obtain ⟨m', k1, k2, k3⟩ := step_hang W I e e' j shows hq h1 h3 h4 (fun el hel => hfree el (List.mem_append.mpr hel))
      refine ⟨m', k1, k2.congr fun el => ?_, k3⟩
      rw [List.mem_append, or_assoc]
  | hanging xs =>
    rw [e] at shows
    obtain ⟨h1, h2, h3, h4⟩ := shows
    rcases leaf with ⟨-, x', k1, k2⟩ | ⟨-, x', e', k2⟩
    · rw [e] at k1
      cases k1
    · rw [e'] at shows' ⊢
      obtain ⟨m', k1, k2, k3⟩ := step_hang W I e' e (j.symm W.dim W.consistent) shows' (by rw [k2]; simp) h1 h3 h4
        (fun el hel => hfree el (List.mem_append.mpr hel.symm))
      refine ⟨m', k1, k2.congr fun el => ?_, k3⟩
      rw [List.mem_append, or_assoc]
      exact or_left_comm

/-- One call for a face. -/
theorem step_call (W : MeshWorld conn forest rt mine g) (I : MeshInv conn mine (ghostArg (some g)) m done) {info : FaceInfo d}
    (ok : FaceCallOk conn (knownBy rt (some g)) info) (hrange : ∀ s ∈ info.sides, s.tree < conn.numTrees ∧ s.face < 2 * d)
    (hsome : ∃ e, e ∈ localFaces (.face info)) (hnd : (localFaces (.face info)).Nodup)
    (hfree : ∀ e ∈ localFaces (.face info), ¬ done e) :
    ∃ m', meshFace rt m info = some m' ∧
      MeshInv conn mine (ghostArg (some g)) m' (fun e => e ∈ localFaces (.face info) ∨ done e) ∧ m'.rest = m.rest := by
  have hd := W.dim
  cases ok with
  | outside s a sides boundary orientation tree face valid at_face shows leaf =>
    have hlf : localFaces (.face info) = sideFaces s := by
      show info.sides.flatMap sideFaces = _
      rw [sides]
      simp
    rw [hlf] at hsome hnd hfree ⊢
    obtain ⟨-, x, hx, -⟩ := leaf
    obtain ⟨el, hel⟩ := hsome
    unfold SideShows at shows
    rw [hx] at shows
    unfold meshFace
    rw [sides]
    exact step_outside W I (hrange s (by rw [sides]; simp)).2 hx boundary orientation tree face at_face shows (full_local hx hel)
  | inside s s' a a' sides boundary orientation tree upper lower same off_face shows shows' leaf =>
    obtain ⟨r1, r2⟩ := hrange s (by rw [sides]; simp)
    obtain ⟨r3, r4⟩ := hrange s' (by rw [sides]; simp)
    refine step_pair W I sides ⟨r2, r4, ?_, r1, r3, same, Or.inl ⟨tree, orientation, off_face⟩⟩ shows shows' leaf hsome hnd hfree
    rw [orientation]
    positivity
  | between s s' a a' sides boundary tree face first same at_face shows shows' leaf =>
    obtain ⟨r1, r2⟩ := hrange s (by rw [sides]; simp)
    obtain ⟨r3, r4⟩ := hrange s' (by rw [sides]; simp)
    refine step_pair W I sides ⟨r2, r4, ?_, r1, r3, same, Or.inr ⟨at_face, tree, face⟩⟩ shows shows' leaf hsome hnd hfree
    have h1 := (W.consistent.range _ _ _ _ r1 r2 tree face).2
    exact Nat.lt_of_mul_lt_mul_left (a := 2 * d) (by omega)

/-! ### The volumes -/

/-- `quad_to_tree` after the first `n` leaves. -/
def treeColumn (on : Bool) (mine : List (ℕ × Quad d)) (n : ℕ) : Option (List (Option ℕ)) :=
  if on then some ((mine.take n).map (fun x => some x.1) ++ List.replicate (mine.length - n) none) else none

/-- `quad_level` after the first `n` leaves. -/
def levelColumn (on : Bool) (mine : List (ℕ × Quad d)) (n : ℕ) : Option (List (List ℕ)) :=
  if on then some ((List.range 30).map fun v => (List.range n).filter fun j => decide ((mine[j]?).map (fun x => x.2.level) = some v))
  else none

theorem treeColumn_step (on : Bool) {n : ℕ} {x : ℕ × Quad d} (hx : mine[n]? = some x) :
    meshTree (treeColumn on mine n) n x.1 = some (treeColumn on mine (n + 1)) := by
  obtain ⟨hn, e⟩ := List.getElem?_eq_some_iff.mp hx
  unfold treeColumn meshTree
  cases on with
  | false => rfl
  | true =>
    have hl : ((mine.take n).map fun x => some x.1).length = n := by rw [List.length_map, List.length_take]; omega
    simp only [if_true]
    rw [if_pos (by rw [List.length_append, hl, List.length_replicate]; omega), List.set_append_right _ _ (by omega), hl, Nat.sub_self]
    obtain ⟨k, hk⟩ : ∃ k, mine.length - n = k + 1 := ⟨mine.length - n - 1, by omega⟩
    rw [hk, List.replicate_succ, List.set_cons_zero, show mine.length - (n + 1) = k by omega, List.take_succ, hx]
    simp

theorem levelColumn_step (on : Bool) {n : ℕ} {x : ℕ × Quad d} (hx : mine[n]? = some x) (hl : x.2.level < 30) :
    meshLevel (levelColumn on mine n) n x.2.level = some (levelColumn on mine (n + 1)) := by
  unfold levelColumn meshLevel
  cases on with
  | false => rfl
  | true =>
    simp only [if_true]
    rw [List.getElem?_map, List.getElem?_range hl]
    simp only [Option.map_some, Option.some.injEq]
    refine List.ext_getElem? fun v => ?_
    by_cases hv : v < 30
    · by_cases hc : x.2.level = v
      · subst hc
        rw [List.getElem?_set_self (by simpa using hl), List.getElem?_map, List.getElem?_range hl, List.range_succ]
        simp [hx, List.filter_append]
      · rw [List.getElem?_set_ne hc, List.getElem?_map, List.getElem?_map, List.getElem?_range hv, List.range_succ]
        simp [hx, hc]
    · rw [List.getElem?_eq_none (by simp; omega), List.getElem?_eq_none (by simp; omega)]

/-- The state after the calls `pre`. -/
structure RunInv (conn : FaceConn) (mine gl : List (ℕ × Quad d)) (treeIndex levelLists : Bool) (m0 : Mesh) (pre : List (IterCall d))
    (m : Mesh) : Prop where
  faces : MeshInv conn mine gl m fun e => e ∈ pre.flatMap localFaces
  tree : m.quadToTree = treeColumn treeIndex mine (pre.filterMap volumeOf).length
  level : m.quadLevel = levelColumn levelLists mine (pre.filterMap volumeOf).length
  owner : m.ghostToProc = m0.ghostToProc
  ghosts : m.ghostNum = m0.ghostNum

theorem MeshInv.same_faces {gl : List (ℕ × Quad d)} {m' : Mesh} (I : MeshInv conn mine gl m done) (h1 : m'.localNum = m.localNum)
    (h2 : m'.quadToQuad = m.quadToQuad) (h3 : m'.quadToFace = m.quadToFace) (h4 : m'.quadToHalf = m.quadToHalf) :
    MeshInv conn mine gl m' done := by
  obtain ⟨i1, i2, i3, i4, i5⟩ := I
  exact ⟨by rw [h1, i1], by rw [h2, i2], by rw [h3, i3], by rw [h2, h3, h4]; exact i4, by rw [h2, h3]; exact i5⟩

/-- All calls. -/
theorem mesh_run (W : MeshWorld conn forest rt mine g) (hlev : ∀ x ∈ mine, x.2.level < 30) {treeIndex levelLists : Bool} {m0 : Mesh} :
    ∀ (post pre : List (IterCall d)) (m : Mesh), RunInv conn mine (ghostArg (some g)) treeIndex levelLists m0 pre m →
    (∀ c, IterCall.face c ∈ post → FaceCallOk conn (knownBy rt (some g)) c ∧ (∃ e, e ∈ localFaces (.face c)) ∧
      ∀ s ∈ c.sides, s.tree < conn.numTrees ∧ s.face < 2 * d) →
    ((pre ++ post).flatMap localFaces).Nodup →
    ((pre ++ post).filterMap volumeOf).map Prod.fst <+: mine →
    (∀ x ∈ (pre ++ post).filterMap volumeOf, (rt.trees.getD x.1.1 [])[x.2]? = some x.1.2) →
    ∃ m', post.foldlM (meshCall rt) m = some m' ∧ RunInv conn mine (ghostArg (some g)) treeIndex levelLists m0 (pre ++ post) m' := by
  intro post
  induction post with
  | nil =>
    intro pre m I _ _ _ _
    exact ⟨m, rfl, by rw [List.append_nil]; exact I⟩
  | cons c post ih =>
    intro pre m I hok hnd hvol hnum
    have happ : pre ++ c :: post = (pre ++ [c]) ++ post := by simp
    rw [happ] at hnd hvol hnum ⊢
    obtain ⟨m1, k1, k2⟩ : ∃ m1, meshCall rt m c = some m1 ∧
        RunInv conn mine (ghostArg (some g)) treeIndex levelLists m0 (pre ++ [c]) m1 := by
      cases c with
      | face info =>
        obtain ⟨o1, o2, o3⟩ := hok info (by simp)
        rw [List.flatMap_append, List.flatMap_append] at hnd
        have hnd' := (List.nodup_append.mp hnd).1
        obtain ⟨n1, n2, n3⟩ := List.nodup_append.mp hnd'
        have hone : [IterCall.face info].flatMap localFaces = localFaces (.face info) := by simp
        rw [hone] at n2 n3
        obtain ⟨m1, k1, k2, k3⟩ := step_call W I.faces o1 o3 o2 n2 fun e he hc => n3 e hc e he rfl
        have hrest : m1.ghostNum = m.ghostNum ∧ m1.quadToTree = m.quadToTree ∧ m1.ghostToProc = m.ghostToProc ∧ m1.quadLevel = m.quadLevel := by
          unfold Mesh.rest at k3
          simp only [Prod.mk.injEq] at k3
          exact k3.2
        have hv : (pre ++ [IterCall.face info]).filterMap volumeOf = pre.filterMap volumeOf := by
          rw [List.filterMap_append]
          simp [volumeOf]
        refine ⟨m1, k1, k2.congr fun e => ?_, ?_, ?_, ?_, ?_⟩
        · rw [List.flatMap_append, List.mem_append, hone, or_comm]
        · rw [hv, hrest.2.1, I.tree]
        · rw [hv, hrest.2.2.2, I.level]
        · rw [hrest.2.2.1, I.owner]
        · rw [hrest.1, I.ghosts]
      | volume t q n =>
        have hv : (pre ++ [IterCall.volume t q n]).filterMap volumeOf = pre.filterMap volumeOf ++ [((t, q), n)] := by
          rw [List.filterMap_append]
          simp [volumeOf]
        have hf : (pre ++ [IterCall.volume t q n]).flatMap localFaces = pre.flatMap localFaces := by
          rw [List.flatMap_append]
          simp [localFaces]
        set K := (pre.filterMap volumeOf).length with hK
        have hmine : mine[K]? = some (t, q) := by
          rw [List.filterMap_append, hv, List.map_append, List.map_append] at hvol
          obtain ⟨r, hr⟩ := hvol
          rw [← hr, List.append_assoc, List.append_assoc, List.getElem?_append_right (by simp [hK])]
          simp [hK]
        have hpos : mine[quadrantsOffset rt t + n]? = some (t, q) := by
          have h1 := hnum ((t, q), n) (by rw [List.filterMap_append, hv]; simp)
          rw [← W.split]
          have := tagFrom_index rt.trees 0 t n q h1
          rw [Nat.zero_add] at this
          exact this
        have hidx : quadrantsOffset rt t + n = K := nodup_index W.nodup hpos hmine
        have h1 := treeColumn_step treeIndex hmine
        have h2 := levelColumn_step levelLists hmine (hlev _ (List.mem_of_getElem? hmine))
        refine ⟨{ m with quadToTree := treeColumn treeIndex mine (K + 1), quadLevel := levelColumn levelLists mine (K + 1) }, ?_, ?_⟩
        · unfold meshCall meshVolume
          dsimp only
          rw [hidx, I.tree, ← hK, h1, I.level, ← hK]
          simp only [Option.bind_eq_bind, Option.bind_some]
          rw [h2]
          rfl
        · refine ⟨?_, ?_, ?_, I.owner, I.ghosts⟩
          · rw [hf]
            exact I.faces.same_faces rfl rfl rfl rfl
          · rw [hv, List.length_append]
            rfl
          · rw [hv, List.length_append]
            rfl
    obtain ⟨m', l1, l2⟩ := ih (pre ++ [c]) m1 k2 (fun c' hc' => hok c' (by simp [hc'])) hnd hvol hnum
    refine ⟨m', ?_, l2⟩
    rw [List.foldlM_cons, k1]
    exact l1

end Run

/-! ### The owners of the ghosts -/

theorem procOf_spec {β : Type} {l : List β} {offs : List ℕ} {P : ℕ} {piece : ℕ → List β} (h : CutInto l offs P piece) {jl : ℕ}
    (hjl : jl < l.length) : ∀ (fuel rank a : ℕ), rank ≤ P → P ≤ rank + fuel → offs[rank]? = some a → a ≤ jl →
    ∃ r b c, procOf offs jl fuel rank = some r ∧ r < P ∧ offs[r]? = some b ∧ offs[r + 1]? = some c ∧ b ≤ jl ∧ jl < c := by
  obtain ⟨-, -, h3, h4⟩ := h
  intro fuel
  induction fuel with
  | zero =>
    intro rank a h1 h2 h5 h6
    exfalso
    obtain rfl : rank = P := by omega
    rw [h3] at h5
    have := Option.some.inj h5
    omega
  | succ fuel ih =>
    intro rank a h1 h2 h5 h6
    have hlt : rank < P := by
      by_contra hc
      obtain rfl : rank = P := by omega
      rw [h3] at h5
      have := Option.some.inj h5
      omega
    obtain ⟨a', b, e1, e2, -, -⟩ := h4 rank hlt
    unfold procOf
    rw [e2]
    simp only [Option.bind_eq_bind, Option.bind_some]
    by_cases c : b ≤ jl
    · rw [if_pos c]
      exact ih (rank + 1) b (by omega) (by omega) e2 c
    · rw [if_neg c]
      exact ⟨rank, a, b, rfl, hlt, h5, e2, h6, by omega⟩

theorem ghostProc_spec {β : Type} {l : List β} {offs : List ℕ} {P : ℕ} {piece : ℕ → List β} (h : CutInto l offs P piece) :
    ∀ n ≤ l.length, ∃ r a rs, (List.range n).foldlM (ghostProc offs) (0, []) = some (r, rs) ∧ r ≤ P ∧ offs[r]? = some a ∧ a ≤ n ∧
      rs.length = n ∧ ∀ k s : ℕ, rs[k]? = some s → s < P ∧ ∃ x ∈ piece s, l[k]? = some x := by
  intro n
  induction n with
  | zero =>
    intro _
    exact ⟨0, 0, [], rfl, by omega, h.2.1, le_rfl, rfl, by simp⟩
  | succ n ih =>
    intro hn
    obtain ⟨r, a, rs, e1, e2, e3, e4, e5, e6⟩ := ih (by omega)
    obtain ⟨r', b, c, k1, k2, k3, k4, k5, k6⟩ := procOf_spec h (jl := n) (by omega) offs.length r a e2 (by rw [h.1]; omega) e3 e4
    refine ⟨r', b, rs ++ [r'], ?_, by omega, k3, by omega, by simp [e5], ?_⟩
    · rw [List.range_succ, List.foldlM_append, e1]
      simp only [Option.bind_eq_bind, Option.bind_some, List.foldlM_cons, List.foldlM_nil]
      unfold ghostProc
      rw [k1]
      rfl
    · intro k s hs
      by_cases hk : k < n
      · rw [List.getElem?_append_left (by omega)] at hs
        exact e6 k s hs
      · obtain rfl : k = n := by
          have := (List.getElem?_eq_some_iff.mp hs).1
          rw [List.length_append, e5] at this
          simp at this
          omega
        rw [List.getElem?_append_right (by omega), e5, Nat.sub_self] at hs
        obtain rfl : r' = s := by simpa using hs
        refine ⟨k2, ?_⟩
        obtain ⟨b', c', m1, m2, -, m3⟩ := h.2.2.2 r' k2
        rw [k3] at m1
        rw [k4] at m2
        obtain rfl := Option.some.inj m1
        obtain rfl := Option.some.inj m2
        refine ⟨l[k], ?_, List.getElem?_eq_getElem (by omega)⟩
        rw [← m3]
        refine List.mem_of_getElem? (i := k - b) ?_
        rw [List.getElem?_take_of_lt (by omega), List.getElem?_drop, show b + (k - b) = k by omega]
        exact List.getElem?_eq_getElem (by omega)

end P4est
