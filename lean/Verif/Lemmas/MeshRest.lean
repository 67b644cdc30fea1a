import Verif.Lemmas.MeshRun

/-! # What the callback for faces leaves unchanged -/

namespace P4est
open Spec

variable {d : ℕ}

theorem meshPut_rest {m m' : Mesh} {j f : ℕ} {q v : ℤ} (h : meshPut d m j f q v = some m') : m'.rest = m.rest := by
  unfold meshPut at h
  split at h
  · obtain rfl := Option.some.inj h
    rfl
  · cases h

theorem meshWrite_rest {m m' : Mesh} {j f : ℕ} {q v : ℤ} (h : meshWrite d m j f q v = some m') : m'.rest = m.rest := by
  unfold meshWrite at h
  split at h
  · exact meshPut_rest h
  · cases h

theorem ifLocal_rest {m m' : Mesh} {b : Bool} {w : Mesh → Option Mesh} (hw : ∀ m m', w m = some m' → m'.rest = m.rest)
    (h : ifLocal b m w = some m') : m'.rest = m.rest := by
  unfold ifLocal at h
  split at h
  · obtain rfl := Option.some.inj h
    rfl
  · exact hw _ _ h

theorem meshLarge_rest {m m' : Mesh} {o j : ℕ} {s s' : FaceSide d} {jls : List (Option ℕ)} (h : meshLarge m o s s' j jls = some m') :
    m'.rest = m.rest := by
  unfold meshLarge at h
  simp only [Option.bind_eq_bind, Option.bind_eq_some_iff] at h
  obtain ⟨m1, h1, l, -, h2⟩ := h
  obtain rfl := Option.some.inj h2
  exact (meshWrite_rest h1 : m1.rest = m.rest)

theorem meshSmall_rest {m m' : Mesh} {o j k : ℕ} {s s' : FaceSide d} {xs : List (FaceSlot d)} {jls : List (Option ℕ)}
    (h : meshSmall o s s' j xs jls m k = some m') : m'.rest = m.rest := by
  unfold meshSmall at h
  simp only [Option.bind_eq_bind, Option.bind_eq_some_iff] at h
  obtain ⟨pos, -, y, -, h⟩ := h
  split at h
  · obtain rfl := Option.some.inj h
    rfl
  · simp only [Option.bind_eq_some_iff] at h
    obtain ⟨a, -, b, -, h⟩ := h
    exact meshWrite_rest h

theorem foldlM_rest {β : Type} {w : Mesh → β → Option Mesh} (hw : ∀ m x m', w m x = some m' → m'.rest = m.rest) :
    ∀ (l : List β) (m m' : Mesh), l.foldlM w m = some m' → m'.rest = m.rest := by
  intro l
  induction l with
  | nil =>
    intro m m' h
    obtain rfl := Option.some.inj h
    rfl
  | cons x l ih =>
    intro m m' h
    rw [List.foldlM_cons] at h
    simp only [Option.bind_eq_bind, Option.bind_eq_some_iff] at h
    obtain ⟨m1, h1, h2⟩ := h
    exact (ih _ _ h2).trans (hw _ _ _ h1)

theorem meshHang_rest {rt : RankTrees (Quad d)} {m m' : Mesh} {o : ℕ} {s s' : FaceSide d} {x : FaceSlot d} {xs : List (FaceSlot d)}
    (h : meshHang rt m o s s' x xs = some m') : m'.rest = m.rest := by
  unfold meshHang at h
  simp only [Option.bind_eq_bind, Option.bind_eq_some_iff] at h
  obtain ⟨j, -, l, -, m1, h1, h2⟩ := h
  exact (foldlM_rest (fun m x m' h => meshSmall_rest h) _ _ _ h2).trans (ifLocal_rest (fun m m' h => meshLarge_rest h) h1)

theorem meshFace_rest {rt : RankTrees (Quad d)} {m m' : Mesh} {info : FaceInfo d} (h : meshFace rt m info = some m') :
    m'.rest = m.rest := by
  unfold meshFace at h
  split at h
  · unfold meshOutside at h
    split at h
    · split at h
      · simp only [Option.bind_eq_bind, Option.bind_eq_some_iff] at h
        obtain ⟨j, -, h⟩ := h
        exact meshPut_rest h
      · cases h
    · cases h
  · split at h
    · unfold meshSame at h
      split at h
      · cases h
      · simp only [Option.bind_eq_bind, Option.bind_eq_some_iff] at h
        obtain ⟨j, -, j', -, m1, h1, h2⟩ := h
        exact (ifLocal_rest (fun m m' h => meshWrite_rest h) h2).trans (ifLocal_rest (fun m m' h => meshWrite_rest h) h1)
    · exact meshHang_rest h
    · exact meshHang_rest h
    · cases h
  · cases h

/-- The members apart from those for faces after the calls `pre`. -/
structure VolInv (mine : List (ℕ × Quad d)) (treeIndex levelLists : Bool) (m0 : Mesh) (pre : List (IterCall d)) (m : Mesh) : Prop where
  num : m.localNum = m0.localNum
  tree : m.quadToTree = treeColumn treeIndex mine (pre.filterMap volumeOf).length
  level : m.quadLevel = levelColumn levelLists mine (pre.filterMap volumeOf).length
  owner : m.ghostToProc = m0.ghostToProc
  ghosts : m.ghostNum = m0.ghostNum

theorem volumes_run {rt : RankTrees (Quad d)} {mine : List (ℕ × Quad d)} (hsplit : forestLeaves rt.trees = mine) (hnd : mine.Nodup)
    (hlev : ∀ x ∈ mine, x.2.level < 30) {treeIndex levelLists : Bool} {m0 : Mesh} :
    ∀ (post pre : List (IterCall d)) (m m' : Mesh), VolInv mine treeIndex levelLists m0 pre m →
    ((pre ++ post).filterMap volumeOf).map Prod.fst <+: mine →
    (∀ x ∈ (pre ++ post).filterMap volumeOf, (rt.trees.getD x.1.1 [])[x.2]? = some x.1.2) →
    post.foldlM (meshCall rt) m = some m' → VolInv mine treeIndex levelLists m0 (pre ++ post) m' := by
  intro post
  induction post with
  | nil =>
    intro pre m m' I _ _ h
    obtain rfl := Option.some.inj h
    rw [List.append_nil]
    exact I
  | cons c post ih =>
    intro pre m m' I hvol hnum h
    have happ : pre ++ c :: post = (pre ++ [c]) ++ post := by simp
    rw [happ] at hvol hnum ⊢
    rw [List.foldlM_cons] at h
    simp only [Option.bind_eq_bind, Option.bind_eq_some_iff] at h
    obtain ⟨m1, h1, h2⟩ := h
    refine ih (pre ++ [c]) m1 m' ?_ hvol hnum h2
    cases c with
    | face info =>
      have k3 := meshFace_rest h1
      have hv : (pre ++ [IterCall.face info]).filterMap volumeOf = pre.filterMap volumeOf := by
        rw [List.filterMap_append]
        simp [volumeOf]
      unfold Mesh.rest at k3
      simp only [Prod.mk.injEq] at k3
      obtain ⟨k1, k2, k3, k4, k5⟩ := k3
      exact ⟨by rw [k1, I.num], by rw [hv, k3, I.tree], by rw [hv, k5, I.level], by rw [k4, I.owner], by rw [k2, I.ghosts]⟩
    | volume t q n =>
      have hv : (pre ++ [IterCall.volume t q n]).filterMap volumeOf = pre.filterMap volumeOf ++ [((t, q), n)] := by
        rw [List.filterMap_append]
        simp [volumeOf]
      set K := (pre.filterMap volumeOf).length with hK
      have hmine : mine[K]? = some (t, q) := by
        rw [List.filterMap_append, hv, List.map_append, List.map_append] at hvol
        obtain ⟨r, hr⟩ := hvol
        rw [← hr, List.append_assoc, List.append_assoc, List.getElem?_append_right (by simp [hK])]
        simp [hK]
      have hpos : mine[quadrantsOffset rt t + n]? = some (t, q) := by
        have h1 := hnum ((t, q), n) (by rw [List.filterMap_append, hv]; simp)
        rw [← hsplit]
        have := tagFrom_index rt.trees 0 t n q h1
        rw [Nat.zero_add] at this
        exact this
      have hidx : quadrantsOffset rt t + n = K := nodup_index hnd hpos hmine
      unfold meshCall meshVolume at h1
      dsimp only at h1
      rw [hidx, I.tree, ← hK, treeColumn_step treeIndex hmine, I.level, ← hK] at h1
      simp only [Option.bind_eq_bind, Option.bind_some] at h1
      rw [levelColumn_step levelLists hmine (hlev _ (List.mem_of_getElem? hmine))] at h1
      simp only [Option.bind_some, Option.some.injEq] at h1
      subst h1
      refine ⟨I.num, ?_, ?_, I.owner, I.ghosts⟩
      · rw [hv, List.length_append]
        rfl
      · rw [hv, List.length_append]
        rfl

end P4est
