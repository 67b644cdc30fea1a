import Verif.Lemmas.MeshRest
import Verif.Props.Ghost
import Verif.Spec.Mesh

/-! # C70, C71, C72: the mesh -/

namespace P4est
open Spec

variable {d : ℕ}

/-! ### The ghosts -/

/-- **C70**, the ghosts: those that `p4est_ghost_new` with `P4EST_CONNECT_FACE` makes serve for the mesh.

Partial: no rank may have one single leaf that is of the smallest size; see `C57_ghost_single_cell_waits`. -/
theorem C70_ghost_new_serves_partial (hd : d = 2 ∨ d = 3) (conn : FaceConn) (hconn : FaceConsistent d conn) (trees : List (List (Quad d)))
    (hn : conn.numTrees = trees.length) (P : ℕ) (leaves : ℕ → List (ℕ × Quad d)) (h : Distributed trees P leaves)
    (hone : ∀ p < P, ∀ x, leaves p = [x] → x.2.level ≠ 29) (mem : Fin d → ℤ) :
    ∃ gs : List (GhostLayer d), ghostNewFace mem conn P leaves = some gs ∧ ∀ p < P, ∃ g, gs[p]? = some g ∧ MeshGhosts conn trees P leaves p g := by
  obtain ⟨gs, g1, -, g2⟩ := C57_ghost_face_partial hd conn hconn trees hn P leaves h hone mem
  refine ⟨gs, g1, fun p hp => ?_⟩
  obtain ⟨g, k1, k2, k3, k4, -⟩ := g2 p hp
  rw [hn] at k4
  refine ⟨g, k1, ghostArray_of_ghosts (by omega) h hp k2 k4, fun x hx y hy hs => ?_, _, k3, fun r hr z hz => ?_⟩
  · by_cases hyp : y ∈ leaves p
    · exact Or.inl hyp
    · right
      obtain ⟨r, hr, hyr⟩ : ∃ r < P, y ∈ leaves r := by
        rw [← h.split, List.mem_flatMap] at hy
        obtain ⟨r, hr, hyr⟩ := hy
        exact ⟨r, List.mem_range.mp hr, hyr⟩
      have hxt : x.1 < conn.numTrees := by
        rw [hn]
        have hmem : x.2 ∈ trees.getD x.1 [] := mem_forest_iff.mp ((h.sublist hp).subset hx)
        by_contra hc
        rw [List.getD_eq_getElem?_getD, List.getElem?_eq_none (by omega)] at hmem
        cases hmem
      have hs' : ShareFace conn y x := by
        obtain ⟨a, ha, b, hb, hab⟩ := hs
        exact ⟨b, hb, a, ha, sharesFacet_symm hd conn hconn hxt hab⟩
      obtain ⟨i, hi⟩ := List.mem_iff_getElem?.mp hyr
      show y ∈ g.ghosts.map Prod.fst
      rw [List.mem_map]
      refine ⟨(y, i), ?_, rfl⟩
      rw [k2]
      unfold ghostsOf
      rw [List.mem_flatMap]
      refine ⟨r, List.mem_range.mpr hr, ?_⟩
      unfold seenBy
      rw [List.mem_filter]
      refine ⟨List.mk_mem_zipIdx_iff_getElem?.mpr hi, ?_⟩
      simp only [decide_eq_true_eq]
      exact ⟨fun e => hyp (e ▸ hyr), x, hx, hs'⟩
  · unfold seenBy at hz
    have := (List.mem_filter.mp hz).1
    exact List.fst_mem_of_mem_zipIdx this

/-! ### C70 -/

theorem meshInit_spec {conn : FaceConn} {trees : List (List (Quad d))} {P : ℕ} {leaves : ℕ → List (ℕ × Quad d)} {p : ℕ}
    {rt : RankTrees (Quad d)} (hh : Holds trees.length (leaves p) rt) {g : GhostLayer d} (hg : MeshGhosts conn trees P leaves p g)
    (treeIndex levelLists : Bool) :
    ∃ m, meshInit rt g treeIndex levelLists = some m ∧ m.localNum = (leaves p).length ∧ m.ghostNum = g.ghosts.length ∧
      (m.ghostToProc.length = g.ghosts.length ∧
        ∀ k s : ℕ, m.ghostToProc[k]? = some s → s < P ∧ ∃ x, g.ghosts[k]? = some x ∧ x.1 ∈ leaves s) ∧
      m.quadToTree = treeColumn treeIndex (leaves p) 0 ∧ m.quadLevel = levelColumn levelLists (leaves p) 0 ∧
      MeshInv conn (leaves p) (ghostArg (some g)) m fun _ => False := by
  obtain ⟨piece, hc, ho⟩ := hg.owners
  obtain ⟨r, a, rs, e1, -, -, -, e5, e6⟩ := ghostProc_spec hc _ le_rfl
  have hlen : (rt.trees.map List.length).sum = (leaves p).length := by
    rw [← hh.split]
    exact (forestLeaves_length rt.trees).symm
  unfold meshInit
  rw [e1]
  simp only [Option.bind_eq_bind, Option.bind_some, hlen]
  refine ⟨_, rfl, rfl, rfl, ⟨e5, fun k s hs => ?_⟩, ?_, ?_, ⟨rfl, List.length_replicate, List.length_replicate, fun _ _ _ _ _ hf => hf.elim, ?_⟩⟩
  · obtain ⟨k1, x, k2, k3⟩ := e6 k s hs
    exact ⟨k1, x, k3, ho s k1 x k2⟩
  · unfold treeColumn
    simp
  · unfold levelColumn
    cases levelLists with
    | false => rfl
    | true => rfl
  · intro j x hx f hf _
    have hj := (List.getElem?_eq_some_iff.mp hx).1
    have hlt : 2 * d * j + f < 2 * d * (leaves p).length := by
      have : 2 * d * (j + 1) ≤ 2 * d * (leaves p).length := Nat.mul_le_mul_left _ hj
      rw [Nat.mul_add, Nat.mul_one] at this
      omega
    exact ⟨List.getElem?_replicate_of_lt hlt, List.getElem?_replicate_of_lt hlt⟩

theorem mesh_world (hd : d = 2 ∨ d = 3) {conn : FaceConn} (hconn : FaceConsistent d conn) {trees : List (List (Quad d))}
    (hn : conn.numTrees = trees.length) {P : ℕ} {leaves : ℕ → List (ℕ × Quad d)} (h : Distributed trees P leaves) {p : ℕ} (hp : p < P)
    {rt : RankTrees (Quad d)} (hh : Holds trees.length (leaves p) rt) {g : GhostLayer d} (hg : MeshGhosts conn trees P leaves p g)
    (hb : MeshBalanced conn trees) : MeshWorld conn (forestLeaves trees) rt (leaves p) g :=
  ⟨hd, hconn, hh.split, h.leaves_nodup (by omega) hp, (rank_world hn h hp hh hb hg.array.ok).cover, hg.all⟩

theorem mesh_built (hd : d = 2 ∨ d = 3) {conn : FaceConn} (hconn : FaceConsistent d conn) {trees : List (List (Quad d))}
    (hn : conn.numTrees = trees.length) {P : ℕ} {leaves : ℕ → List (ℕ × Quad d)} (h : Distributed trees P leaves) {p : ℕ} (hp : p < P)
    (hone : ∀ x, leaves p = [x] → x.2.level ≠ 29)
    {rt : RankTrees (Quad d)} (hh : Holds trees.length (leaves p) rt) {g : GhostLayer d} (hg : MeshGhosts conn trees P leaves p g)
    (hb : MeshBalanced conn trees) (treeIndex levelLists : Bool) :
    ∃ m, meshNew conn (globalPartition leaves P trees.length) p rt g treeIndex levelLists = some m ∧
      MeshInv conn (leaves p) (ghostArg (some g)) m fun e => e.1 ∈ leaves p ∧ e.2 < 2 * d := by
  have W := mesh_world hd hconn hn h hp hh hg hb
  have hga : ∀ g', some g = some g' → GhostArray trees (leaves p) g' := fun g' e => by cases e; exact hg.array
  obtain ⟨m0, i1, i2, i3, i4, i5, i6, i7⟩ := meshInit_spec hh hg treeIndex levelLists
  obtain ⟨calls, c1, c2⟩ := C63_each_face_once_partial hd conn hconn trees hn P leaves h p hp hone rt hh (some g) (treeIndex || levelLists) hga hb
  obtain ⟨calls', c1', c3⟩ := C64_face_calls hd conn hconn trees hn P leaves h p hp rt hh (some g) (treeIndex || levelLists) hga hb
  obtain ⟨calls'', c1'', c4, c5, -⟩ := C62_volumes hd conn hconn trees hn P leaves h p hp rt hh (some g) (treeIndex || levelLists) true
    (fun _ => hga) (fun _ => hb)
  rw [c1, Option.some.injEq] at c1' c1''
  subst c1'
  subst c1''
  have hmem : ∀ e, e ∈ ((leaves p).flatMap fun x => (List.range (2 * d)).map fun f => (x, f)) ↔ e.1 ∈ leaves p ∧ e.2 < 2 * d := by
    intro e
    rw [List.mem_flatMap]
    constructor
    · rintro ⟨x, hx, hf⟩
      obtain ⟨f, hf', rfl⟩ := List.mem_map.mp hf
      exact ⟨hx, List.mem_range.mp hf'⟩
    · rintro ⟨h1, h2⟩
      exact ⟨e.1, h1, List.mem_map.mpr ⟨e.2, List.mem_range.mpr h2, rfl⟩⟩
  have hnd : ((leaves p).flatMap fun x => (List.range (2 * d)).map fun f => (x, f)).Nodup := by
    rw [List.nodup_flatMap]
    refine ⟨fun x _ => List.Nodup.map (fun a b hab => (Prod.ext_iff.mp hab).2) List.nodup_range, ?_⟩
    refine W.nodup.imp ?_
    intro x y hxy
    rw [Function.onFun, List.disjoint_left]
    intro z hz hz'
    obtain ⟨f, -, rfl⟩ := List.mem_map.mp hz
    obtain ⟨g, -, hgz⟩ := List.mem_map.mp hz'
    exact hxy (Prod.ext_iff.mp hgz).1.symm
  have hlev : ∀ x ∈ leaves p, x.2.level < 30 := fun x hx => by
    have := ((rank_world hn h hp hh hb hg.array.ok).valid x.1 x.2 ((h.sublist hp).subset hx)).1
    omega
  obtain ⟨m, r1, r2⟩ := mesh_run W hlev (treeIndex := treeIndex) (levelLists := levelLists) (m0 := m0) calls [] m0
    ⟨i7.congr (by simp), i5, i6, rfl, rfl⟩ c3 (by rw [List.nil_append]; exact (List.Perm.nodup_iff c2).mpr hnd)
    (by
      rw [List.nil_append, c4]
      split
      · exact List.prefix_rfl
      · exact List.nil_prefix)
    (by rw [List.nil_append]; exact c5)
  refine ⟨m, ?_, r2.faces.congr fun e => ?_⟩
  · unfold meshNew
    rw [i1]
    simp only [Option.bind_eq_bind, Option.bind_some]
    rw [c1]
    exact r1
  · rw [List.nil_append, c2.mem_iff, hmem]

/-- **C70.**  `p4est_mesh_new` returns without a failing assertion, and the entries of `quad_to_quad`, `quad_to_face` and `quad_to_half`
for each face of each local leaf tell the neighbors there as the documentation says, see `FaceEntry`.

Partial: the rank may not have one single leaf that is of the smallest size; see `C70_single_cell_unset`. -/
theorem C70_mesh_faces_partial (hd : d = 2 ∨ d = 3) (conn : FaceConn) (hconn : FaceConsistent d conn) (trees : List (List (Quad d)))
    (hn : conn.numTrees = trees.length) (P : ℕ) (leaves : ℕ → List (ℕ × Quad d)) (h : Distributed trees P leaves) (p : ℕ) (hp : p < P)
    (hone : ∀ x, leaves p = [x] → x.2.level ≠ 29)
    (rt : RankTrees (Quad d)) (hh : Holds trees.length (leaves p) rt) (g : GhostLayer d) (hg : MeshGhosts conn trees P leaves p g)
    (hb : MeshBalanced conn trees) (treeIndex levelLists : Bool) :
    ∃ m, meshNew conn (globalPartition leaves P trees.length) p rt g treeIndex levelLists = some m ∧
      m.quadToQuad.length = 2 * d * (leaves p).length ∧ m.quadToFace.length = 2 * d * (leaves p).length ∧
      ∀ j x, (leaves p)[j]? = some x → ∀ f < 2 * d, ∃ q v, m.quadToQuad[2 * d * j + f]? = some q ∧
        m.quadToFace[2 * d * j + f]? = some v ∧ FaceEntry conn (leaves p ++ ghostArg (some g)) m.quadToHalf j x f q v := by
  obtain ⟨m, h1, h2⟩ := mesh_built hd hconn hn h hp hone hh hg hb treeIndex levelLists
  exact ⟨m, h1, h2.qlen, h2.flen, fun j x hx f hf => h2.filled j x hx f hf ⟨List.mem_of_getElem? hx, hf⟩⟩

/-! ### C71 and C72 -/

theorem mesh_rest (hd : d = 2 ∨ d = 3) {conn : FaceConn} (hconn : FaceConsistent d conn) {trees : List (List (Quad d))}
    (hn : conn.numTrees = trees.length) {P : ℕ} {leaves : ℕ → List (ℕ × Quad d)} (h : Distributed trees P leaves) {p : ℕ} (hp : p < P)
    {rt : RankTrees (Quad d)} (hh : Holds trees.length (leaves p) rt) {g : GhostLayer d} (hg : MeshGhosts conn trees P leaves p g)
    (hb : MeshBalanced conn trees) {treeIndex levelLists : Bool} {m : Mesh}
    (hm : meshNew conn (globalPartition leaves P trees.length) p rt g treeIndex levelLists = some m) :
    m.localNum = (leaves p).length ∧ m.ghostNum = g.ghosts.length ∧
      (m.ghostToProc.length = g.ghosts.length ∧
        ∀ k s : ℕ, m.ghostToProc[k]? = some s → s < P ∧ ∃ x, g.ghosts[k]? = some x ∧ x.1 ∈ leaves s) ∧
      m.quadToTree = treeColumn treeIndex (leaves p) (leaves p).length ∧
      m.quadLevel = levelColumn levelLists (leaves p) (leaves p).length := by
  have W := mesh_world hd hconn hn h hp hh hg hb
  have hga : ∀ g', some g = some g' → GhostArray trees (leaves p) g' := fun g' e => by cases e; exact hg.array
  obtain ⟨m0, i1, i2, i3, i4, i5, i6, -⟩ := meshInit_spec hh hg treeIndex levelLists
  obtain ⟨calls, c1, c4, c5, -⟩ := C62_volumes hd conn hconn trees hn P leaves h p hp rt hh (some g) (treeIndex || levelLists) true
    (fun _ => hga) (fun _ => hb)
  have hlev : ∀ x ∈ leaves p, x.2.level < 30 := fun x hx => by
    have := ((rank_world hn h hp hh hb hg.array.ok).valid x.1 x.2 ((h.sublist hp).subset hx)).1
    omega
  unfold meshNew at hm
  rw [i1] at hm
  simp only [Option.bind_eq_bind, Option.bind_some] at hm
  rw [c1] at hm
  simp only [Option.bind_some] at hm
  have I := volumes_run (treeIndex := treeIndex) (levelLists := levelLists) (m0 := m0) hh.split W.nodup hlev calls [] m0 m
    ⟨rfl, i5, i6, rfl, rfl⟩ (by
      rw [List.nil_append, c4]
      split
      · exact List.prefix_rfl
      · exact List.nil_prefix)
    (by rw [List.nil_append]; exact c5) hm
  rw [List.nil_append] at I
  have hK : treeIndex = true ∨ levelLists = true → (calls.filterMap volumeOf).length = (leaves p).length := by
    intro ht
    rw [← List.length_map (f := Prod.fst), c4, if_pos (by simpa using ht)]
  refine ⟨I.num.trans i2, I.ghosts.trans i3, ?_, ?_, ?_⟩
  · rw [I.owner]
    exact i4
  · rw [I.tree]
    cases treeIndex with
    | false => rfl
    | true => rw [hK (Or.inl rfl)]
  · rw [I.level]
    cases levelLists with
    | false => rfl
    | true => rw [hK (Or.inr rfl)]

/-- **C71.**  The mesh counts the local leaves and the ghosts, and `ghost_to_proc` tells for each ghost the rank that owns the leaf. -/
theorem C71_ghost_owners (hd : d = 2 ∨ d = 3) (conn : FaceConn) (hconn : FaceConsistent d conn) (trees : List (List (Quad d)))
    (hn : conn.numTrees = trees.length) (P : ℕ) (leaves : ℕ → List (ℕ × Quad d)) (h : Distributed trees P leaves) (p : ℕ) (hp : p < P)
    (rt : RankTrees (Quad d)) (hh : Holds trees.length (leaves p) rt) (g : GhostLayer d) (hg : MeshGhosts conn trees P leaves p g)
    (hb : MeshBalanced conn trees) (treeIndex levelLists : Bool) (m : Mesh)
    (hm : meshNew conn (globalPartition leaves P trees.length) p rt g treeIndex levelLists = some m) :
    m.localNum = (leaves p).length ∧ m.ghostNum = g.ghosts.length ∧ m.ghostToProc.length = g.ghosts.length ∧
      ∀ (k : ℕ) (x : ℕ × Quad d), (ghostArg (some g))[k]? = some x → ∃ r < P, m.ghostToProc[k]? = some r ∧ r ≠ p ∧ x ∈ leaves r := by
  obtain ⟨h1, h2, ⟨h3, h4⟩, -, -⟩ := mesh_rest hd hconn hn h hp hh hg hb hm
  refine ⟨h1, h2, h3, fun k x hx => ?_⟩
  have hx' : (g.ghosts.map Prod.fst)[k]? = some x := hx
  rw [List.getElem?_map] at hx'
  obtain ⟨y, hy, rfl⟩ := Option.map_eq_some_iff.mp hx'
  have hk := (List.getElem?_eq_some_iff.mp hy).1
  obtain ⟨k1, z, k2, k3⟩ := h4 k _ (List.getElem?_eq_getElem (by omega))
  rw [hy] at k2
  obtain rfl := Option.some.inj k2
  refine ⟨_, k1, List.getElem?_eq_getElem (by omega), fun e => ?_, k3⟩
  rw [e] at k3
  exact hg.array.other y (List.mem_of_getElem? hy) k3

/-- **C72.**  If they are asked for, `quad_to_tree` has the tree of each local leaf, and `quad_level` lists for each level the numbers of
the local leaves of this level in their order. -/
theorem C72_trees_levels (hd : d = 2 ∨ d = 3) (conn : FaceConn) (hconn : FaceConsistent d conn) (trees : List (List (Quad d)))
    (hn : conn.numTrees = trees.length) (P : ℕ) (leaves : ℕ → List (ℕ × Quad d)) (h : Distributed trees P leaves) (p : ℕ) (hp : p < P)
    (rt : RankTrees (Quad d)) (hh : Holds trees.length (leaves p) rt) (g : GhostLayer d) (hg : MeshGhosts conn trees P leaves p g)
    (hb : MeshBalanced conn trees) (treeIndex levelLists : Bool) (m : Mesh)
    (hm : meshNew conn (globalPartition leaves P trees.length) p rt g treeIndex levelLists = some m) :
    m.quadToTree = (if treeIndex then some ((leaves p).map fun x => some x.1) else none) ∧
      m.quadLevel = (if levelLists then some ((List.range 30).map fun v => (List.range (leaves p).length).filter fun j =>
        decide (((leaves p)[j]?).map (fun x => x.2.level) = some v)) else none) := by
  obtain ⟨-, -, -, h1, h2⟩ := mesh_rest hd hconn hn h hp hh hg hb hm
  constructor
  · rw [h1]
    unfold treeColumn
    simp
  · rw [h2]
    rfl

/-! ### Examples -/

/-- The leaves of rank 0 as ghosts of rank 2. -/
def twoTreesAll : GhostLayer 2 :=
  { ghosts := [((0, child (root 2) 0), 0), ((0, child (root 2) 1), 1), ((0, child (root 2) 2), 2)], procOffsets := [0, 3, 3, 3, 3],
    treeOffsets := [0, 3, 3], mirrors := [], mirrorTreeOffsets := [], mirrorProcMirrors := [], mirrorProcOffsets := [] }

theorem twoTreesAll_serves : MeshGhosts twoSquares twoTrees 4 twoTreesLeaves 2 twoTreesAll where
  array := by
    refine ⟨?_, by decide +kernel, by decide, rfl, rfl, ?_⟩
    · rw [← List.isSublist_iff_sublist]
      decide +kernel
    · intro t ht
      have ht : t < 2 := ht
      interval_cases t
      · exact ⟨0, 3, rfl, rfl, by omega, by decide +kernel⟩
      · exact ⟨3, 3, rfl, rfl, by omega, by decide +kernel⟩
  all := by
    intro x _ y hy _
    have h : ∀ y ∈ forestLeaves twoTrees, y ∈ twoTreesLeaves 2 ∨ y ∈ ghostArg (some twoTreesAll) := by decide +kernel
    exact h y hy
  owners := by
    refine ⟨fun r => if r = 0 then twoTreesAll.ghosts else [], ⟨rfl, rfl, rfl, ?_⟩, ?_⟩
    · intro r hr
      interval_cases r
      · exact ⟨0, 3, rfl, rfl, by omega, rfl⟩
      · exact ⟨3, 3, rfl, rfl, by omega, rfl⟩
      · exact ⟨3, 3, rfl, rfl, by omega, rfl⟩
      · exact ⟨3, 3, rfl, rfl, by omega, rfl⟩
    · intro r _ x hx
      dsimp only at hx
      split at hx
      · subst r
        have h : ∀ x ∈ twoTreesAll.ghosts, x.1 ∈ twoTreesLeaves 0 := by decide +kernel
        exact h x hx
      · cases hx

/-- The forest of `twoTrees` on `twoSquares` meets the hypotheses of C70 to C72 on rank 2.  The mesh has a face at the boundary of the
domain, two of the same size, one of double size and one with two leaves of half size. -/
example : FaceConsistent 2 twoSquares ∧ twoSquares.numTrees = twoTrees.length ∧ Distributed twoTrees 4 twoTreesLeaves ∧
    Holds twoTrees.length (twoTreesLeaves 2) (twoTreesState 2) ∧ (∀ p < 4, ∀ x, twoTreesLeaves p = [x] → x.2.level ≠ 29) ∧
    MeshGhosts twoSquares twoTrees 4 twoTreesLeaves 2 twoTreesAll ∧ MeshBalanced twoSquares twoTrees ∧
    meshNew twoSquares (globalPartition twoTreesLeaves 4 2) 2 (twoTreesState 2) twoTreesAll true true = some {
      localNum := 2
      ghostNum := 3
      quadToTree := some [some 0, some 1]
      ghostToProc := [0, 0, 0]
      quadToQuad := [4, 1, 3, 0, 1, 1, 1, 0]
      quadToFace := [1, 15, 3, 3, 0, 1, 2, -3]
      quadToHalf := [[0, 3]]
      quadLevel := some ([[1], [0]] ++ List.replicate 28 []) } := by
  refine ⟨twoSquares_consistent, rfl, twoTrees_distributed, twoTreesState_holds 2 (by norm_num), ?_, twoTreesAll_serves, twoTrees_balanced,
    by decide +kernel⟩
  intro p hp x hx
  have h1 : (twoTreesLeaves p).length = 1 := by rw [hx]; rfl
  interval_cases p <;> exact absurd h1 (by decide)

/-! ### A rank with one leaf of the smallest size -/

/-- All other leaves as ghosts of the rank with one single leaf of the smallest size. -/
def rightGhost : GhostLayer 2 :=
  { ghosts := (rightLeaves 0).zipIdx ++ (rightLeaves 2).zipIdx, procOffsets := [0, 29, 29, 87], treeOffsets := [0, 87],
    mirrors := [], mirrorTreeOffsets := [], mirrorProcMirrors := [], mirrorProcOffsets := [] }

theorem rightGhost_serves : MeshGhosts oneSquare [rightTree] 3 rightLeaves 1 rightGhost where
  array := by
    refine ⟨?_, by decide +kernel, by decide, rfl, by decide +kernel, ?_⟩
    · rw [← List.isSublist_iff_sublist]
      decide +kernel
    · intro t ht
      have ht : t < 1 := ht
      interval_cases t
      exact ⟨0, 87, rfl, rfl, by omega, by decide +kernel⟩
  all := by
    intro x _ y hy _
    have h : ∀ y ∈ forestLeaves [rightTree], y ∈ rightLeaves 1 ∨ y ∈ ghostArg (some rightGhost) := by decide +kernel
    exact h y hy
  owners := by
    refine ⟨fun r => if r = 1 then [] else (rightLeaves r).zipIdx, ⟨rfl, rfl, by decide +kernel, ?_⟩, ?_⟩
    · intro r hr
      interval_cases r
      · exact ⟨0, 29, rfl, rfl, by omega, by decide +kernel⟩
      · exact ⟨29, 29, rfl, rfl, by omega, by decide +kernel⟩
      · exact ⟨29, 87, rfl, rfl, by omega, by decide +kernel⟩
    · intro r _ x hx
      dsimp only at hx
      split at hx
      · cases hx
      · exact List.fst_mem_of_mem_zipIdx hx

/-- **C70**, counterexample: the rank has one leaf of the smallest size, at the right side of the domain.  The mesh is returned with the
entries for this side not set. -/
theorem C70_single_cell_unset : FaceConsistent 2 oneSquare ∧ Distributed [rightTree] 3 rightLeaves ∧ rightLeaves 1 = [(0, rightPath 29)] ∧
    Holds 1 (rightLeaves 1) rightState ∧ MeshGhosts oneSquare [rightTree] 3 rightLeaves 1 rightGhost ∧ MeshBalanced oneSquare [rightTree] ∧
    ∃ m, meshNew oneSquare (globalPartition rightLeaves 3 1) 1 rightState rightGhost true true = some m ∧
      m.quadToQuad = [29, -1, 0, 31] ∧ m.quadToFace = [1, -25, 2, 2] ∧
      ∀ (L : List (ℕ × Quad 2)) half j x q v, m.quadToQuad[1]? = some q → m.quadToFace[1]? = some v → ¬ FaceEntry oneSquare L half j x 1 q v := by
  refine ⟨oneSquare_consistent, rightLeaves_distributed, by decide +kernel, ⟨rfl, by decide +kernel, by decide +kernel, by decide +kernel⟩,
    rightGhost_serves, rightTree_balanced, ?_⟩
  have h : ((meshNew oneSquare (globalPartition rightLeaves 3 1) 1 rightState rightGhost true true).any fun m =>
      decide (m.quadToQuad = [29, -1, 0, 31] ∧ m.quadToFace = [1, -25, 2, 2])) = true := by decide +kernel
  cases e : meshNew oneSquare (globalPartition rightLeaves 3 1) 1 rightState rightGhost true true with
  | none => rw [e] at h; cases h
  | some m =>
    rw [e] at h
    obtain ⟨h1, h2⟩ := of_decide_eq_true h
    refine ⟨m, rfl, h1, h2, fun L half j x q v hq hv hc => ?_⟩
    rw [h1] at hq
    obtain rfl : -1 = q := Option.some.inj hq
    cases hc with
    | outside h1 h2 h3 h4 h5 => omega
    | same n y g o h1 h2 h3 h4 h5 h6 h7 => omega
    | double n y g o h k h1 h2 h3 h4 h5 h6 h7 h8 h9 => omega
    | half n t l g o h1 h2 h3 h4 h5 h6 h7 h8 => omega

end P4est
