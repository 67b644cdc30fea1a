import Verif.Lemmas.MeshNext
import Verif.Props.Mesh

/-! # C73: the iterator over the neighbors in the mesh -/

namespace P4est
open Spec

variable {d : ℕ}

/-- **C73.**  Take leaf number `n` in tree `t`.  `p4est_mesh_face_neighbor_init2` and repeated calls of `p4est_mesh_face_neighbor_next` until it
returns `NULL` show the neighbors face by face, `part f` for face `f`.  The leaves in `part f` are, each one once, the leaves of the
forest that have a common part of a face with face `f` of the leaf, and only the leaf itself if the face is at the boundary of the domain.  For each
of them `nrank` is its owner, `nquad` is its number in its tree if it is local and its number in the ghost layer if not, and `nface` is the
entry of `quad_to_face` that `FaceEntry` describes.

Partial: the rank may not have one single leaf that is of the smallest size; see `C70_single_cell_unset`. -/
theorem C73_face_neighbors_partial (hd : d = 2 ∨ d = 3) (conn : FaceConn) (hconn : FaceConsistent d conn) (trees : List (List (Quad d)))
    (hn : conn.numTrees = trees.length) (P : ℕ) (leaves : ℕ → List (ℕ × Quad d)) (h : Distributed trees P leaves) (p : ℕ) (hp : p < P)
    (hone : ∀ x, leaves p = [x] → x.2.level ≠ 29)
    (rt : RankTrees (Quad d)) (hh : Holds trees.length (leaves p) rt) (g : GhostLayer d) (hg : MeshGhosts conn trees P leaves p g)
    (hb : MeshBalanced conn trees) (treeIndex levelLists : Bool) (t n : ℕ) (q : Quad d) (hq : (rt.trees.getD t [])[n]? = some q) :
    ∃ (m : Mesh) (part : ℕ → List (NextResult d)),
      meshNew conn (globalPartition leaves P trees.length) p rt g treeIndex levelLists = some m ∧
      faceNeighbors d p rt g m (2 * d * 2 ^ (d - 1) + 1) (faceNeighborInit rt t n) = some ((List.range (2 * d)).flatMap part) ∧
      ∀ f < 2 * d, ((part f).map NextResult.quad).Nodup ∧
        (∀ y, (∃ r ∈ part f, r.quad = y) ↔
          (y ∈ forestLeaves trees ∧ ∃ f' < 2 * d, FacesMeet conn f f' (t, q) y) ∨ (y = (t, q) ∧ AtBoundary conn (t, q) f)) ∧
        ∀ r ∈ part f, r.nrank < P ∧ r.quad ∈ leaves r.nrank ∧
          (r.nrank = p → (rt.trees.getD r.quad.1 [])[r.nquad]? = some r.quad.2) ∧
          (r.nrank ≠ p → (ghostArg (some g))[r.nquad]? = some r.quad) ∧
          ∃ (j : ℕ) (k : ℤ), (leaves p)[j]? = some (t, q) ∧ FaceEntry conn (leaves p ++ ghostArg (some g)) m.quadToHalf j (t, q) f k r.nface := by
  obtain ⟨m, m1, m2⟩ := mesh_built hd hconn hn h hp hone hh hg hb treeIndex levelLists
  obtain ⟨c1, -, -, c2⟩ := C71_ghost_owners hd conn hconn trees hn P leaves h p hp rt hh g hg hb treeIndex levelLists m m1
  obtain ⟨c3, -⟩ := C72_trees_levels hd conn hconn trees hn P leaves h p hp rt hh g hg hb treeIndex levelLists m m1
  have W := rank_world hn h hp hh hb hg.array.ok
  have hnd : (leaves p).Nodup := h.leaves_nodup (by omega) hp
  have htree : m.quadToTree = none ∨ m.quadToTree = some ((leaves p).map fun x => some x.1) := by
    rw [c3]
    cases treeIndex with
    | false => exact Or.inl rfl
    | true => exact Or.inr rfl
  set j := quadrantsOffset rt t + n with hj
  have hjx : (leaves p)[j]? = some (t, q) := by
    have := tagFrom_index rt.trees 0 t n q hq
    rw [Nat.zero_add] at this
    rw [← hh.split]
    exact this
  set L := leaves p ++ ghostArg (some g) with hL
  have hjL : L[j]? = some (t, q) := by
    rw [hL, List.getElem?_append_left (List.getElem?_eq_some_iff.mp hjx).1, hjx]
  have hxf : (t, q) ∈ forestLeaves trees := (h.sublist hp).subset (List.mem_of_getElem? hjx)
  have htlt : t < trees.length := by
    have hmem : q ∈ trees.getD t [] := mem_forest_iff.mp hxf
    by_contra hc
    rw [List.getD_eq_getElem?_getD, List.getElem?_eq_none (by omega)] at hmem
    cases hmem
  have hLf : ∀ y ∈ L, y ∈ forestLeaves trees := by
    intro y hy
    rcases List.mem_append.mp hy with hy | hy
    · exact (h.sublist hp).subset hy
    · exact hg.array.ok.order.subset hy
  have key : ∀ f, ∃ part : List (NextResult d), f < 2 * d → ∃ (a : ℕ) (v : ℤ), m.quadToQuad[2 * d * j + f]? = some (a : ℤ) ∧
      m.quadToFace[2 * d * j + f]? = some v ∧
      (entryNumbers m.quadToHalf a v).mapM (fun i => nextQuad p rt g m t i v) = some part ∧
      (v < 0 → a < m.quadToHalf.length ∧ (entryNumbers m.quadToHalf a v).length = 2 ^ (d - 1)) ∧
      FaceEntry conn L m.quadToHalf j (t, q) f a v := by
    intro f
    by_cases hf : f < 2 * d
    · obtain ⟨a, v, e1, e2, e3⟩ := m2.filled j (t, q) hjx f hf ⟨List.mem_of_getElem? hjx, hf⟩
      obtain ⟨a, rfl⟩ : ∃ b : ℕ, a = b := by
        cases e3 with
        | outside _ _ _ h1 _ => exact ⟨_, h1⟩
        | same _ _ _ _ _ _ h1 => exact ⟨_, h1⟩
        | double _ _ _ _ _ _ _ _ _ h1 => exact ⟨_, h1⟩
        | half _ _ _ _ _ _ _ h1 => exact ⟨_, h1⟩
      obtain ⟨t1, t2, t3⟩ := entry_tells hd hconn (fun y hy => W.valid y.1 y.2 hy) W.disj hLf hjL (by rw [hn]; exact htlt) hf e3
      obtain ⟨part, hpart⟩ := mapM_exists (l := entryNumbers m.quadToHalf a v) (w := fun i => nextQuad p rt g m t i v) (fun i hi => by
        obtain ⟨r, hr, -⟩ := nextQuad_spec hh hnd c1 htree hp rfl c2 (List.getElem?_eq_getElem (t1 i hi)) htlt v
        exact ⟨r, hr⟩)
      refine ⟨part, fun _ => ⟨a, v, e1, e2, hpart, fun hv => ?_, e3⟩⟩
      have hpow : (0 : ℤ) < 2 ^ (d - 1) := by positivity
      cases e3 with
      | outside _ _ _ _ h2 => omega
      | same _ _ g o hg _ _ _ _ _ h2 => exact absurd hv (not_lt.mpr (by rw [h2]; positivity))
      | double _ _ g o hh' k _ _ _ _ _ _ _ _ h2 => exact absurd hv (not_lt.mpr (by rw [h2]; positivity))
      | half n' _ ns _ _ _ _ h1 h2 h3 _ _ _ =>
        obtain rfl : a = n' := by exact_mod_cast h1
        refine ⟨(List.getElem?_eq_some_iff.mp h2).1, ?_⟩
        unfold entryNumbers
        rw [if_neg (by omega), Int.toNat_natCast, List.getD_eq_getElem?_getD, h2]
        exact h3
    · exact ⟨[], fun hc => absurd hc hf⟩
  choose part hpart using key
  refine ⟨m, part, m1, ?_, fun f hf => ?_⟩
  · have := faceNeighbors_run (rank := p) (rt := rt) (g := g) (m := m) (t := t) (code := 2 * d * j) (part := part) (fun f hf => by
      obtain ⟨a, v, e1, e2, e3, e4, -⟩ := hpart f hf
      exact ⟨a, v, e1, e2, e3, e4⟩) (2 * d) le_rfl
    rw [Nat.sub_self, ← List.range_eq_range'] at this
    exact this
  · obtain ⟨a, v, e1, e2, e3, e4, e5⟩ := hpart f hf
    obtain ⟨t1, t2, t3⟩ := entry_tells hd hconn (fun y hy => W.valid y.1 y.2 hy) W.disj hLf hjL (by rw [hn]; exact htlt) hf e5
    have hspec : ∀ i ∈ entryNumbers m.quadToHalf a v, ∃ r, nextQuad p rt g m t i v = some r ∧ L[i]? = some r.quad ∧ r.nface = v ∧ r.nrank < P ∧
        r.quad ∈ leaves r.nrank ∧ (r.nrank = p → (rt.trees.getD r.quad.1 [])[r.nquad]? = some r.quad.2) ∧
        (r.nrank ≠ p → (ghostArg (some g))[r.nquad]? = some r.quad) := by
      intro i hi
      obtain ⟨r, r1, r2, r3, r4, r5, r6, r7⟩ := nextQuad_spec hh hnd c1 htree hp rfl c2 (List.getElem?_eq_getElem (t1 i hi)) htlt v
      rw [← r2] at r5 r6 r7
      exact ⟨r, r1, by rw [List.getElem?_eq_getElem (t1 i hi), r2], r3, r4, r5, r6, r7⟩
    have hmap : (part f).map (fun r => some r.quad) = (entryNumbers m.quadToHalf a v).map fun i => L[i]? := by
      refine List.ext_getElem? fun k => ?_
      rw [List.getElem?_map, List.getElem?_map]
      cases hk : (entryNumbers m.quadToHalf a v)[k]? with
      | none =>
        have := mapM_length e3
        rw [List.getElem?_eq_none_iff] at hk
        rw [List.getElem?_eq_none (by omega)]
        rfl
      | some i =>
        obtain ⟨r, k1, k2⟩ := mapM_drop e3 hk
        obtain ⟨r', r1, r2, -⟩ := hspec i (List.mem_of_getElem? hk)
        rw [r1] at k1
        obtain rfl := Option.some.inj k1
        rw [k2, Option.map_some, Option.map_some, r2]
    refine ⟨?_, fun y => ?_, fun r hr => ?_⟩
    · rw [← hmap] at t2
      have : ((part f).map NextResult.quad).map some = (part f).map fun r => some r.quad := by rw [List.map_map]; rfl
      rw [← this] at t2
      exact t2.of_map _
    · rw [← t3 y]
      have hL1 : (∃ r ∈ part f, r.quad = y) ↔ some y ∈ (part f).map fun r => some r.quad := by
        rw [List.mem_map]
        simp only [Option.some.injEq]
      rw [hL1, hmap, List.mem_map]
    · obtain ⟨k, hk⟩ := List.mem_iff_getElem?.mp hr
      have hlen := mapM_length e3
      have hklt := (List.getElem?_eq_some_iff.mp hk).1
      obtain ⟨r', k1, k2⟩ := mapM_drop e3 (List.getElem?_eq_getElem (by omega : k < (entryNumbers m.quadToHalf a v).length))
      rw [hk] at k2
      obtain rfl := Option.some.inj k2
      obtain ⟨r', r1, r2, r3, r4, r5, r6, r7⟩ := hspec _ (List.getElem_mem (by omega : k < (entryNumbers m.quadToHalf a v).length))
      rw [r1] at k1
      obtain rfl := Option.some.inj k1
      exact ⟨r4, r5, r6, r7, j, a, hjx, by rw [r3]; exact e5⟩

/-- The results for the leaf in tree 1 on rank 2 in the example for C70: three faces at the boundary, and a face with a local neighbor and a
ghost, both of half size. -/
example : (meshNew twoSquares (globalPartition twoTreesLeaves 4 2) 2 (twoTreesState 2) twoTreesAll true false).bind (fun m =>
      faceNeighbors 2 2 (twoTreesState 2) twoTreesAll m (2 * 2 * 2 ^ (2 - 1) + 1) (faceNeighborInit (twoTreesState 2) 1 0)) =
    some [⟨(1, root 2), 0, 0, 2⟩, ⟨(1, root 2), 0, 1, 2⟩, ⟨(1, root 2), 0, 2, 2⟩, ⟨(0, child (root 2) 3), 0, -3, 2⟩,
      ⟨(0, child (root 2) 1), 1, -3, 0⟩] := by
  decide +kernel

end P4est
