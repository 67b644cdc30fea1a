import Verif.Lemmas.IterateRank
import Verif.Props.Ghost
import Verif.Props.PartitionFamily

/-! # C62 to C66: the iteration over volumes and faces -/

namespace P4est
open Spec

variable {d : ℕ}

/-! ### C62 -/

theorem treeVolumes_fst (Lt : ℕ → List (Quad d)) (t : ℕ) : (treeVolumes Lt t).map Prod.fst = (Lt t).map fun q => (t, q) := by
  unfold treeVolumes
  rw [List.map_map]
  have : (Prod.fst ∘ fun x : Quad d × ℕ => ((t, x.1), x.2)) = (fun q => (t, q)) ∘ Prod.fst := rfl
  rw [this, ← List.map_map, List.zipIdx_map_fst]

theorem mem_treeVolumes {Lt : ℕ → List (Quad d)} {t : ℕ} {x : (ℕ × Quad d) × ℕ} (h : x ∈ treeVolumes Lt t) :
    (Lt x.1.1)[x.2]? = some x.1.2 := by
  obtain ⟨y, hy, rfl⟩ := List.mem_map.mp h
  exact List.mem_zipIdx_iff_getElem?.mp hy

theorem volumes_all {T n : ℕ} {L : List (ℕ × Quad d)} {rt : RankTrees (Quad d)} (hh : Holds T L rt)
    (hr : ∀ x ∈ L, rt.first.toNat ≤ x.1 ∧ x.1 < rt.first.toNat + n) :
    ((List.range' rt.first.toNat n).flatMap (treeVolumes fun t => rt.trees.getD t [])).map Prod.fst = L := by
  rw [List.map_flatMap]
  simp only [treeVolumes_fst]
  rw [← tagFrom_range' (fun t => rt.trees.getD t [])]
  conv_rhs => rw [hh.sorted.eq_tagFrom _ _ hr]
  congr 1
  refine List.map_congr_left fun i _ => ?_
  rw [← hh.split, leavesIn_forest]

/-- **C62.**  `p4est_iterate` calls the volume callback, if it is given, once for each local leaf, in the order of the leaves, with
the number of the leaf in its tree, whether a callback for faces is given or not.  It returns, and no callback is called that is not
given. -/
theorem C62_volumes (hd : d = 2 ∨ d = 3) (conn : FaceConn) (hconn : FaceConsistent d conn) (trees : List (List (Quad d)))
    (hn : conn.numTrees = trees.length) (P : ℕ) (leaves : ℕ → List (ℕ × Quad d)) (h : Distributed trees P leaves) (p : ℕ) (hp : p < P)
    (rt : RankTrees (Quad d)) (hh : Holds trees.length (leaves p) rt) (ghost : Option (GhostLayer d)) (iterVolume iterFace : Bool)
    (hg : iterFace = true → ∀ g, ghost = some g → GhostArray trees (leaves p) g) (hb : iterFace = true → MeshBalanced conn trees) :
    ∃ calls, iterate conn (globalPartition leaves P trees.length) p rt ghost iterVolume iterFace = some calls ∧
      (calls.filterMap volumeOf).map Prod.fst = (if iterVolume then leaves p else []) ∧
      (∀ x ∈ calls.filterMap volumeOf, (rt.trees.getD x.1.1 [])[x.2]? = some x.1.2) ∧
      ∀ c, IterCall.face c ∈ calls → iterFace = true := by
  by_cases hne : leaves p = []
  · have hf : rt.first = -1 := by rw [hne] at hh; exact hh.empty.1
    refine ⟨[], ?_, ?_, by simp, by simp⟩
    · unfold iterate
      rw [if_pos (Or.inl (by omega))]
    · rw [hne]
      simp
  obtain ⟨b1, b2, b3⟩ := hh.nonempty hne
  cases iterFace with
  | true =>
    obtain ⟨offsets, owned, n, parts, -, e, -, -, -, hr, -, hparts⟩ := rank_run hd hconn hn h hp hh (hb rfl) hne (hg rfl) iterVolume
    refine ⟨_, e, ?_, ?_, by simp⟩
    · rw [parts_volumes hparts]
      cases iterVolume with
      | false => simp
      | true => exact volumes_all hh hr
    · intro x hx
      rw [parts_volumes hparts] at hx
      cases iterVolume with
      | false => simp at hx
      | true =>
        obtain ⟨t, -, hx⟩ := List.mem_flatMap.mp hx
        exact mem_treeVolumes hx
  | false =>
    cases iterVolume with
    | false =>
      refine ⟨[], ?_, by simp, by simp, by simp⟩
      unfold iterate
      rw [if_pos (Or.inr ⟨rfl, rfl⟩)]
    | true =>
      obtain ⟨parts, p1, p2⟩ := mapM_forall2 (f := fun t => (rt.trees[t]?).map (volumeSimple t)) (g := id)
        (P := fun t l => l = volumeSimple t (rt.trees.getD t [])) (List.range' rt.first.toNat (rt.last + 1 - rt.first).toNat) (by
          intro t ht
          rw [List.mem_range'_1] at ht
          have : t < rt.trees.length := by rw [hh.trees]; omega
          refine ⟨_, ?_, rfl⟩
          simp [this])
      rw [List.map_id] at p1
      have hvol : parts.flatten = (List.range' rt.first.toNat (rt.last + 1 - rt.first).toNat).flatMap
          fun t => volumeSimple t (rt.trees.getD t []) := by
        clear p1
        generalize List.range' rt.first.toNat (rt.last + 1 - rt.first).toNat = l at p2
        induction p2 with
        | nil => rfl
        | cons h1 h2 ih => rw [List.flatten_cons, List.flatMap_cons, ih, h1]
      have hfm : ∀ t, (volumeSimple t (rt.trees.getD t [])).filterMap volumeOf = treeVolumes (fun t => rt.trees.getD t []) t := by
        intro t
        unfold volumeSimple treeVolumes
        rw [List.filterMap_map]
        exact List.filterMap_eq_map' (f := fun x : Quad d × ℕ => ((t, x.1), x.2)) ▸ rfl
      have hall : parts.flatten.filterMap volumeOf = (List.range' rt.first.toNat (rt.last + 1 - rt.first).toNat).flatMap
          (treeVolumes fun t => rt.trees.getD t []) := by
        rw [hvol, List.filterMap_flatMap]
        simp only [hfm]
      refine ⟨parts.flatten, ?_, ?_, ?_, ?_⟩
      · unfold iterate
        rw [if_neg (by simp; omega), if_pos rfl, p1]
        rfl
      · rw [hall]
        refine volumes_all hh fun x hx => ?_
        have := hh.bounds hx
        omega
      · intro x hx
        rw [hall] at hx
        obtain ⟨t, -, hx⟩ := List.mem_flatMap.mp hx
        exact mem_treeVolumes hx
      · intro c hc
        rw [hvol] at hc
        obtain ⟨t, -, hc⟩ := List.mem_flatMap.mp hc
        obtain ⟨x, -, hx⟩ := List.mem_map.mp hc
        cases hx

/-! ### C63 -/

/-- **C63.**  In the calls of the face callback together, each face of each local leaf is listed exactly once.

Partial: the rank may not have one single leaf that is of the smallest size; see `C63_single_cell_missed`. -/
theorem C63_each_face_once_partial (hd : d = 2 ∨ d = 3) (conn : FaceConn) (hconn : FaceConsistent d conn) (trees : List (List (Quad d)))
    (hn : conn.numTrees = trees.length) (P : ℕ) (leaves : ℕ → List (ℕ × Quad d)) (h : Distributed trees P leaves) (p : ℕ) (hp : p < P)
    (hone : ∀ x, leaves p = [x] → x.2.level ≠ 29)
    (rt : RankTrees (Quad d)) (hh : Holds trees.length (leaves p) rt) (ghost : Option (GhostLayer d)) (iterVolume : Bool)
    (hg : ∀ g, ghost = some g → GhostArray trees (leaves p) g) (hb : MeshBalanced conn trees) :
    ∃ calls, iterate conn (globalPartition leaves P trees.length) p rt ghost iterVolume true = some calls ∧
      (calls.flatMap localFaces).Perm ((leaves p).flatMap fun x => (List.range (2 * d)).map fun f => (x, f)) := by
  by_cases hne : leaves p = []
  · have hf : rt.first = -1 := by rw [hne] at hh; exact hh.empty.1
    refine ⟨[], ?_, by rw [hne]; simp⟩
    unfold iterate
    rw [if_pos (Or.inl (by omega))]
  obtain ⟨offsets, owned, n, parts, hgo, e, ho, hor, hT, hr, ht, hparts⟩ := rank_run hd hconn hn h hp hh hb hne hg iterVolume
  have W := rank_world hn h hp hh hb hgo
  have hmem : ∀ x : ℕ × Quad d, x.2 ∈ rt.trees.getD x.1 [] ↔ x ∈ leaves p := by
    intro x
    rw [← hh.split, mem_forest_iff]
  refine ⟨_, e, ?_⟩
  rw [List.perm_iff_count]
  intro e
  rw [run_count hconn W ho (fun t q hq => by
    have := hr (t, q) ((hmem (t, q)).mp hq)
    dsimp only at this
    rw [hn]
    omega) hor (ht hone) hparts e]
  have hnd : ((leaves p).flatMap fun x => (List.range (2 * d)).map fun f => (x, f)).Nodup := by
    rw [List.nodup_flatMap]
    refine ⟨fun x _ => List.Nodup.map (fun a b hab => (Prod.ext_iff.mp hab).2) List.nodup_range, ?_⟩
    refine (h.leaves_nodup (by omega) hp).imp ?_
    intro x y hxy
    rw [Function.onFun, List.disjoint_left]
    intro z hz hz'
    obtain ⟨f, -, rfl⟩ := List.mem_map.mp hz
    obtain ⟨g, -, hgz⟩ := List.mem_map.mp hz'
    exact hxy (Prod.ext_iff.mp hgz).1.symm
  have hiff : e ∈ ((leaves p).flatMap fun x => (List.range (2 * d)).map fun f => (x, f)) ↔ e.1.2 ∈ rt.trees.getD e.1.1 [] ∧ e.2 < 2 * d := by
    rw [hmem, List.mem_flatMap]
    constructor
    · rintro ⟨x, hx, hf⟩
      obtain ⟨f, hf', rfl⟩ := List.mem_map.mp hf
      exact ⟨hx, List.mem_range.mp hf'⟩
    · rintro ⟨h1, h2⟩
      exact ⟨e.1, h1, List.mem_map.mpr ⟨e.2, List.mem_range.mpr h2, rfl⟩⟩
  by_cases c : e.1.2 ∈ rt.trees.getD e.1.1 [] ∧ e.2 < 2 * d
  · rw [ind_true c, List.count_eq_one_of_mem hnd (hiff.mpr c)]
  · rw [ind_false c, List.count_eq_zero_of_not_mem fun hc => c (hiff.mp hc)]

/-! ### C64 -/

theorem TreeOk.form (hd : d = 2 ∨ d = 3) {conn : FaceConn} (hconn : FaceConsistent d conn) {Lt Gt : ℕ → List (Quad d)} {G : List (Quad d)}
    {goff : ℕ → ℕ} {v : Bool} {owned : ℕ → ℕ → Bool} (ho : ∀ x : ℕ × ℕ, owned x.1 x.2 = true → IsFace d conn x ∧ faceTop d conn x = x)
    {t : ℕ} (ht : t < conn.numTrees) {calls : List (IterCall d)} (h : TreeOk conn Lt Gt G goff v owned t calls) {c : FaceInfo d}
    (hc : IterCall.face c ∈ calls) : CallForm conn Lt Gt G goff c := by
  rcases h.faces c hc with h1 | ⟨f, hf, h1⟩
  · exact h1.form hd hconn ht
  · obtain ⟨k1, k2⟩ := ho (t, f) (List.mem_filter.mp hf).2
    exact h1.form hd hconn k1 k2

theorem TreeOk.some_local {conn : FaceConn} {Lt Gt : ℕ → List (Quad d)} {G : List (Quad d)} {goff : ℕ → ℕ} {v : Bool}
    {owned : ℕ → ℕ → Bool} {t : ℕ} {calls : List (IterCall d)} (h : TreeOk conn Lt Gt G goff v owned t calls) {c : FaceInfo d}
    (hc : IterCall.face c ∈ calls) : localFaces (.face c) ≠ [] := by
  rcases h.faces c hc with ⟨dir, X, -, -, -, -, -, h1⟩ | ⟨f, hf, ⟨-, X, -, -, -, -, -, h1⟩ | ⟨-, o, ft, -, -, -, X, -, -, -, -, -, h1⟩⟩
  · exact h1
  · exact h1
  · exact h1

/-- **C64.**  Each call of the face callback shows one face of the mesh as the documentation says: at the boundary of the domain one
side with a leaf, else two sides whose faces are the same set, with the tree, the number of the face, the orientation and the mark for
faces of trees.  One side is a whole leaf; the other is a leaf, or the two (in 3D four) smaller leaves in the order of the corners.
Each leaf is shown with its number among the local leaves of its tree or among the ghosts, and an entry is empty only if nothing that
is known lies there.  At least one listed leaf is local. -/
theorem C64_face_calls (hd : d = 2 ∨ d = 3) (conn : FaceConn) (hconn : FaceConsistent d conn) (trees : List (List (Quad d)))
    (hn : conn.numTrees = trees.length) (P : ℕ) (leaves : ℕ → List (ℕ × Quad d)) (h : Distributed trees P leaves) (p : ℕ) (hp : p < P)
    (rt : RankTrees (Quad d)) (hh : Holds trees.length (leaves p) rt) (ghost : Option (GhostLayer d)) (iterVolume : Bool)
    (hg : ∀ g, ghost = some g → GhostArray trees (leaves p) g) (hb : MeshBalanced conn trees) :
    ∃ calls, iterate conn (globalPartition leaves P trees.length) p rt ghost iterVolume true = some calls ∧
      ∀ c, IterCall.face c ∈ calls → FaceCallOk conn (knownBy rt ghost) c ∧ (∃ e, e ∈ localFaces (.face c)) ∧
        ∀ s ∈ c.sides, s.tree < conn.numTrees ∧ s.face < 2 * d := by
  by_cases hne : leaves p = []
  · have hf : rt.first = -1 := by rw [hne] at hh; exact hh.empty.1
    refine ⟨[], ?_, by simp⟩
    unfold iterate
    rw [if_pos (Or.inl (by omega))]
  obtain ⟨offsets, owned, n, parts, hgo, e, ho, hor, hT, hr, ht, hparts⟩ := rank_run hd hconn hn h hp hh hb hne hg iterVolume
  have W := rank_world hn h hp hh hb hgo
  refine ⟨_, e, fun c hc => ?_⟩
  obtain ⟨l, hl, hc⟩ := List.mem_flatten.mp hc
  obtain ⟨t, ht', hk⟩ := forall2_mem_right hparts hl
  rw [List.mem_range'_1] at ht'
  have hform := hk.form hd hconn ho (by rw [hn]; omega) hc
  exact ⟨hform.ok hd hconn W (rank_known hn hgo), List.exists_mem_of_ne_nil _ (hk.some_local hc), hform.range⟩

/-! ### C65 -/

/-- **C65.**  If both callbacks are given, a call of the face callback comes after the volume callbacks of all local leaves that it lists. -/
theorem C65_volumes_first (hd : d = 2 ∨ d = 3) (conn : FaceConn) (hconn : FaceConsistent d conn) (trees : List (List (Quad d)))
    (hn : conn.numTrees = trees.length) (P : ℕ) (leaves : ℕ → List (ℕ × Quad d)) (h : Distributed trees P leaves) (p : ℕ) (hp : p < P)
    (rt : RankTrees (Quad d)) (hh : Holds trees.length (leaves p) rt) (ghost : Option (GhostLayer d))
    (hg : ∀ g, ghost = some g → GhostArray trees (leaves p) g) (hb : MeshBalanced conn trees) :
    ∃ calls, iterate conn (globalPartition leaves P trees.length) p rt ghost true true = some calls ∧
      ∀ pre c post, calls = pre ++ c :: post → ∀ e ∈ localFaces c, ∃ n, IterCall.volume e.1.1 e.1.2 n ∈ pre := by
  by_cases hne : leaves p = []
  · have hf : rt.first = -1 := by rw [hne] at hh; exact hh.empty.1
    refine ⟨[], ?_, by simp⟩
    unfold iterate
    rw [if_pos (Or.inl (by omega))]
  obtain ⟨offsets, owned, n, parts, hgo, e, ho, hor, hT, hr, ht, hparts⟩ := rank_run hd hconn hn h hp hh hb hne hg true
  refine ⟨_, e, ?_⟩
  have := after_run rfl n _ parts hparts [] .nil ?_
  · exact this
  · intro t ht q hq
    have : (t, q) ∈ forestLeaves rt.trees := mem_forest_iff.mpr hq
    rw [hh.split] at this
    have := (hr _ this).1
    dsimp only at this
    omega

/-! ### C66 -/

theorem facesMeet_of_share {conn : FaceConn} {x y : ℕ × Quad d} (hx : Valid x.2) (hy : Valid y.2) (hne : x.1 = y.1 → Cells x.2 ∩ Cells y.2 = ∅)
    (h : ShareFace conn x y) : ∃ f < 2 * d, ∃ g < 2 * d, FacesMeet conn f g x y := by
  obtain ⟨a, ha, b, hb, h1, h2, ⟨e, i, hi, hpm⟩ | ⟨f, nf, o, T, hf, hnf, k1, k2, k3, k4, k5, k6, k7⟩⟩ := h
  · -- in one tree: the cells differ in one coordinate
    dsimp only at e hi hpm h1 h2
    have hdis : ∀ c, c ∈ Cells x.2 → c ∈ Cells y.2 → False := fun c c1 c2 => by
      have : c ∈ Cells x.2 ∩ Cells y.2 := ⟨c1, c2⟩
      rw [hne e] at this
      exact this
    have hbx : ¬ (x.2.c i ≤ b i ∧ b i < x.2.c i + side x.2) := by
      intro hc
      refine hdis b (fun j => ?_) hb
      by_cases hj : j = i
      · rw [hj]; exact hc
      · rw [hi j hj]; exact ha j
    have hay : ¬ (y.2.c i ≤ a i ∧ a i < y.2.c i + side y.2) := by
      intro hc
      refine hdis a ha fun j => ?_
      by_cases hj : j = i
      · rw [hj]; exact hc
      · rw [← hi j hj]; exact hb j
    have hai := ha i
    have hbi := hb i
    rcases hpm with hpm | hpm
    · refine ⟨2 * i + 1, by omega, 2 * i, by omega, a, b, ⟨ha, ?_⟩, ⟨hb, ?_⟩, h1, h2, Or.inl ⟨e, by omega, by omega, ?_⟩⟩
      · intro j hj
        rw [if_pos (by omega)]
        obtain rfl : j = i := Fin.ext (by omega)
        omega
      · intro j hj
        rw [if_neg (by omega)]
        obtain rfl : j = i := Fin.ext (by omega)
        omega
      · intro j
        dsimp only
        by_cases hj : j = i
        · rw [if_pos (by rw [hj]; omega), if_pos (by omega), hj, hpm]
        · rw [if_neg (fun c => hj (Fin.ext (by omega))), hi j hj]
    · refine ⟨2 * i, by omega, 2 * i + 1, by omega, a, b, ⟨ha, ?_⟩, ⟨hb, ?_⟩, h1, h2, Or.inl ⟨e, by omega, by omega, ?_⟩⟩
      · intro j hj
        rw [if_neg (by omega)]
        obtain rfl : j = i := Fin.ext (by omega)
        omega
      · intro j hj
        rw [if_pos (by omega)]
        obtain rfl : j = i := Fin.ext (by omega)
        omega
      · intro j
        dsimp only
        by_cases hj : j = i
        · rw [if_pos (by rw [hj]; omega), if_neg (by omega), hj, hpm]
        · rw [if_neg (fun c => hj (Fin.ext (by omega))), hi j hj]
  · have hat : ∀ {f : ℕ} {q : Quad d} {c : Fin d → ℤ}, Valid q → c ∈ Cells q → AtFace f c → CellAtFace f q c := by
      intro f q c hq hc hf
      refine ⟨hc, fun j hj => ?_⟩
      have g1 := hf j hj
      have g2 := hc j
      have g3 := valid_cells_inTree hq (show (fun k => q.c k + side q - 1) ∈ Cells q from fun k => by
        have := side_pos q
        dsimp only
        omega) j
      have g4 := valid_inTree hq j
      split
      · rename_i co
        rw [if_pos co] at g1
        omega
      · rename_i co
        rw [if_neg co] at g1
        omega
    exact ⟨f, hf, nf, hnf, a, b, hat hx ha k5, hat hy hb k6, h1, h2, Or.inr ⟨o, T, k1, k2, k3, k4, k5, k6, k7⟩⟩

/-- **C66.**  If face `f` of a local leaf and face `g` of another known leaf (a local one or a ghost) have a common part, then a call of
the face callback lists them both, on opposite sides, by these faces.

Partial: the rank may not have one single leaf that is of the smallest size; see `C63_single_cell_missed`. -/
theorem C66_faces_shown_partial (hd : d = 2 ∨ d = 3) (conn : FaceConn) (hconn : FaceConsistent d conn) (trees : List (List (Quad d)))
    (hn : conn.numTrees = trees.length) (P : ℕ) (leaves : ℕ → List (ℕ × Quad d)) (h : Distributed trees P leaves) (p : ℕ) (hp : p < P)
    (hone : ∀ x, leaves p = [x] → x.2.level ≠ 29)
    (rt : RankTrees (Quad d)) (hh : Holds trees.length (leaves p) rt) (ghost : Option (GhostLayer d)) (iterVolume : Bool)
    (hg : ∀ g, ghost = some g → GhostArray trees (leaves p) g) (hb : MeshBalanced conn trees) :
    ∃ calls, iterate conn (globalPartition leaves P trees.length) p rt ghost iterVolume true = some calls ∧
      ∀ x ∈ leaves p, ∀ y, y ∈ leaves p ∨ y ∈ ghostArg ghost → ∀ f < 2 * d, ∀ g < 2 * d, FacesMeet conn f g x y →
        ∃ c, IterCall.face c ∈ calls ∧ BothListed c x f y g := by
  by_cases hne : leaves p = []
  · have hf : rt.first = -1 := by rw [hne] at hh; exact hh.empty.1
    refine ⟨[], ?_, by rw [hne]; simp⟩
    unfold iterate
    rw [if_pos (Or.inl (by omega))]
  obtain ⟨calls, c1, c2⟩ := C63_each_face_once_partial hd conn hconn trees hn P leaves h p hp hone rt hh ghost iterVolume hg hb
  obtain ⟨offsets, owned, n, parts, hgo, e, ho, hor, hT, hr, ht, hparts⟩ := rank_run hd hconn hn h hp hh hb hne hg iterVolume
  rw [c1, Option.some.injEq] at e
  subst e
  have W := rank_world hn h hp hh hb hgo
  have hmem : ∀ x : ℕ × Quad d, x.2 ∈ rt.trees.getD x.1 [] ↔ x ∈ leaves p := by
    intro x
    rw [← hh.split, mem_forest_iff]
  refine ⟨_, c1, fun x hx y hy f hf g hgf hm => ?_⟩
  have hxf : (x, f) ∈ parts.flatten.flatMap localFaces :=
    c2.mem_iff.mpr (List.mem_flatMap.mpr ⟨x, hx, List.mem_map.mpr ⟨f, List.mem_range.mpr hf, rfl⟩⟩)
  obtain ⟨c, hc, hxc⟩ := List.mem_flatMap.mp hxf
  cases c with
  | volume t q n => simp [localFaces] at hxc
  | face c =>
    refine ⟨c, hc, ?_⟩
    obtain ⟨l, hl, hc⟩ := List.mem_flatten.mp hc
    obtain ⟨t, ht', hk⟩ := forall2_mem_right hparts hl
    rw [List.mem_range'_1] at ht'
    have hform := hk.form hd hconn ho (by rw [hn]; omega) hc
    refine hform.both hd hconn W hxc hgf ?_ hm
    rcases hy with hy | hy
    · exact Or.inl ((hmem y).mpr hy)
    · exact Or.inr (mem_leavesIn.mpr hy)

/-- The ghost layer across faces can be used for an iteration. -/
theorem ghostArray_of_ghosts (hd : 0 < d) {trees : List (List (Quad d))} {P : ℕ} {leaves : ℕ → List (ℕ × Quad d)}
    (h : Distributed trees P leaves) {p : ℕ} (hp : p < P) {rel : ℕ × Quad d → ℕ × Quad d → Prop} {g : GhostLayer d}
    (e : g.ghosts = ghostsOf rel leaves P p)
    (cut : CutInto g.ghosts g.treeOffsets trees.length fun t => g.ghosts.filter fun x => decide (x.1.1 = t)) :
    GhostArray trees (leaves p) g := by
  refine ⟨?_, ?_, cut⟩
  · rw [e, ← h.split]
    unfold ghostsOf
    rw [List.map_flatMap]
    refine flatMap_sublist (fun q => ?_) _
    have : ((leaves q).zipIdx.map Prod.fst) = leaves q := List.zipIdx_map_fst _ _
    conv_rhs => rw [← this]
    unfold seenBy
    exact List.filter_sublist.map _
  · intro x hx hm
    rw [e] at hx
    obtain ⟨r, hr, hx⟩ := List.mem_flatMap.mp hx
    obtain ⟨h1, h2, -⟩ := mem_seenBy.mp hx
    have h3 : x.1 ∈ leaves r := List.mem_of_getElem? (List.mem_zipIdx_iff_getElem?.mp h1)
    obtain ⟨s, hs⟩ := h.segments hd
    have hin := valid_inTree (hs.leaf p hp x.1 hm).2
    have g1 := (hs.mem_iff hd x.1.1 p hp hin).mp ⟨x.1, hm, rfl, corner_mem _⟩
    have g2 := (hs.mem_iff hd x.1.1 r (List.mem_range.mp hr) hin).mp ⟨x.1, h3, rfl, corner_mem _⟩
    rcases Nat.lt_or_gt_of_ne h2 with c | c
    · have := hs.mono (p := r + 1) (r := p) (by omega) (by omega); omega
    · have := hs.mono (p := p + 1) (r := r) (by omega) (by have := List.mem_range.mp hr; omega); omega

/-- **C66**, with the ghost layer of `p4est_ghost_new`: on every rank each leaf of the forest that has a common part of a face with a local
leaf is shown with it in a call, on the other side. -/
theorem C66_neighbors_shown_partial (hd : d = 2 ∨ d = 3) (conn : FaceConn) (hconn : FaceConsistent d conn) (trees : List (List (Quad d)))
    (hn : conn.numTrees = trees.length) (P : ℕ) (leaves : ℕ → List (ℕ × Quad d)) (h : Distributed trees P leaves)
    (hone : ∀ p < P, ∀ x, leaves p = [x] → x.2.level ≠ 29)
    (rts : ℕ → RankTrees (Quad d)) (hh : ∀ p < P, Holds trees.length (leaves p) (rts p)) (iterVolume : Bool)
    (hb : MeshBalanced conn trees) (mem : Fin d → ℤ) :
    ∃ gs : List (GhostLayer d), ghostNewFace mem conn P leaves = some gs ∧ ∀ p < P, ∃ g calls, gs[p]? = some g ∧
      iterate conn (globalPartition leaves P trees.length) p (rts p) (some g) iterVolume true = some calls ∧
      ∀ x ∈ leaves p, ∀ y ∈ forestLeaves trees, y ≠ x → ShareFace conn x y →
        ∃ f < 2 * d, ∃ f' < 2 * d, FacesMeet conn f f' x y ∧ ∃ c, IterCall.face c ∈ calls ∧ BothListed c x f y f' := by
  have hd0 : 0 < d := by omega
  obtain ⟨gs, g1, -, g2⟩ := C57_ghost_face_partial hd conn hconn trees hn P leaves h hone mem
  refine ⟨gs, g1, fun p hp => ?_⟩
  obtain ⟨g, k1, k2, -, k3, -⟩ := g2 p hp
  rw [hn] at k3
  have hga := ghostArray_of_ghosts hd0 h hp k2 k3
  obtain ⟨calls, c1, c2⟩ := C66_faces_shown_partial hd conn hconn trees hn P leaves h p hp (hone p hp) (rts p) (hh p hp) (some g) iterVolume
    (fun g' e => by cases e; exact hga) hb
  refine ⟨g, calls, k1, c1, fun x hx y hy hne hs => ?_⟩
  have hxf := (h.sublist hp).subset hx
  have W := rank_world hn h hp (hh p hp) hb hga.ok
  have hxv := W.valid x.1 x.2 hxf
  have hyv := W.valid y.1 y.2 hy
  obtain ⟨f, hf, f', hf', hm⟩ := facesMeet_of_share hxv hyv (fun e => by
    rw [Set.eq_empty_iff_forall_notMem]
    rintro c ⟨h1, h2⟩
    refine hne (Prod.ext e.symm (W.disj x.1 y.2 x.2 c ?_ hxf h2 h1))
    rw [e]
    exact hy) hs
  refine ⟨f, hf, f', hf', hm, c2 x hx y ?_ f hf f' hf' hm⟩
  -- the neighbor is local or a ghost
  rw [← h.split, List.mem_flatMap] at hy
  obtain ⟨r, hr, hyr⟩ := hy
  by_cases hrp : r = p
  · left; rw [← hrp]; exact hyr
  · right
    obtain ⟨i, hi⟩ := List.mem_iff_getElem?.mp hyr
    show y ∈ g.ghosts.map Prod.fst
    rw [k2]
    refine List.mem_map.mpr ⟨(y, i), List.mem_flatMap.mpr ⟨r, hr, mem_seenBy.mpr ⟨List.mem_zipIdx_iff_getElem?.mpr hi, hrp, x, hx, ?_⟩⟩, rfl⟩
    obtain ⟨s, hs'⟩ := h.segments hd0
    obtain ⟨a, ha, b, hb', hab⟩ := hs
    exact ⟨b, hb', a, ha, sharesFacet_symm hd conn hconn (by rw [hn]; exact (hs'.leaf p hp x hx).1) hab⟩

/-! ### An iteration -/

theorem twoTrees_balanced : MeshBalanced twoSquares twoTrees := by
  have h : ∀ y ∈ forestLeaves twoTrees, y.2.level ≤ 1 := by decide +kernel
  intro x _ y hy _
  have := h y hy
  omega

/-- Ghosts of rank 2: leaves 1 and 2 of the first tree. -/
def twoTreesGhost : GhostLayer 2 :=
  { ghosts := [((0, child (root 2) 1), 1), ((0, child (root 2) 2), 2)], procOffsets := [0, 2, 2, 2, 2], treeOffsets := [0, 2, 2],
    mirrors := [], mirrorTreeOffsets := [], mirrorProcMirrors := [], mirrorProcOffsets := [] }

theorem twoTreesGhost_array : GhostArray twoTrees (twoTreesLeaves 2) twoTreesGhost := by
  refine ⟨?_, by decide +kernel, by decide, rfl, rfl, ?_⟩
  · rw [← List.isSublist_iff_sublist]
    decide +kernel
  · intro i hi
    have hi : i < 2 := hi
    interval_cases i
    · exact ⟨0, 2, rfl, rfl, by norm_num, by decide +kernel⟩
    · exact ⟨2, 2, rfl, rfl, le_rfl, by decide +kernel⟩

/-- The forest of `twoTrees` on `twoSquares` meets the hypotheses of C62 to C66 on rank 2, and there are a local leaf and a ghost
with a common face. -/
example : FaceConsistent 2 twoSquares ∧ twoSquares.numTrees = twoTrees.length ∧ Distributed twoTrees 4 twoTreesLeaves ∧
    Holds twoTrees.length (twoTreesLeaves 2) (twoTreesState 2) ∧ (∀ x, twoTreesLeaves 2 = [x] → x.2.level ≠ 29) ∧
    GhostArray twoTrees (twoTreesLeaves 2) twoTreesGhost ∧ MeshBalanced twoSquares twoTrees ∧
    (0, child (root 2) 3) ∈ twoTreesLeaves 2 ∧ (0, child (root 2) 1) ∈ ghostArg (some twoTreesGhost) ∧
    FacesMeet twoSquares 2 3 (0, child (root 2) 3) (0, child (root 2) 1) := by
  refine ⟨twoSquares_consistent, rfl, twoTrees_distributed, twoTreesState_holds 2 (by norm_num), ?_, twoTreesGhost_array, twoTrees_balanced,
    by decide +kernel, by decide +kernel, ?_⟩
  · intro x hx
    have h1 : (twoTreesLeaves 2).length = 1 := by rw [hx]; rfl
    exact absurd h1 (by decide)
  · refine ⟨![2 ^ 29, 2 ^ 29], ![2 ^ 29, 2 ^ 29 - 1], ⟨?_, ?_⟩, ⟨?_, ?_⟩, ?_, ?_, Or.inl ⟨rfl, rfl, by norm_num, ?_⟩⟩
    · intro i; fin_cases i <;> decide +kernel
    · intro i; fin_cases i <;> decide +kernel
    · intro i; fin_cases i <;> decide +kernel
    · intro i; fin_cases i <;> decide +kernel
    · intro i; fin_cases i <;> decide
    · intro i; fin_cases i <;> decide
    · intro i; fin_cases i <;> decide

/-! ### A rank with one leaf of the smallest size -/

/-- The quadrant of level `l` at the lower right corner of the square. -/
def rightPath (l : ℕ) : Quad 2 := ⟨![2 ^ 30 - 2 ^ (30 - l), 0], l⟩

/-- The square, refined at the lower right corner. -/
def rightTree : List (Quad 2) :=
  ((List.range 29).map fun k => child (rightPath k) 0) ++ [rightPath 29] ++
    ((List.range 29).flatMap fun k => [child (rightPath (28 - k)) 2, child (rightPath (28 - k)) 3])

/-- Three ranks: the second has only the leaf at the corner. -/
def rightLeaves (p : ℕ) : List (ℕ × Quad 2) :=
  ((rightTree.drop ([0, 29, 30].getD p 88)).take ([29, 1, 58].getD p 0)).map fun q => (0, q)

theorem rightLeaves_distributed : Distributed [rightTree] 3 rightLeaves where
  complete := by
    simp only [List.mem_singleton, forall_eq]
    refine treeComplete_of_path ?_ (by decide +kernel)
    have h : ∀ q ∈ rightTree, isValid q = true := by decide +kernel
    exact fun q hq => isValid_iff.mp (h q hq)
  someTree := by simp
  split := by decide +kernel

theorem share_touch {x y : ℕ × Quad d} {conn : FaceConn} (hone : ∀ t f t' nf o, f < 2 * d → nf < 2 * d → conn.treeToTree[2 * d * t + f]? = some t' →
      conn.treeToFace[2 * d * t + f]? = some (nf + 2 * d * o) → t' = t ∧ nf = f)
    (h : ShareFace conn x y) : ∀ i, y.2.c i ≤ x.2.c i + side x.2 ∧ x.2.c i ≤ y.2.c i + side y.2 := by
  obtain ⟨a, ha, b, hb, -, -, ⟨-, i, hi, hpm⟩ | ⟨f, nf, o, T, hf, hnf, k1, k2, k3, -⟩⟩ := h
  · intro j
    have h1 := ha j
    have h2 := hb j
    dsimp only at hi hpm
    by_cases hj : j = i
    · subst hj; omega
    · have := hi j hj; omega
  · obtain ⟨g1, g2⟩ := hone _ _ _ _ _ hf hnf k1 k2
    rcases k3 with k3 | k3
    · exact absurd g1 k3
    · exact absurd g2 k3

theorem rightTree_balanced : MeshBalanced oneSquare [rightTree] := by
  have h : ∀ x ∈ rightTree, ∀ y ∈ rightTree, (∀ i, y.c i ≤ x.c i + side x ∧ x.c i ≤ y.c i + side y) → y.level ≤ x.level + 1 := by
    decide +kernel
  intro x hx y hy hs
  rw [mem_forest_iff] at hx hy
  have hm : ∀ (t : ℕ) (q : Quad 2), q ∈ [rightTree].getD t [] → q ∈ rightTree := by
    intro t q hq
    cases t with
    | zero => exact hq
    | succ t => simp at hq
  refine h _ (hm _ _ hx) _ (hm _ _ hy) (share_touch ?_ hs)
  intro t f t' nf o hf hnf k1 k2
  have ht : t = 0 := by
    by_contra hc
    have : (oneSquare.treeToTree).length ≤ 2 * 2 * t + f := by
      show 4 ≤ _
      omega
    rw [List.getElem?_eq_none this] at k1
    cases k1
  subst ht
  interval_cases f <;> simp [oneSquare] at k1 k2 ⊢ <;> omega

/-- The state of the second rank. -/
def rightState : RankTrees (Quad 2) := ⟨[[rightPath 29]], 0, 0⟩

/-- **C63**, counterexample: the rank has one leaf of the smallest size, at the right side of the domain.  The callback for faces
is called for the other sides but not for this one. -/
theorem C63_single_cell_missed : FaceConsistent 2 oneSquare ∧ Distributed [rightTree] 3 rightLeaves ∧ rightLeaves 1 = [(0, rightPath 29)] ∧
    Holds 1 (rightLeaves 1) rightState ∧ MeshBalanced oneSquare [rightTree] ∧
    ∃ calls, iterate oneSquare (globalPartition rightLeaves 3 1) 1 rightState none true true = some calls ∧
      ((0, rightPath 29), 0) ∈ calls.flatMap localFaces ∧ ((0, rightPath 29), 1) ∉ calls.flatMap localFaces := by
  refine ⟨oneSquare_consistent, rightLeaves_distributed, by decide +kernel, ⟨rfl, by decide +kernel, by decide +kernel, by decide +kernel⟩,
    rightTree_balanced, ?_⟩
  have h : ((iterate oneSquare (globalPartition rightLeaves 3 1) 1 rightState none true true).any fun calls =>
      decide (((0, rightPath 29), 0) ∈ calls.flatMap localFaces ∧ ((0, rightPath 29), 1) ∉ calls.flatMap localFaces)) = true := by
    decide +kernel
  cases e : iterate oneSquare (globalPartition rightLeaves 3 1) 1 rightState none true true with
  | none => rw [e] at h; cases h
  | some calls =>
    rw [e] at h
    exact ⟨calls, rfl, of_decide_eq_true h⟩

end P4est
