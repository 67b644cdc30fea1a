import Verif.Lemmas.GhostRun
import Verif.Lemmas.GhostTargets
import Verif.Lemmas.PartitionFamilySpan

/-! # The ghost layers of all ranks, for any relation of leaves -/

namespace P4est
open Spec

variable {d : ℕ}

theorem Spec.Distributed.sorted {trees : List (List (Quad d))} {P : ℕ} {leaves : ℕ → List (ℕ × Quad d)}
    (h : Distributed trees P leaves) : TreeSorted ((List.range P).flatMap leaves) := by
  rw [h.split]; exact treeSorted_tagFrom _ _

theorem sublist_flatMap {β : Type} {l : List ℕ} {p : ℕ} (hp : p ∈ l) (f : ℕ → List β) : (f p).Sublist (l.flatMap f) := by
  obtain ⟨a, b, rfl⟩ := List.append_of_mem hp
  rw [List.flatMap_append, List.flatMap_cons]
  exact ((List.sublist_append_left _ _).trans (List.sublist_append_right _ _))

theorem flatMap_sublist {β : Type} {f g : ℕ → List β} (h : ∀ p, (f p).Sublist (g p)) (l : List ℕ) :
    (l.flatMap f).Sublist (l.flatMap g) := by
  induction l with
  | nil => exact List.Sublist.refl _
  | cons a l ih => rw [List.flatMap_cons, List.flatMap_cons]; exact (h a).append ih

theorem Spec.Distributed.leaves_nodup (hd : 0 < d) {trees : List (List (Quad d))} {P : ℕ} {leaves : ℕ → List (ℕ × Quad d)}
    (h : Distributed trees P leaves) {p : ℕ} (hp : p < P) : (leaves p).Nodup := by
  obtain ⟨s, hs⟩ := h.segments hd
  rw [List.Nodup, List.pairwise_iff_getElem]
  intro i j hi hj hij e
  have := (hs.path p hp).get_lt hij (List.getElem?_eq_getElem hi) (List.getElem?_eq_getElem hj)
  rw [e] at this
  have := gstart_lt_gstop (leaves p)[j]
  omega

theorem mem_seenBy {rel : ℕ × Quad d → ℕ × Quad d → Prop} {leaves : ℕ → List (ℕ × Quad d)} {p r : ℕ} {x : GhostQuad d} :
    x ∈ seenBy rel leaves p r ↔ x ∈ (leaves p).zipIdx ∧ p ≠ r ∧ ∃ y ∈ leaves r, rel x.1 y := by
  classical
  unfold seenBy
  rw [List.mem_filter]
  simp only [decide_eq_true_eq]

/-- What the ghost layer of rank `r` has to be. -/
def IsGhostLayer (rel : ℕ × Quad d → ℕ × Quad d → Prop) (leaves : ℕ → List (ℕ × Quad d)) (P numTrees r : ℕ) (g : GhostLayer d) : Prop :=
  g.ghosts = ghostsOf rel leaves P r ∧
  CutInto g.ghosts g.procOffsets P (fun p => seenBy rel leaves p r) ∧
  CutInto g.ghosts g.treeOffsets numTrees (fun t => g.ghosts.filter fun x => decide (x.1.1 = t)) ∧
  g.mirrors = mirrorsOf rel leaves P r ∧
  CutInto g.mirrors g.mirrorTreeOffsets numTrees (fun t => g.mirrors.filter fun x => decide (x.1.1 = t)) ∧
  ∃ piece, CutInto g.mirrorProcMirrors g.mirrorProcOffsets P piece ∧
    ∀ p < P, (piece p).map (fun i => g.mirrors[i]?) = (seenBy rel leaves r p).map some

theorem zipIdx_filter_get {β : Type} (l : List β) (S : β → Bool) :
    ((l.zipIdx.filter fun x => S x.1).map Prod.snd).map (fun i => l[i]?) = (l.filter S).map some := by
  have h1 : ∀ x ∈ l.zipIdx.filter fun x => S x.1, l[x.2]? = some x.1 := by
    intro x hx
    exact List.mem_zipIdx_iff_getElem?.mp (List.mem_filter.mp hx).1
  have h2 : ∀ (l : List β) n, ((l.zipIdx n).filter fun x => S x.1).map Prod.fst = l.filter S := by
    intro l
    induction l with
    | nil => intro n; rfl
    | cons x l ih =>
      intro n
      rw [List.zipIdx_cons]
      by_cases c : S x
      · rw [List.filter_cons_of_pos (by simpa using c), List.filter_cons_of_pos c, List.map_cons, ih]
      · rw [List.filter_cons_of_neg (by simpa using c), List.filter_cons_of_neg c, ih]
  rw [List.map_map, ← h2 l 0, List.map_map]
  exact List.map_congr_left fun x hx => h1 x hx

theorem mapM_none {β γ : Type} {f : β → Option γ} : ∀ {l : List β} {x : β}, x ∈ l → f x = none → l.mapM f = none := by
  intro l
  induction l with
  | nil => intro x hx; simp at hx
  | cons y l ih =>
    intro x hx h
    rw [List.mapM_cons]
    rcases List.mem_cons.mp hx with rfl | hx
    · rw [h]; rfl
    · rw [ih hx h]
      cases f y <;> rfl

/-- Which targets a leaf has matters only if it is not skipped.  Without symmetry the result is still right if there is one. -/
theorem ghostNewWith_pairs (hd : 0 < d) {conn : FaceConn} {trees : List (List (Quad d))} {P : ℕ}
    {leaves : ℕ → List (ℕ × Quad d)} (hn : conn.numTrees = trees.length) (h : Distributed trees P leaves)
    {rel : ℕ × Quad d → ℕ × Quad d → Prop} {targets : ℕ → ℕ × Quad d → Option (List ℕ)}
    (hsymm : ghostNewWith conn (globalPartition leaves P trees.length) P leaves targets ≠ none ∨
      ∀ r < P, ∀ p < P, ∀ x ∈ leaves r, ∀ y ∈ leaves p, rel x y → rel y x)
    (hown : ∀ r < P, ∀ x ∈ leaves r, ∀ x0 xl, (leaves r).head? = some x0 → (leaves r).getLast? = some xl → ∀ full v,
      fullTree (globalPartition leaves P trees.length) r x0.1 xl.1 x.1 = some full →
      neighborhoodOwned (globalPartition leaves P trees.length) P r x.1 full
        (treeContact (fun t f => conn.treeToTree.getD (2 * d * t + f) 0)
          (fun t f => conn.treeToFace.getD (2 * d * t + f) 0) x.1) x.2 = some v →
      (v = true → ∀ p < P, p ≠ r → ∀ y ∈ leaves p, ¬ rel x y) ∧
      (v = false → ∃ ps, targets r x = some ps ∧ ∀ p, p ∈ ps ↔ p < P ∧ p ≠ r ∧ ∃ y ∈ leaves p, rel x y)) :
    ∃ gs, ghostNewWith conn (globalPartition leaves P trees.length) P leaves targets = some gs ∧ gs.length = P ∧
      ∀ r < P, (∃ g, gs[r]? = some g ∧ IsGhostLayer rel leaves P conn.numTrees r g) ∧
        ∀ p < P, p ≠ r → (∃ x ∈ leaves p, ∃ y ∈ leaves r, rel x y) → ∃ x ∈ leaves r, ∃ y ∈ leaves p, rel x y := by
  classical
  obtain ⟨s, hs⟩ := h.segments hd
  let S : ℕ → ℕ × Quad d → ℕ → Prop := fun r x p => p < P ∧ p ≠ r ∧ ∃ y ∈ leaves p, rel x y
  have hloc : ∀ r, ∃ st, r < P → ghostLocal conn (globalPartition leaves P trees.length) P r (leaves r) (targets r) = some st ∧
      Gathered (S r) (leaves r).zipIdx st.1 ∧
      ∀ nt, st.2 nt = (st.1.mirrors.filter fun x => decide (x.1.1 < nt)).length := by
    intro r
    by_cases hr : r < P
    · obtain ⟨st, e⟩ := ghostLocal_owned (conn := conn) (P := P) (r := r) (targets := targets r) (S := S r)
        (h.sorted.sublist (sublist_flatMap (List.mem_range.mpr hr) leaves)) (h.leaves_nodup hd hr)
        (fun a b t => fullTree_some hd h hr a b t)
        (fun x hx x0 xl h0 hl full hf => by
          obtain ⟨v, hv⟩ := neighborhoodOwned_some hd h hr (hs.leaf r hr x hx).1 (hs.leaf r hr x hx).2 full
            (treeContact (fun t f => conn.treeToTree.getD (2 * d * t + f) 0)
              (fun t f => conn.treeToFace.getD (2 * d * t + f) 0) x.1)
          obtain ⟨k1, k2⟩ := hown r hr x hx x0 xl h0 hl full v hf hv
          refine ⟨v, hv, ?_, k2⟩
          rintro hvt p ⟨hp, hpr, y, hy, hrel⟩
          exact k1 hvt p hp hpr y hy hrel)
      exact ⟨st, fun _ => e⟩
    · exact ⟨(⟨false, [], fun _ => [], fun _ => []⟩, fun _ => 0), fun h => absurd h hr⟩
  choose st hst using hloc
  have hmap : (List.range P).mapM (fun r => ghostLocal conn (globalPartition leaves P trees.length) P r (leaves r) (targets r)) =
      some ((List.range P).map st) := mapM_some fun r hr => (hst r (List.mem_range.mp hr)).1
  have hget : ∀ p < P, ((List.range P).map st)[p]? = some (st p) := by
    intro p hp; rw [List.getElem?_map, List.getElem?_range hp]; rfl
  let bufs : ℕ → ℕ → List (GhostQuad d) := fun p r => match ((List.range P).map st)[p]? with
    | some s => s.1.bufs r
    | none => []
  have hbufs : ∀ p < P, ∀ r < P, bufs p r = seenBy rel leaves p r := by
    intro p hp r hr
    have : bufs p r = (st p).1.bufs r := by
      show (match ((List.range P).map st)[p]? with | some s => s.1.bufs r | none => []) = _
      rw [hget p hp]
    rw [this, (hst p hp).2.1.2.1 r]
    unfold seenBy
    apply List.filter_congr
    intro x _
    simp only [decide_eq_decide]
    constructor
    · rintro ⟨_, k1, k2⟩; exact ⟨Ne.symm k1, k2⟩
    · rintro ⟨k1, k2⟩; exact ⟨hr, Ne.symm k1, k2⟩
  have hmem : ∀ p < P, ∀ r < P, bufs p r ≠ [] ↔ p ≠ r ∧ ∃ x ∈ leaves p, ∃ y ∈ leaves r, rel x y := by
    intro p hp r hr
    rw [hbufs p hp r hr]
    unfold seenBy
    rw [Ne, List.filter_eq_nil_iff, not_forall]
    constructor
    · rintro ⟨x, hx⟩
      rw [Classical.not_imp, not_not, decide_eq_true_eq] at hx
      have hx1 : x.1 ∈ leaves p := by
        have := List.mem_map_of_mem (f := Prod.fst) hx.1
        rwa [List.zipIdx_map_fst] at this
      exact ⟨hx.2.1, x.1, hx1, hx.2.2⟩
    · rintro ⟨hpr, x, hx, hy⟩
      rw [← List.zipIdx_map_fst 0 (leaves p)] at hx
      obtain ⟨z, hz, rfl⟩ := List.mem_map.mp hx
      exact ⟨z, by rw [Classical.not_imp, not_not, decide_eq_true_eq]; exact ⟨hz, hpr, hy⟩⟩
  have hbs : ∀ r < P, ∀ i < P, bufs r i ≠ [] ↔ bufs i r ≠ [] := by
    intro r hr i hi
    rcases hsymm with hsome | hsymm
    · have hex : ∀ r < P, ghostExchange bufs P r ≠ none := by
        intro r hr hno
        refine hsome ?_
        unfold ghostNewWith
        rw [hmap]
        simp only [Option.bind_eq_bind, Option.bind_some]
        refine mapM_none (x := (st r, r)) (List.mem_zipIdx_iff_getElem?.mpr (hget r hr)) ?_
        show (ghostExchange bufs P r).bind _ = _
        rw [hno]; rfl
      exact ⟨ghostExchange_some (hex r hr) i hi, ghostExchange_some (hex i hi) r hr⟩
    rw [hmem r hr i hi, hmem i hi r hr]
    constructor
    · rintro ⟨k, x, hx, y, hy, hxy⟩; exact ⟨Ne.symm k, y, hy, x, hx, hsymm r hr i hi x hx y hy hxy⟩
    · rintro ⟨k, x, hx, y, hy, hxy⟩; exact ⟨Ne.symm k, y, hy, x, hx, hsymm i hi r hr x hx y hy hxy⟩
  let G : (MirrorState d × (ℕ → ℕ)) × ℕ → GhostLayer d := fun x =>
    ⟨(List.range P).flatMap (fun i => bufs i x.2),
      scArraySplit (((List.range P).flatMap (fun i => bufs i x.2)).map fun g => g.1.1) conn.numTrees,
      (List.range (P + 1)).map fun i => ((List.range i).flatMap fun i => bufs i x.2).length, x.1.1.mirrors,
      (List.range (conn.numTrees + 1)).map x.1.2, (mirrorReset P x.1.1.offsets).1, (mirrorReset P x.1.1.offsets).2⟩
  refine ⟨((List.range P).map st).zipIdx.map G, ?_, by simp, fun r hr => ⟨⟨G (st r, r), ?_, ?_⟩,
    fun p hp hpr hx => ((hmem r hr p hp).mp ((hbs p hp r hr).mp ((hmem p hp r hr).mpr ⟨hpr, hx⟩))).2⟩⟩
  · unfold ghostNewWith
    rw [hmap]
    simp only [Option.bind_eq_bind, Option.bind_some]
    apply mapM_some
    intro x hx
    have hx' := List.mem_zipIdx_iff_getElem?.mp hx
    have hx2 : x.2 < P := by
      have := (List.getElem?_eq_some_iff.mp hx').1
      simpa using this
    show (ghostExchange bufs P x.2).bind _ = _
    rw [ghostExchange_spec (hbs x.2 hx2)]
    rfl
  · rw [List.getElem?_map, List.getElem?_zipIdx, hget r hr]
    simp
  · have hseen : ∀ p < P, bufs p r = seenBy rel leaves p r := fun p hp => hbufs p hp r hr
    have hgh : (List.range P).flatMap (fun i => bufs i r) = ghostsOf rel leaves P r := by
      unfold ghostsOf
      exact List.flatMap_congr fun p hp => hseen p (List.mem_range.mp hp)
    have hmir : (st r).1.mirrors = mirrorsOf rel leaves P r := by
      rw [(hst r hr).2.1.1]
      unfold mirrorsOf
      apply List.filter_congr
      intro x _
      rw [decide_eq_decide]
    have hzip : ∀ p, ((leaves p).zipIdx.map fun x : GhostQuad d => x.1.1) = (leaves p).map Prod.fst := by
      intro p
      conv_rhs => rw [← List.zipIdx_map_fst 0 (leaves p)]
      rw [List.map_map]; rfl
    -- the mirrors and ghosts are sorted by tree
    have hmsort : (mirrorsOf rel leaves P r).Pairwise (fun x y => x.1.1 ≤ y.1.1) := by
      have h1 : (((leaves r).zipIdx).map fun x : GhostQuad d => x.1.1).Pairwise (· ≤ ·) := by
        rw [hzip, List.pairwise_map]
        exact h.sorted.sublist (sublist_flatMap (List.mem_range.mpr hr) leaves)
      rw [List.pairwise_map] at h1
      exact h1.sublist List.filter_sublist
    have hgsort : (ghostsOf rel leaves P r).Pairwise (fun x y => x.1.1 ≤ y.1.1) := by
      have h1 : (((List.range P).flatMap fun p => (leaves p).zipIdx).map fun x : GhostQuad d => x.1.1).Pairwise (· ≤ ·) := by
        rw [List.map_flatMap]
        simp only [hzip]
        rw [← List.map_flatMap, List.pairwise_map]
        exact h.sorted
      rw [List.pairwise_map] at h1
      exact h1.sublist (flatMap_sublist (fun p => List.filter_sublist) _)
    have hzl : ∀ p < P, ∀ x ∈ (leaves p).zipIdx, x.1.1 < conn.numTrees := by
      intro p hp x hx
      have hx1 : x.1 ∈ leaves p := by
        have := List.mem_map_of_mem (f := Prod.fst) hx
        rwa [List.zipIdx_map_fst] at this
      rw [hn]
      exact (hs.leaf p hp _ hx1).1
    refine ⟨hgh, ?_, ?_, hmir, ?_, ?_⟩
    · have := cutInto_flatMap (fun p => seenBy rel leaves p r) P (offs := (G (st r, r)).procOffsets) (by
        apply List.map_congr_left
        intro i hi
        have hi' : i < P + 1 := List.mem_range.mp hi
        rw [List.flatMap_congr]
        intro p hp
        have : p < i := List.mem_range.mp hp
        exact hseen p (by omega))
      show CutInto ((List.range P).flatMap (fun i => bufs i r)) _ _ _
      rw [hgh]; exact this
    · show CutInto ((List.range P).flatMap (fun i => bufs i r)) _ _
        (fun t => ((List.range P).flatMap (fun i => bufs i r)).filter fun x => decide (x.1.1 = t))
      rw [hgh]
      refine cutInto_key (fun x : GhostQuad d => x.1.1) _ hgsort _ ?_ ?_
      · intro x hx
        obtain ⟨p, hp, hx⟩ := List.mem_flatMap.mp hx
        exact hzl p (List.mem_range.mp hp) x (List.mem_filter.mp hx).1
      · show scArraySplit _ _ = _
        rw [hgh]
        unfold scArraySplit
        apply List.map_congr_left
        intro i _
        rw [List.filter_map, List.length_map]
        rfl
    · show CutInto (st r).1.mirrors _ _ (fun t => (st r).1.mirrors.filter fun x => decide (x.1.1 = t))
      rw [hmir]
      refine cutInto_key (fun x : GhostQuad d => x.1.1) _ hmsort _ ?_ ?_
      · intro x hx
        exact hzl r hr x (List.mem_filter.mp hx).1
      · show (List.range (conn.numTrees + 1)).map (st r).2 = _
        apply List.map_congr_left
        intro i _
        rw [(hst r hr).2.2 i, hmir]
    · refine ⟨(st r).1.offsets, ?_, fun p hp => ?_⟩
      · have h1 : (G (st r, r)).mirrorProcMirrors = (List.range P).flatMap (st r).1.offsets := by
          show (mirrorReset P (st r).1.offsets).1 = _
          rw [mirrorReset_spec]
        rw [h1]
        refine cutInto_flatMap _ P ?_
        show (mirrorReset P (st r).1.offsets).2 = _
        rw [mirrorReset_spec]
      · show ((st r).1.offsets p).map (fun i => (st r).1.mirrors[i]?) = _
        rw [(hst r hr).2.1.2.2 p, ← hbufs r hr p hp]
        refine (zipIdx_filter_get (st r).1.mirrors fun x => @decide _ (Classical.propDecidable (S r x.1 p))).trans ?_
        have : bufs r p = (st r).1.bufs p := by
          show (match ((List.range P).map st)[r]? with | some s => s.1.bufs p | none => []) = _
          rw [hget r hr]
        rw [this, (hst r hr).2.1.2.1 p, (hst r hr).2.1.1, List.filter_filter]
        congr 1
        apply List.filter_congr
        intro x _
        by_cases c : S r x.1 p
        · have : ∃ p, S r x.1 p := ⟨p, c⟩
          simp [c, this]
        · simp [c]

/-- Which targets a leaf has matters only if it is not skipped.  Without symmetry the result is still right if there is one. -/
theorem ghostNewWith_owned (hd : 0 < d) {conn : FaceConn} {trees : List (List (Quad d))} {P : ℕ}
    {leaves : ℕ → List (ℕ × Quad d)} (hn : conn.numTrees = trees.length) (h : Distributed trees P leaves)
    {rel : ℕ × Quad d → ℕ × Quad d → Prop} {targets : ℕ → ℕ × Quad d → Option (List ℕ)}
    (hsymm : ghostNewWith conn (globalPartition leaves P trees.length) P leaves targets ≠ none ∨
      ∀ r < P, ∀ p < P, ∀ x ∈ leaves r, ∀ y ∈ leaves p, rel x y → rel y x)
    (hown : ∀ r < P, ∀ x ∈ leaves r, ∀ x0 xl, (leaves r).head? = some x0 → (leaves r).getLast? = some xl → ∀ full v,
      fullTree (globalPartition leaves P trees.length) r x0.1 xl.1 x.1 = some full →
      neighborhoodOwned (globalPartition leaves P trees.length) P r x.1 full
        (treeContact (fun t f => conn.treeToTree.getD (2 * d * t + f) 0)
          (fun t f => conn.treeToFace.getD (2 * d * t + f) 0) x.1) x.2 = some v →
      (v = true → ∀ p < P, p ≠ r → ∀ y ∈ leaves p, ¬ rel x y) ∧
      (v = false → ∃ ps, targets r x = some ps ∧ ∀ p, p ∈ ps ↔ p < P ∧ p ≠ r ∧ ∃ y ∈ leaves p, rel x y)) :
    ∃ gs, ghostNewWith conn (globalPartition leaves P trees.length) P leaves targets = some gs ∧ gs.length = P ∧
      ∀ r < P, ∃ g, gs[r]? = some g ∧ IsGhostLayer rel leaves P conn.numTrees r g := by
  obtain ⟨gs, h1, h2, h3⟩ := ghostNewWith_pairs hd hn h hsymm hown
  exact ⟨gs, h1, h2, fun r hr => (h3 r hr).1⟩

theorem ghostNewWith_spec (hd : 0 < d) {conn : FaceConn} {trees : List (List (Quad d))} {P : ℕ}
    {leaves : ℕ → List (ℕ × Quad d)} (hn : conn.numTrees = trees.length) (h : Distributed trees P leaves)
    {rel : ℕ × Quad d → ℕ × Quad d → Prop}
    (hsymm : ∀ r < P, ∀ p < P, ∀ x ∈ leaves r, ∀ y ∈ leaves p, rel x y → rel y x)
    {targets : ℕ → ℕ × Quad d → Option (List ℕ)}
    (htar : ∀ r < P, ∀ x ∈ leaves r, ∃ ps, targets r x = some ps ∧
      ∀ p, p ∈ ps ↔ p < P ∧ p ≠ r ∧ ∃ y ∈ leaves p, rel x y)
    (hown : ∀ r < P, ∀ x ∈ leaves r, ∀ x0 xl, (leaves r).head? = some x0 → (leaves r).getLast? = some xl → ∀ full,
      fullTree (globalPartition leaves P trees.length) r x0.1 xl.1 x.1 = some full →
      neighborhoodOwned (globalPartition leaves P trees.length) P r x.1 full
        (treeContact (fun t f => conn.treeToTree.getD (2 * d * t + f) 0)
          (fun t f => conn.treeToFace.getD (2 * d * t + f) 0) x.1) x.2 = some true →
      ∀ p < P, p ≠ r → ∀ y ∈ leaves p, ¬ rel x y) :
    ∃ gs, ghostNewWith conn (globalPartition leaves P trees.length) P leaves targets = some gs ∧ gs.length = P ∧
      ∀ r < P, ∃ g, gs[r]? = some g ∧ IsGhostLayer rel leaves P conn.numTrees r g :=
  ghostNewWith_owned hd hn h (Or.inr hsymm) fun r hr x hx x0 xl h0 hl full v hf hv =>
    ⟨fun hvt => hown r hr x hx x0 xl h0 hl full hf (by rw [hv, hvt]), fun _ => htar r hr x hx⟩

end P4est
