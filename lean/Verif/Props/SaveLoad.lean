import Verif.Lemmas.SaveLoad

/-! # C50: saving and loading -/

namespace P4est
open Spec

variable {d : ℕ}

/-- C50, connectivity. Every connectivity with arrays of the documented lengths is written successfully, and from the
written bytes the same connectivity is read: all numbers and all arrays are the same.  Exactly these bytes are
consumed, so what follows in the file can be read next. -/
theorem C50_connectivity {version : List Byte} (hv : version.length = 24) {c : ConnFile} {numEtt numCtt : ℕ}
    (hc : ConnShape d c numEtt numCtt) {valid : ConnFile → Bool} (hvalid : valid c = true) :
    ∃ bytes, connSink d version c = some bytes ∧
      ∀ rest k, connSource d valid ⟨bytes ++ rest, k⟩ = some (c, ⟨rest, k + bytes.length⟩) :=
  ⟨_, connSink_spec hc, connSource_spec hv hc hvalid⟩

/-! ### The file -/

/-- The numbers of leaves up to and including each tree. -/
def leavesUpTo {β : Type} (trees : List (List β)) : List ℕ :=
  (List.range trees.length).map fun t => ((trees.take (t + 1)).map List.length).sum

theorem leavesBefore_eq {β : Type} (trees : List (List β)) : leavesBefore trees = (0 :: leavesUpTo trees).map fun x : ℕ => (x : ℤ) := by
  unfold leavesBefore leavesUpTo
  rw [List.range_succ_eq_map, List.map_cons, List.map_cons, List.map_map, List.map_map]
  rfl

theorem forestLeaves_length {β : Type} (trees : List (List β)) : (forestLeaves trees).length = (trees.map List.length).sum := by
  have h : ((forestLeaves trees).map Prod.snd).length = trees.flatten.length := by
    unfold forestLeaves
    rw [map_snd_tagFrom]
  rw [List.length_map, List.length_flatten] at h
  exact h

theorem leavesUpTo_le {β : Type} {trees : List (List β)} {x : ℕ} (h : x ∈ leavesUpTo trees) : x ≤ (forestLeaves trees).length := by
  obtain ⟨t, -, rfl⟩ := List.mem_map.mp h
  rw [forestLeaves_length, List.map_take]
  conv_rhs => rw [← List.take_append_drop (t + 1) (trees.map List.length), List.sum_append]
  omega

/-- The partition in the file. -/
def savedPartition (savePartition : Bool) (leaves : ℕ → List (ℕ × (Quad d × List Byte))) (P : ℕ) : List ℕ :=
  if savePartition then (List.range P).map fun p => ∑ i ∈ Finset.range (p + 1), (leaves i).length
  else [∑ i ∈ Finset.range P, (leaves i).length]

/-- What is in the file. -/
def savedFile (version : List Byte) (sizeQuad : ℕ) (c : ConnFile) (numEtt numCtt : ℕ) (trees : List (List (Quad d × List Byte)))
    (ds : ℕ) (sd : Bool) (part : List ℕ) : List Byte :=
  fileHead (connBytes d version c numEtt numCtt) (headNums d sizeQuad ds sd part.length) part (leavesUpTo trees) ++
    (secondGap part.length trees.length ++ ((forestLeaves trees).map Prod.snd).flatMap (fileLeaf sd))

theorem saveExt_spec (hd : 0 < d) {f : Forest d (List Byte)} {trees : List (List (Quad d × List Byte))} {P : ℕ}
    {leaves : ℕ → List (ℕ × (Quad d × List Byte))} (hf : ForestHolds f trees P leaves) {version : List Byte} (hv : version.length = 24)
    {c : ConnFile} {numEtt numCtt : ℕ} (hc : ConnShape d c numEtt numCtt) (sizeQuad dataSize : ℕ) (saveData savePartition : Bool)
    {ds : ℕ} {sd : Bool} (hds : ds = if saveData then dataSize else 0) (hsd : sd = (saveData && decide (ds ≠ 0)))
    (hL : ∀ p, p < P → ∀ x ∈ leaves p, LeafFits sd ds x.2) (hP : 0 < P) :
    saveExt version sizeQuad c f (globalPartition (fun p => bare (leaves p)) P trees.length) P dataSize saveData savePartition =
      some (savedFile version sizeQuad c numEtt numCtt trees ds sd (savedPartition savePartition leaves P)) := by
  unfold saveExt
  dsimp only
  rw [← hds, ← hsd, obind (C49_count_pertree hd f trees P leaves hf), obind (connSink_spec hc), obind (alignFile_eq _)]
  have hhead : saveHead d sizeQuad ds sd savePartition P f.gfq (leavesBefore trees) =
      (headNums d sizeQuad ds sd (savedPartition savePartition leaves P).length).map (fun x : ℕ => (x : ℤ)) ++
      ((savedPartition savePartition leaves P).map (fun x : ℕ => (x : ℤ)) ++ (leavesUpTo trees).map fun x : ℕ => (x : ℤ)) := by
    unfold saveHead
    rw [leavesBefore_eq, List.append_assoc, List.map_cons, List.tail_cons]
    congr 1
    · unfold headNums savedPartition
      simp only [List.map_cons, List.map_nil]
      cases sd <;> cases savePartition <;> simp
    · congr 1
      unfold savedPartition
      cases savePartition with
      | true =>
        simp only [if_true, List.map_map]
        apply List.map_congr_left
        intro p hp
        exact hf.gfq (p + 1) (List.mem_range.mp hp)
      | false =>
        simp only [Bool.false_eq_true, if_false, List.map_cons, List.map_nil]
        rw [hf.gfq P le_rfl]
  have hfile : connBytes d version c numEtt numCtt ++ List.replicate (zpadding (connBytes d version c numEtt numCtt).length) 0 ++
      (saveHead d sizeQuad ds sd savePartition P f.gfq (leavesBefore trees)).flatMap (encodeInt 8) =
      fileHead (connBytes d version c numEtt numCtt) (headNums d sizeQuad ds sd (savedPartition savePartition leaves P).length)
        (savedPartition savePartition leaves P) (leavesUpTo trees) := by
    rw [hhead, List.flatMap_append, List.flatMap_append, List.append_assoc]
    rfl
  rw [hfile, obind (alignFile_eq _), obind (saveTrees_spec (hf.ranks 0 hP) (hL 0 hP))]
  have hgap : List.replicate (zpadding (fileHead (connBytes d version c numEtt numCtt)
        (headNums d sizeQuad ds sd (savedPartition savePartition leaves P).length)
        (savedPartition savePartition leaves P) (leavesUpTo trees)).length) (0 : Byte) =
      secondGap (savedPartition savePartition leaves P).length trees.length := by
    unfold secondGap
    congr 1
    rw [fileHead_length, Nat.add_assoc, Nat.add_assoc, zpadding_add (zpadding_mod _)]
    congr 1
    unfold headNums leavesUpTo
    simp only [List.length_cons, List.length_nil, List.length_map, List.length_range]
    ring
  rw [hgap]
  have := saveRanks_spec (ds := ds) (sd := sd) hf.ranks hL hf.gfq
    (fileHead (connBytes d version c numEtt numCtt) (headNums d sizeQuad ds sd (savedPartition savePartition leaves P).length)
        (savedPartition savePartition leaves P) (leavesUpTo trees) ++ secondGap (savedPartition savePartition leaves P).length trees.length)
    (P - 1) 1 (by omega)
  simp only [List.range_one, List.flatMap_cons, List.flatMap_nil, List.append_nil] at this
  rw [this, hf.forest.split, List.append_assoc]
  rfl

/-! ### Reading it -/

/-- The leaves and trees that are read. -/
def Spec.loadedLeaves (load : Bool) (leaves : ℕ → List (ℕ × (Quad d × List Byte))) (p : ℕ) : List (ℕ × (Quad d × List Byte)) :=
  if load then leaves p else withData [] (leaves p)

def Spec.loadedTrees (load : Bool) (trees : List (List (Quad d × List Byte))) : List (List (Quad d × List Byte)) :=
  if load then trees else treesWithData [] trees

theorem source_spec (hd : 0 < d) {trees : List (List (Quad d × List Byte))} (hfew : (trees.length : ℤ) ≤ topidxMax) {P' : ℕ}
    {leaves' : ℕ → List (ℕ × (Quad d × List Byte))} (hF : DataForest trees P' leaves') (hP' : 0 < P')
    {version : List Byte} (hv : version.length = 24) {c : ConnFile} {numEtt numCtt : ℕ} (hc : ConnShape d c numEtt numCtt)
    (hct : c.numTrees = trees.length) {valid : ConnFile → Bool} (hvalid : valid c = true) {rnd : ℚ → ℚ} {sizeQuad dataSize ds : ℕ}
    {sd load load' auto : Bool} (hload' : load' = (load && decide (dataSize ≠ 0))) (hl : load' = true → sd = true ∧ ds = dataSize)
    (hsq : sizeQuad < 2 ^ 64) (hds : ds < 2 ^ 64)
    (hL : ∀ x ∈ forestLeaves trees, LeafFits sd ds x.2) (hn : (forestLeaves trees).length < 2 ^ 63) {part : List ℕ}
    (hpart : ∀ x ∈ part, x < 2 ^ 63) (hsnp : part.length < 2 ^ 31) {gfq : ℕ → ℤ} (hp : Partition rnd P' auto part gfq)
    (hgfq : ∀ p, p ≤ P' → gfq p = ((∑ i ∈ Finset.range p, (leaves' i).length : ℕ) : ℤ)) (bh : Bool) (appended : List Byte) :
    ∃ out, sourceExt d valid rnd sizeQuad P' dataSize load auto bh
        (savedFile version sizeQuad c numEtt numCtt trees ds sd part ++ appended) =
      some (c, out, List.replicate P' ⟨appended, (savedFile version sizeQuad c numEtt numCtt trees ds sd part).length⟩) ∧
      ForestHolds out.forest (loadedTrees load' trees) P' (loadedLeaves load' leaves') ∧ out.forest.revision = 0 ∧
      out.gfp = globalPartition (fun p => bare (leaves' p)) P' trees.length := by
  have htot : (forestLeaves trees).length = ∑ i ∈ Finset.range P', (leaves' i).length := by
    rw [← hF.split, List.length_flatMap]; rfl
  have hlast : some (gfq P') = ((0 :: leavesUpTo trees).map fun x : ℕ => (x : ℤ))[c.numTrees]? := by
    rw [← leavesBefore_eq, hgfq P' le_rfl, ← htot, hct, forestLeaves_length]
    unfold leavesBefore
    rw [List.getElem?_map, List.getElem?_range (by omega), Option.map_some, List.take_length]
  have hlen : (leavesUpTo trees).length = c.numTrees := by rw [hct]; simp [leavesUpTo]
  set H := fileHead (connBytes d version c numEtt numCtt) (headNums d sizeQuad ds sd part.length) part (leavesUpTo trees) with hH
  set L := ((forestLeaves trees).map Prod.snd).flatMap (fileLeaf sd) with hLdef
  have hfile : savedFile version sizeQuad c numEtt numCtt trees ds sd part = H ++ (secondGap part.length trees.length ++ L) := rfl
  have hhead := fun r => loadHead_spec (valid := valid) hv hc hvalid hsq hds hl (dataSize := dataSize) hp hpart hsnp hlen
    (fun x hx => (leavesUpTo_le hx).trans_lt hn) hlast r
  rw [← hH] at hhead
  set h : LoadHead := ⟨c, (connBytes d version c numEtt numCtt).length + zpadding (connBytes d version c numEtt numCtt).length, ds,
    part.length, gfq, (0 :: leavesUpTo trees).map fun x : ℕ => (x : ℤ)⟩ with hh
  have hoff : H.length = h.fileOffset := by
    rw [hH, fileHead_length, hh]
    unfold LoadHead.fileOffset headNums
    simp only [List.length_cons, List.length_nil, Int.toNat_natCast, hlen]
    ring
  have hrank : ∀ rank, rank < P' → sourceRank d valid rnd sizeQuad P' dataSize load' auto bh rank
      ⟨savedFile version sizeQuad c numEtt numCtt trees ds sd part ++ appended, 0⟩ =
      some ((h, ((leaves' rank).map Prod.snd).flatMap (fun x => deflateQuad x.1),
        if load' then some ((leaves' rank).map fun x => x.2.2) else none),
        ⟨appended, (savedFile version sizeQuad c numEtt numCtt trees ds sd part).length⟩) := by
    intro rank hr
    have h1 := loadRank_spec (d := d) (sd := sd) (load := load') (fun e => (hl e).1) hr leaves' (h := h)
      (by rw [hF.split]; exact hL) hgfq H appended hoff (!bh || decide (rank = 0)) (by
        intro e
        simp at e
        omega)
    rw [hF.split, ← hLdef] at h1
    have e1 : h.saveNumProcs.toNat = part.length := by rw [hh]; exact Int.toNat_natCast _
    have e2 : h.conn.numTrees = trees.length := hct
    rw [e1, e2] at h1
    unfold sourceRank
    rw [hfile]
    simp only [List.append_assoc]
    rw [obind (hhead _)]
    dsimp only
    rw [obind h1]
    simp only [List.length_append, Nat.add_assoc]
  have hranks : (List.range P').mapM (fun rank => sourceRank d valid rnd sizeQuad P' dataSize load' auto bh rank
      ⟨savedFile version sizeQuad c numEtt numCtt trees ds sd part ++ appended, 0⟩) = some ((List.range P').map fun rank =>
      ((h, ((leaves' rank).map Prod.snd).flatMap (fun x => deflateQuad x.1),
        if load' then some ((leaves' rank).map fun x => x.2.2) else none),
        ⟨appended, (savedFile version sizeQuad c numEtt numCtt trees ds sd part).length⟩)) :=
    mapM_some fun p hp => hrank p (List.mem_range.mp hp)
  have hdata : DataForest (loadedTrees load' trees) P' (loadedLeaves load' leaves') := by
    unfold loadedTrees loadedLeaves
    cases load'
    · exact hF.forget []
    · exact hF
  have hTl : (loadedTrees load' trees).length = trees.length := by
    unfold loadedTrees treesWithData
    split <;> simp
  have hb : leavesBefore (loadedTrees load' trees) = (0 :: leavesUpTo trees).map fun x : ℕ => (x : ℤ) := by
    rw [← leavesBefore_eq]
    unfold loadedTrees
    split
    · rfl
    · exact leavesBefore_map _ trees
  have hll : ∀ p, (loadedLeaves load' leaves' p).length = (leaves' p).length := by
    intro p
    unfold loadedLeaves withData
    split <;> simp
  obtain ⟨out, o1, o2, o3, o4, -⟩ := C39_inflate hd [] (loadedTrees load' trees) P' (loadedLeaves load' leaves') hdata
    (by rw [hTl]; exact hfew) gfq (by
      intro p hp
      rw [hgfq p hp]
      simp only [hll]) (fun p => (((((List.range P').map fun rank =>
      (((h, ((leaves' rank).map Prod.snd).flatMap (fun x => deflateQuad x.1),
        if load' then some ((leaves' rank).map fun x => x.2.2) else none) : LoadHead × List ℤ × Option (List (List Byte))),
        (⟨appended, (savedFile version sizeQuad c numEtt numCtt trees ds sd part).length⟩ : Source)))[p]?).map fun x => x.1.2.2).getD none)) (by
      intro p hp
      rw [List.getElem?_map, List.getElem?_range hp]
      simp only [Option.map_some, Option.getD_some]
      unfold loadedLeaves
      cases load' with
      | true => left; simp
      | false =>
        right
        refine ⟨by simp, ?_⟩
        intro x hx
        simp only [Bool.false_eq_true, if_false] at hx
        obtain ⟨y, -, rfl⟩ := List.mem_map.mp hx
        rfl)
  refine ⟨out, ?_, o2, o3, ?_⟩
  · unfold sourceExt
    dsimp only
    rw [← hload', obind hranks]
    have hz : (((List.range P').map fun rank =>
      (((h, ((leaves' rank).map Prod.snd).flatMap (fun x => deflateQuad x.1),
        if load' then some ((leaves' rank).map fun x => x.2.2) else none) : LoadHead × List ℤ × Option (List (List Byte))),
        (⟨appended, (savedFile version sizeQuad c numEtt numCtt trees ds sd part).length⟩ : Source)))[0]?).map Prod.fst =
        some (h, ((leaves' 0).map Prod.snd).flatMap (fun x => deflateQuad x.1),
        if load' then some ((leaves' 0).map fun x => x.2.2) else none) := by
      rw [List.getElem?_map, List.getElem?_range hP']; rfl
    rw [obind hz]
    dsimp only
    have hin : inflate (d := d) [] P' h.conn.numTrees h.gfq h.pertree
        (fun p => ((((List.range P').map fun rank =>
      (((h, ((leaves' rank).map Prod.snd).flatMap (fun x => deflateQuad x.1),
        if load' then some ((leaves' rank).map fun x => x.2.2) else none) : LoadHead × List ℤ × Option (List (List Byte))),
        (⟨appended, (savedFile version sizeQuad c numEtt numCtt trees ds sd part).length⟩ : Source)))[p]?).map fun x => x.1.2.1).getD [])
        (fun p => ((((List.range P').map fun rank =>
      (((h, ((leaves' rank).map Prod.snd).flatMap (fun x => deflateQuad x.1),
        if load' then some ((leaves' rank).map fun x => x.2.2) else none) : LoadHead × List ℤ × Option (List (List Byte))),
        (⟨appended, (savedFile version sizeQuad c numEtt numCtt trees ds sd part).length⟩ : Source)))[p]?).map fun x => x.1.2.2).getD none) =
        some out := by
      rw [← o1, hTl, hb, show h.conn.numTrees = trees.length from hct]
      unfold inflate
      simp only [Option.bind_eq_bind]
      congr 1
      apply mapM_congr
      intro p hp
      rw [List.mem_range] at hp
      rw [List.getElem?_map, List.getElem?_range hp]
      simp only [Option.map_some, Option.getD_some]
      congr 1
      unfold loadedLeaves withData
      split
      · rfl
      · rw [List.map_map, List.flatMap_map, List.flatMap_map]; rfl
    rw [obind hin, List.map_map]
    congr 3
    rw [List.eq_replicate_iff]
    refine ⟨by simp, ?_⟩
    intro x hx
    obtain ⟨p, -, rfl⟩ := List.mem_map.mp hx
    rfl
  · rw [o4, hTl]
    apply globalPartition_congr
    intro p _
    unfold loadedLeaves withData bare
    split
    · rfl
    · rw [List.map_map]; rfl

/-! ### The round trip -/

/-- A forest with user data of `dataSize` bytes per leaf over a connectivity, and sizes that fit into the numbers of the file. -/
structure Spec.CanSave (f : Forest d (List Byte)) (trees : List (List (Quad d × List Byte))) (P : ℕ)
    (leaves : ℕ → List (ℕ × (Quad d × List Byte))) (version : List Byte) (c : ConnFile) (numEtt numCtt sizeQuad dataSize : ℕ) : Prop where
  forest : ForestHolds f trees P leaves
  conn : ConnShape d c numEtt numCtt
  connTrees : c.numTrees = trees.length
  version : version.length = 24
  data : ∀ l ∈ trees, ∀ x ∈ l, x.2.length = dataSize
  procs : P < 2 ^ 31
  total : (forestLeaves trees).length < 2 ^ 63
  sizeQuad : sizeQuad < 2 ^ 64
  dataSize : dataSize < 2 ^ 64

theorem mem_forestLeaves {β : Type} {trees : List (List β)} {x : ℕ × β} (h : x ∈ forestLeaves trees) : ∃ l ∈ trees, x.2 ∈ l := by
  have h1 : x.2 ∈ (forestLeaves trees).map Prod.snd := List.mem_map_of_mem h
  unfold forestLeaves at h1
  rw [map_snd_tagFrom] at h1
  exact List.mem_flatten.mp h1

theorem Spec.DataForest.procs_pos {α : Type} {trees : List (List (Quad d × α))} {P : ℕ} {leaves : ℕ → List (ℕ × (Quad d × α))}
    (h : DataForest trees P leaves) : 0 < P := by
  by_contra h0
  have h1 := h.split
  rw [show P = 0 by omega] at h1
  obtain ⟨l, hl⟩ := List.exists_mem_of_ne_nil _ h.someTree
  obtain ⟨q, hq, -⟩ := (h.complete l hl).cover (fun _ => 0) (fun i => ⟨le_rfl, by norm_num⟩)
  obtain ⟨x, hx, -⟩ := List.mem_map.mp hq
  have h2 : x ∈ trees.flatten := List.mem_flatten.mpr ⟨l, hl, hx⟩
  have h3 : (forestLeaves trees).map Prod.snd = trees.flatten := by unfold forestLeaves; exact map_snd_tagFrom 0 trees
  rw [← h3, ← h1] at h2
  simp at h2

theorem loaded_nothing {trees : List (List (Quad d × List Byte))} {P : ℕ} {leaves : ℕ → List (ℕ × (Quad d × List Byte))}
    (h : ∀ l ∈ trees, ∀ x ∈ l, x.2.length = 0) (hF : DataForest trees P leaves) {p : ℕ} (hp : p < P) (load : Bool) :
    loadedLeaves load leaves p = leaves p ∧ loadedTrees load trees = trees := by
  unfold loadedLeaves loadedTrees withData treesWithData
  cases load with
  | true => exact ⟨rfl, rfl⟩
  | false =>
    simp only [Bool.false_eq_true, if_false]
    constructor
    · conv_rhs => rw [← List.map_id (leaves p)]
      apply List.map_congr_left
      intro x hx
      have h1 : x ∈ forestLeaves trees := by
        rw [← hF.split, List.mem_flatMap]
        exact ⟨p, List.mem_range.mpr hp, hx⟩
      obtain ⟨l, hl, hx'⟩ := mem_forestLeaves h1
      have := List.length_eq_zero_iff.mp (h l hl _ hx')
      rw [← this]; rfl
    · conv_rhs => rw [← List.map_id trees]
      apply List.map_congr_left
      intro l hl
      conv_rhs => rw [id, ← List.map_id l]
      apply List.map_congr_left
      intro x hx
      have := List.length_eq_zero_iff.mp (h l hl _ hx)
      rw [← this]; rfl

/-- What holds of a forest only depends on the leaves of the ranks that exist. -/
theorem Spec.ForestHolds.of_eq {α : Type} {f : Forest d α} {trees trees' : List (List (Quad d × α))} {P : ℕ}
    {leaves leaves' : ℕ → List (ℕ × (Quad d × α))} (h : ForestHolds f trees P leaves) (ht : trees = trees')
    (hl : ∀ p, p < P → leaves p = leaves' p) : ForestHolds f trees' P leaves' := by
  subst ht
  refine ⟨⟨h.forest.complete, h.forest.someTree, ?_⟩, h.numTrees, h.few, fun p hp => hl p hp ▸ h.ranks p hp, ?_, ?_, h.globalNum⟩
  · rw [← h.forest.split]
    apply List.flatMap_congr
    intro p hp
    exact (hl p (List.mem_range.mp hp)).symm
  · intro p hp
    rw [h.gfq p hp]
    congr 1
    apply Finset.sum_congr rfl
    intro i hi
    rw [Finset.mem_range] at hi
    rw [hl i (by omega)]
  · rw [h.gfpTree]
    congr 1
    apply globalPartition_congr
    intro p hp
    rw [hl p hp]

/-- Saving and then loading, with the partition that is read left open. -/
theorem save_source (hd : 0 < d) {f : Forest d (List Byte)} {trees : List (List (Quad d × List Byte))} {P : ℕ}
    {leaves : ℕ → List (ℕ × (Quad d × List Byte))} {version : List Byte} {c : ConnFile} {numEtt numCtt sizeQuad dataSize : ℕ}
    (h : CanSave f trees P leaves version c numEtt numCtt sizeQuad dataSize) (saveData savePartition : Bool) :
    ∃ file, saveExt version sizeQuad c f (globalPartition (fun p => bare (leaves p)) P trees.length) P dataSize saveData savePartition = some file ∧
      ∀ (valid : ConnFile → Bool), valid c = true → ∀ (rnd : ℚ → ℚ) (load auto bh : Bool), (load = true → saveData = true) →
        ∀ (P' : ℕ) (leaves' : ℕ → List (ℕ × (Quad d × List Byte))) (gfq : ℕ → ℤ), DataForest trees P' leaves' →
          Partition rnd P' auto (savedPartition savePartition leaves P) gfq →
          (∀ p, p ≤ P' → gfq p = ((∑ i ∈ Finset.range p, (leaves' i).length : ℕ) : ℤ)) → ∀ appended,
          ∃ out, sourceExt d valid rnd sizeQuad P' dataSize load auto bh (file ++ appended) =
              some (c, out, List.replicate P' ⟨appended, file.length⟩) ∧
            ForestHolds out.forest (loadedTrees load trees) P' (loadedLeaves load leaves') ∧ out.forest.revision = 0 ∧
            out.gfp = globalPartition (fun p => bare (leaves' p)) P' trees.length := by
  have hL : ∀ x ∈ forestLeaves trees, LeafFits (saveData && decide ((if saveData then dataSize else 0) ≠ 0))
      (if saveData then dataSize else 0) x.2 := by
    intro x hx
    obtain ⟨l, hl, hx'⟩ := mem_forestLeaves hx
    refine ⟨?_, leaf_fits ((h.forest.forest.complete l hl).valid _ (List.mem_map_of_mem hx'))⟩
    have h1 := h.data l hl _ hx'
    cases saveData with
    | false => simp
    | true =>
      by_cases h0 : dataSize = 0
      · simp [h0]
      · simp [h0, h1]
  have hn : ∀ x ∈ savedPartition savePartition leaves P, x < 2 ^ 63 := by
    intro x hx
    refine lt_of_le_of_lt ?_ h.total
    have htot : (forestLeaves trees).length = ∑ i ∈ Finset.range P, (leaves i).length := by
      rw [← h.forest.forest.split, List.length_flatMap]; rfl
    rw [htot]
    unfold savedPartition at hx
    cases savePartition with
    | true =>
      simp only [if_true] at hx
      obtain ⟨p, hp, rfl⟩ := List.mem_map.mp hx
      exact prefix_mono _ (List.mem_range.mp hp)
    | false =>
      simp only [Bool.false_eq_true, if_false, List.mem_singleton] at hx
      exact hx.le
  have hsnp : (savedPartition savePartition leaves P).length < 2 ^ 31 := by
    unfold savedPartition
    have := h.procs
    split <;> simp <;> omega
  refine ⟨_, saveExt_spec hd h.forest h.version h.conn sizeQuad dataSize saveData savePartition rfl rfl (by
    intro p hp x hx
    apply hL
    rw [← h.forest.forest.split, List.mem_flatMap]
    exact ⟨p, List.mem_range.mpr hp, hx⟩) h.forest.forest.procs_pos, ?_⟩
  intro valid hvalid rnd load auto bh hload P' leaves' gfq hF hp hgfq appended
  obtain ⟨out, h1, h2, h3, h4⟩ := source_spec hd h.forest.few hF hF.procs_pos h.version h.conn h.connTrees hvalid (rnd := rnd)
    (load' := load && decide (dataSize ≠ 0)) (auto := auto) (dataSize := dataSize) rfl (by
      intro e
      simp only [Bool.and_eq_true, decide_eq_true_eq] at e
      rw [hload e.1]
      simp [e.2]) h.sizeQuad (show (if saveData then dataSize else 0) < 2 ^ 64 by
        have := h.dataSize
        split <;> omega) hL h.total hn hsnp hp hgfq bh appended
  refine ⟨out, h1, ?_, h3, h4⟩
  by_cases h0 : dataSize = 0
  · subst h0
    have e := fun p hp (load : Bool) => loaded_nothing h.data hF (p := p) hp load
    exact h2.of_eq ((e 0 hF.procs_pos _).2.trans (e 0 hF.procs_pos _).2.symm) fun p hp => (e p hp _).1.trans (e p hp _).1.symm
  · simp only [h0, ne_eq, not_false_eq_true, decide_true, Bool.and_true] at h2
    exact h2

/-- C50. Every forest on any number of processes, with or without user data, is saved successfully with its partition.
Loading that file on the same number of processes succeeds, whether or not the header is read by
one process only, and gives the same connectivity and the same leaves in the same trees on the same processes.  The user data are
the same if they are saved and loaded; otherwise the leaves have none.  The revision is zero.  Every process
has then read the source exactly to the end of the forest, whatever follows it. -/
theorem C50_save_load (hd : 0 < d) {f : Forest d (List Byte)} {trees : List (List (Quad d × List Byte))} {P : ℕ}
    {leaves : ℕ → List (ℕ × (Quad d × List Byte))} {version : List Byte} {c : ConnFile} {numEtt numCtt sizeQuad dataSize : ℕ}
    (h : CanSave f trees P leaves version c numEtt numCtt sizeQuad dataSize) {valid : ConnFile → Bool} (hvalid : valid c = true)
    (rnd : ℚ → ℚ) (saveData load broadcasthead : Bool) (hload : load = true → saveData = true) :
    ∃ file, saveExt version sizeQuad c f (globalPartition (fun p => bare (leaves p)) P trees.length) P dataSize saveData true = some file ∧
      ∀ appended, ∃ out, sourceExt d valid rnd sizeQuad P dataSize load false broadcasthead (file ++ appended) =
          some (c, out, List.replicate P ⟨appended, file.length⟩) ∧
        ForestHolds out.forest (loadedTrees load trees) P (loadedLeaves load leaves) ∧ out.forest.revision = 0 ∧
        out.gfp = globalPartition (fun p => bare (leaves p)) P trees.length := by
  obtain ⟨file, h1, h2⟩ := save_source hd h saveData true
  refine ⟨file, h1, h2 valid hvalid rnd load false broadcasthead hload P leaves
    (fun p => if p = 0 then 0 else (((savedPartition true leaves P).getD (p - 1) 0 : ℕ) : ℤ)) h.forest.forest ?_ ?_⟩
  · exact ⟨by simp [savedPartition], rfl⟩
  · intro p hp
    split
    · rename_i h0; subst h0; simp
    · unfold savedPartition
      rw [if_pos rfl, List.getD_eq_getElem?_getD, List.getElem?_map, List.getElem?_range (by omega), Option.map_some, Option.getD_some,
        show p - 1 + 1 = p by omega]

/-- C50, another number of processes. Loading with the partition computed anew succeeds on any number of processes,
whether or not the partition has been saved, and gives the same connectivity and the same leaves in the same trees in the
same order, where process `p` of `P'` has the leaves from `⌊n p / P'⌋` up to `⌊n (p + 1) / P'⌋`. -/
theorem C50_save_load_autopartition (hd : 0 < d) {f : Forest d (List Byte)} {trees : List (List (Quad d × List Byte))} {P : ℕ}
    {leaves : ℕ → List (ℕ × (Quad d × List Byte))} {version : List Byte} {c : ConnFile} {numEtt numCtt sizeQuad dataSize : ℕ}
    (h : CanSave f trees P leaves version c numEtt numCtt sizeQuad dataSize) {valid : ConnFile → Bool} (hvalid : valid c = true)
    (m : ℕ) (rnd : ℚ → ℚ) (hr : Rounding (m + 1) rnd) (P' : ℕ) (hP' : 0 < P') (hsize : ((forestLeaves trees).length + 1) * P' ≤ 2 ^ m)
    (saveData savePartition load broadcasthead : Bool) (hload : load = true → saveData = true) :
    ∃ file, saveExt version sizeQuad c f (globalPartition (fun p => bare (leaves p)) P trees.length) P dataSize saveData savePartition =
        some file ∧
      ∀ appended, ∃ out, sourceExt d valid rnd sizeQuad P' dataSize load true broadcasthead (file ++ appended) =
          some (c, out, List.replicate P' ⟨appended, file.length⟩) ∧
        ForestHolds out.forest (loadedTrees load trees) P'
          (loadedLeaves load (part (forestLeaves trees) fun p => (forestLeaves trees).length * p / P')) ∧ out.forest.revision = 0 ∧
        out.gfp = globalPartition (fun p => bare (part (forestLeaves trees) (fun p => (forestLeaves trees).length * p / P') p)) P' trees.length := by
  obtain ⟨file, h1, h2⟩ := save_source hd h saveData savePartition
  have htot : (forestLeaves trees).length = ∑ i ∈ Finset.range P, (leaves i).length := by
    rw [← h.forest.forest.split, List.length_flatMap]; rfl
  set n := (forestLeaves trees).length with hn
  have hmono : ∀ p, p ≤ P' → n * p / P' ≤ n := by
    intro p hp
    calc n * p / P' ≤ n * P' / P' := Nat.div_le_div_right (Nat.mul_le_mul_left n hp)
      _ = n := Nat.mul_div_cancel _ hP'
  have hstep : ∀ p, n * p / P' ≤ n * (p + 1) / P' := fun p => Nat.div_le_div_right (Nat.mul_le_mul_left n (by omega))
  have hsum : ∀ p, p ≤ P' → ∑ i ∈ Finset.range p, (part (forestLeaves trees) (fun p => n * p / P') i).length = n * p / P' := by
    intro p hp
    induction p with
    | zero => simp
    | succ p ih =>
      have h3 := hmono (p + 1) hp
      have h4 := hstep p
      rw [Finset.sum_range_succ, ih (by omega)]
      unfold part
      rw [List.length_take, List.length_drop, ← hn]
      dsimp only
      omega
  have htake : ∀ p, p ≤ P' → (List.range p).flatMap (part (forestLeaves trees) fun p => n * p / P') = (forestLeaves trees).take (n * p / P') := by
    intro p hp
    induction p with
    | zero => simp
    | succ p ih =>
      have h4 := hstep p
      rw [List.range_succ, List.flatMap_append, ih (by omega), List.flatMap_cons, List.flatMap_nil, List.append_nil]
      unfold part
      dsimp only
      rw [← List.take_add, Nat.add_sub_cancel' h4]
  refine ⟨file, h1, h2 valid hvalid rnd load true broadcasthead hload P' _ (globalFirstQuadrant rnd n P')
    ⟨h.forest.forest.complete, h.forest.forest.someTree, ?_⟩ ⟨?_, ?_⟩ ?_⟩
  · rw [htake P' le_rfl, Nat.mul_div_cancel _ hP', List.take_length]
  · unfold savedPartition
    have := h.forest.forest.procs_pos
    cases savePartition with
    | false => simp
    | true => simp; omega
  · congr 1
    rw [htot]
    unfold savedPartition
    cases savePartition with
    | false => simp
    | true =>
      obtain ⟨k, rfl⟩ : ∃ k, P = k + 1 := ⟨P - 1, by have := h.forest.forest.procs_pos; omega⟩
      rw [if_pos rfl, List.range_succ, List.map_append, List.map_cons, List.map_nil, List.getLastD_concat]
  · intro p hp
    rw [hsum p hp]
    unfold globalFirstQuadrant
    split
    · rename_i h0; subst h0; simp
    · split
      · exact C28_cut_exact m rnd hr n p P' hP' hp hsize
      · have : p = P' := by omega
        subst this
        rw [Nat.mul_div_cancel _ hP']

/-! ### Two trees on four processes -/

/-- Two squares side by side, `p4est_connectivity_new_twotrees (0, 1, 0)`: face 1 of tree 0 is face 0 of tree 1. -/
def squaresFile : ConnFile where
  numVertices := 0
  numTrees := 2
  numEdges := 0
  numCorners := 0
  attrBytes := 3
  vertices := []
  treeToEdge := []
  treeToVertex := []
  treeToCorner := []
  treeToTree := [0, 1, 0, 0, 0, 1, 1, 1]
  treeToFace := [0, 0, 2, 3, 1, 1, 2, 3]
  attr := [1, 2, 3, 4, 5, 6]
  ettOffset := []
  edgeToTree := []
  edgeToEdge := []
  cttOffset := [0]
  cornerToTree := []
  cornerToCorner := []

theorem squaresFile_shape : ConnShape 2 squaresFile 0 0 where
  vertices := rfl
  treeToEdge := ⟨fun _ => rfl, by simp, by simp [Fits, squaresFile]⟩
  treeToVertex := ⟨fun _ => rfl, by simp [squaresFile], by simp [Fits, squaresFile]⟩
  treeToCorner := ⟨fun _ => rfl, by simp [squaresFile], by simp [Fits, squaresFile]⟩
  treeToTree := ⟨by simp, fun _ => rfl, by unfold Fits squaresFile; decide⟩
  treeToFace := ⟨by simp, fun _ => rfl, by unfold Fits squaresFile; decide⟩
  attr := rfl
  ettOffset := ⟨fun _ => rfl, by simp, by simp [Fits, squaresFile]⟩
  edgeToTree := ⟨fun _ => rfl, by simp, by simp [Fits, squaresFile]⟩
  edgeToEdge := ⟨fun _ => rfl, by simp, by simp [Fits, squaresFile]⟩
  cttOffset := ⟨by simp, fun _ => rfl, by unfold Fits squaresFile; decide⟩
  cornerToTree := ⟨fun _ => rfl, by simp [squaresFile], by simp [Fits, squaresFile]⟩
  cornerToCorner := ⟨fun _ => rfl, by simp [squaresFile], by simp [Fits, squaresFile]⟩
  ettLast := by simp
  cttLast := rfl
  noEdges := fun _ => ⟨rfl, rfl⟩
  numTrees := by decide
  numVertices := by decide
  numEdges := by decide
  numEtt := by decide
  numCorners := by decide
  numCtt := by decide
  attrBytes := by decide

/-- The forest of the other examples with two bytes of data on each leaf. -/
def byteData (n : ℕ) : List Byte := [if n = 0 then 5 else 6, 7]

def byteTrees : List (List (Quad 2 × List Byte)) := dataTrees.map (·.map fun x => (x.1, byteData x.2))

def byteLeaves (p : ℕ) : List (ℕ × (Quad 2 × List Byte)) := (dataLeaves p).map fun x => (x.1, (x.2.1, byteData x.2.2))

def byteState (p : ℕ) : RankTrees (Quad 2 × List Byte) :=
  ⟨(dataState p).trees.map (·.map fun x => (x.1, byteData x.2)), (dataState p).first, (dataState p).last⟩

def byteForest : Forest 2 (List Byte) :=
  ⟨byteState, dataForest.gfq, dataForest.gfpTree, dataForest.globalNum, dataForest.numTrees, 7⟩

theorem byteForest_canSave : CanSave byteForest byteTrees 4 byteLeaves (List.replicate 24 0) squaresFile 0 0 40 2 where
  forest :=
    { forest :=
        { complete := by
            intro l hl
            obtain ⟨l', h1, rfl⟩ := List.mem_map.mp hl
            rw [List.map_map]
            exact dataTrees_forest.complete l' h1
          someTree := by simp [byteTrees, dataTrees, twoTrees]
          split := by
            rw [forestLeaves, byteTrees, tagFrom_map (fun x : Quad 2 × ℕ => (x.1, byteData x.2)), ← forestLeaves, ← dataTrees_forest.split,
              List.map_flatMap]
            rfl }
      numTrees := rfl
      few := by decide +kernel
      ranks := by
        intro p hp
        have : p = 0 ∨ p = 1 ∨ p = 2 ∨ p = 3 := by omega
        rcases this with rfl | rfl | rfl | rfl
        all_goals exact ⟨by decide, by decide +kernel, by decide, by decide⟩
      gfq := by
        intro p hp
        have := dataForest_holds.gfq p hp
        simpa [byteForest, byteLeaves] using this
      gfpTree := by decide +kernel
      globalNum := by decide +kernel }
  conn := squaresFile_shape
  connTrees := rfl
  version := rfl
  data := by decide +kernel
  procs := by norm_num
  total := by decide +kernel
  sizeQuad := by norm_num
  dataSize := by norm_num

/-- It is saved by four processes and loaded by four and by three, with data and without. -/
example : ∃ file out, saveExt (List.replicate 24 0) 40 squaresFile byteForest (globalPartition (fun p => bare (byteLeaves p)) 4 2) 4 2 true true =
      some file ∧
    sourceExt 2 (fun _ => true) id 40 4 2 true false true file = some (squaresFile, out, List.replicate 4 ⟨[], file.length⟩) ∧
    ForestHolds out.forest byteTrees 4 byteLeaves := by
  obtain ⟨file, h1, h2⟩ := C50_save_load (by norm_num) byteForest_canSave (valid := fun _ => true) rfl id true true true (fun _ => rfl)
  obtain ⟨out, h3, h4, -⟩ := h2 []
  rw [List.append_nil] at h3
  exact ⟨file, out, h1, h3, h4⟩

example : ∃ file out, saveExt (List.replicate 24 0) 40 squaresFile byteForest (globalPartition (fun p => bare (byteLeaves p)) 4 2) 4 2 true false =
      some file ∧
    sourceExt 2 (fun _ => true) id 40 3 2 false true false file = some (squaresFile, out, List.replicate 3 ⟨[], file.length⟩) ∧
    ForestHolds out.forest (treesWithData [] byteTrees) 3 (fun p => withData [] (part (forestLeaves byteTrees) (fun p => 5 * p / 3) p)) := by
  obtain ⟨file, h1, h2⟩ := C50_save_load_autopartition (by norm_num) byteForest_canSave (valid := fun _ => true) rfl 63 id
    ⟨fun _ _ h => h, fun _ _ _ => rfl⟩ 3 (by norm_num) (by rw [show (forestLeaves byteTrees).length = 5 by decide +kernel]; norm_num)
    true false false false (by simp)
  obtain ⟨out, h3, h4, -⟩ := h2 []
  rw [List.append_nil] at h3
  rw [show (forestLeaves byteTrees).length = 5 by decide +kernel] at h4
  exact ⟨file, out, h1, h3, h4⟩

/-- The file has 288 bytes before the five leaves of 14 bytes each, and the last is the leaf of the second tree. -/
example : (saveExt (List.replicate 24 0) 40 squaresFile byteForest (globalPartition (fun p => bare (byteLeaves p)) 4 2) 4 2 true true).map
    (fun file => (file.length, file.drop 344)) = some (358, [0, 0, 0, 0, 0, 0, 0, 0, 0, 0, 0, 0, 5, 7]) := by decide +kernel

end P4est
