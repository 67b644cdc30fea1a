import Verif.Lemmas.File
import Verif.Props.Pertree

/-! # Lemmas for saving and loading a forest -/

namespace P4est
open Spec

variable {d : ℕ}

/-- The bytes of a leaf in the file. -/
def fileLeaf (sd : Bool) (x : Quad d × List Byte) : List Byte :=
  (deflateQuad x.1).flatMap (encodeInt 4) ++ if sd then x.2 else []

/-- The data of a leaf have the right size, and the numbers of a leaf fit. -/
def LeafFits (sd : Bool) (ds : ℕ) (x : Quad d × List Byte) : Prop :=
  (if sd then x.2.length = ds else ds = 0) ∧ Fits 4 (deflateQuad x.1)

theorem fileLeaf_length {sd : Bool} {ds : ℕ} {x : Quad d × List Byte} (h : LeafFits sd ds x) :
    (fileLeaf sd x).length = (d + 1) * 4 + ds := by
  unfold fileLeaf
  rw [List.length_append, flatMap_encode_length _ 4 (encodeInt_length 4), deflateQuad_length]
  have := h.1
  cases sd
  · simp at this ⊢; omega
  · simp at this ⊢; omega

theorem leaves_length {sd : Bool} {ds : ℕ} {ls : List (Quad d × List Byte)} (h : ∀ x ∈ ls, LeafFits sd ds x) :
    (ls.flatMap (fileLeaf sd)).length = ls.length * ((d + 1) * 4 + ds) := by
  induction ls with
  | nil => simp
  | cons x ls ih =>
    rw [List.flatMap_cons, List.length_append, fileLeaf_length (h x (by simp)), ih fun y hy => h y (by simp [hy]), List.length_cons]
    ring

theorem leaf_fits {q : Quad d} (hq : Valid q) : Fits 4 (deflateQuad q) := by
  have h1 := hq.int32
  have h2 := hq.1
  intro x hx
  unfold deflateQuad at hx
  rw [List.mem_append, List.mem_ofFn, List.mem_singleton] at hx
  rcases hx with ⟨i, rfl⟩ | rfl
  · have := h1 i
    norm_num
    omega
  · norm_num
    omega

/-! ### Save -/

theorem alignFile_spec (n : ℕ) (file : List Byte) (h : zpadding file.length < n) :
    alignFile n file = some (file ++ List.replicate (zpadding file.length) 0) := by
  induction n generalizing file with
  | zero => omega
  | succ n ih =>
    rw [alignFile]
    split
    · rename_i h0
      have : zpadding file.length = 0 := by unfold zpadding; omega
      rw [this]; simp
    · rename_i h0
      have e : zpadding (file ++ [0]).length + 1 = zpadding file.length := by
        unfold zpadding
        rw [List.length_append, List.length_singleton]
        omega
      rw [ih _ (by omega), List.append_assoc, ← e, List.replicate_succ]
      rfl

theorem alignFile_eq (file : List Byte) : alignFile 32 file = some (file ++ List.replicate (zpadding file.length) 0) :=
  alignFile_spec 32 file (by unfold zpadding; omega)

theorem zpadding_mod (n : ℕ) : (n + zpadding n) % 32 = 0 := by unfold zpadding; omega

theorem zpadding_add {a : ℕ} (h : a % 32 = 0) (b : ℕ) : zpadding (a + b) = zpadding b := by unfold zpadding; omega

theorem saveLeaf_spec {sd : Bool} {ds : ℕ} {x : Quad d × List Byte} (h : LeafFits sd ds x) : saveLeaf sd ds x = some (fileLeaf sd x) := by
  unfold saveLeaf fileLeaf
  have h1 := h.1
  cases sd with
  | false => rfl
  | true =>
    simp only [if_true] at h1 ⊢
    rw [obind (put_bytes (c := true) h1 (Or.inl rfl))]
    rfl

theorem saveTrees_loop {sd : Bool} {ds : ℕ} {rt : RankTrees (Quad d × List Byte)} (A : ℕ → List (Quad d × List Byte)) (n t : ℕ)
    (h : ∀ i, t ≤ i → i < t + n → rt.trees[i]? = some (A i)) (hA : ∀ i, t ≤ i → i < t + n → ∀ x ∈ A i, LeafFits sd ds x) :
    saveTrees sd ds rt n t = some (((List.range n).flatMap fun i => A (t + i)).flatMap (fileLeaf sd)) := by
  induction n generalizing t with
  | zero => rfl
  | succ n ih =>
    rw [saveTrees, obind (h t le_rfl (by omega)), obind (mapM_some (g := fileLeaf sd) fun x hx => saveLeaf_spec (hA t le_rfl (by omega) x hx)),
      obind (ih (t + 1) (fun i h1 h2 => h i (by omega) (by omega)) fun i h1 h2 => hA i (by omega) (by omega))]
    have e : (List.range (n + 1)).flatMap (fun i => A (t + i)) = A t ++ (List.range n).flatMap fun i => A (t + 1 + i) := by
      rw [List.range_succ_eq_map, List.flatMap_cons, List.flatMap_map, Nat.add_zero]
      congr 2
      funext i
      rw [show t + i.succ = t + 1 + i by omega]
    rw [e, List.flatMap_append, ← List.flatMap_def]

theorem saveTrees_spec {sd : Bool} {ds T : ℕ} {L : List (ℕ × (Quad d × List Byte))} {rt : RankTrees (Quad d × List Byte)}
    (h : Holds T L rt) (hL : ∀ x ∈ L, LeafFits sd ds x.2) :
    saveTrees sd ds rt (localTrees rt) rt.first.toNat = some ((L.map Prod.snd).flatMap (fileLeaf sd)) := by
  by_cases hne : L = []
  · subst hne
    have := h.empty
    have e : P4est.localTrees rt = 0 := by unfold P4est.localTrees; rw [this.1, this.2]; rfl
    rw [e]
    rfl
  · have h0 := h.nonempty hne
    have hb : ∀ x ∈ L, rt.first.toNat ≤ x.1 ∧ x.1 < rt.first.toNat + P4est.localTrees rt := by
      intro x hx
      have := h.bounds hx
      unfold P4est.localTrees
      omega
    rw [saveTrees_loop (leavesIn L) (P4est.localTrees rt) rt.first.toNat (fun i h1 h2 => h.get (by
      unfold P4est.localTrees at h2; omega)) (by
        intro i _ _ x hx
        obtain ⟨y, hy, rfl⟩ := List.mem_map.mp hx
        exact hL y (List.mem_filter.mp hy).1)]
    have e : (List.range (P4est.localTrees rt)).flatMap (fun i => leavesIn L (rt.first.toNat + i)) = L.map Prod.snd := by
      have := h.sorted.map_snd rt.first.toNat (P4est.localTrees rt) hb
      rw [this]
    rw [e]

theorem writeAt_end (file b : List Byte) : writeAt file file.length b = file ++ b := by
  unfold writeAt
  simp

theorem saveRanks_spec {sd : Bool} {ds T P : ℕ} {f : Forest d (List Byte)} {leaves : ℕ → List (ℕ × (Quad d × List Byte))}
    (hr : ∀ p, p < P → Holds T (leaves p) (f.ranks p)) (hL : ∀ p, p < P → ∀ x ∈ leaves p, LeafFits sd ds x.2)
    (hgfq : ∀ p, p ≤ P → f.gfq p = ((∑ i ∈ Finset.range p, (leaves i).length : ℕ) : ℤ)) (H : List Byte) (n r : ℕ) (hn : r + n = P) :
    saveRanks sd ds f H.length n r (H ++ (((List.range r).flatMap leaves).map Prod.snd).flatMap (fileLeaf sd)) =
      some (H ++ (((List.range P).flatMap leaves).map Prod.snd).flatMap (fileLeaf sd)) := by
  induction n generalizing r with
  | zero => rw [show r = P by omega]; rfl
  | succ n ih =>
    rw [saveRanks, obind (saveTrees_spec (hr r (by omega)) (hL r (by omega)))]
    have hl : ((((List.range r).flatMap leaves).map Prod.snd).flatMap (fileLeaf sd)).length =
        (∑ i ∈ Finset.range r, (leaves i).length) * ((d + 1) * 4 + ds) := by
      rw [leaves_length (ds := ds), List.length_map, List.length_flatMap]
      · rfl
      · intro x hx
        obtain ⟨y, hy, rfl⟩ := List.mem_map.mp hx
        obtain ⟨p, hp, hy⟩ := List.mem_flatMap.mp hy
        exact hL p (by have := List.mem_range.mp hp; omega) y hy
    have e : H.length + (f.gfq r * (((d + 1) * 4 + ds : ℕ) : ℤ)).toNat =
        (H ++ (((List.range r).flatMap leaves).map Prod.snd).flatMap (fileLeaf sd)).length := by
      rw [hgfq r (by omega), List.length_append, hl]
      congr 1
    rw [e, writeAt_end, List.append_assoc, ← List.flatMap_append, ← List.map_append]
    have e2 : (List.range r).flatMap leaves ++ leaves r = (List.range (r + 1)).flatMap leaves := by
      rw [List.range_succ, List.flatMap_append]; simp
    rw [e2]
    exact ih (r + 1) (by omega)

/-! ### Load -/

theorem skipIf_spec {c : Bool} {n : ℕ} (b : List Byte) (h : b.length = n) (hc : c = true ∨ n = 0) (r : List Byte) (k : ℕ) :
    Source.skipIf c ⟨b ++ r, k⟩ n = some ⟨r, k + n⟩ := by
  unfold Source.skipIf
  split
  · exact skip_spec b h r k
  · rename_i h1
    have : n = 0 := by rcases hc with h2 | h2; exact absurd h2 h1; exact h2
    have : b = [] := List.length_eq_zero_iff.mp (by omega)
    subst this
    subst h
    rfl

theorem loadLeaf_spec {sd load : Bool} {ds : ℕ} {x : Quad d × List Byte} (h : LeafFits sd ds x) (hl : load = true → sd = true)
    (r : List Byte) (k : ℕ) :
    loadLeaf d ds load ⟨fileLeaf sd x ++ r, k⟩ =
      some ((deflateQuad x.1, if load then x.2 else []), ⟨r, k + (fileLeaf sd x).length⟩) := by
  have hlen := fileLeaf_length h
  have hq : (deflateQuad x.1).flatMap (encodeInt 4) = (deflateQuad x.1).flatMap (encodeInt 4) ++ [] := by simp
  have hql : ((deflateQuad x.1).flatMap (encodeInt 4)).length = (d + 1) * 4 := by
    rw [flatMap_encode_length _ 4 (encodeInt_length 4), deflateQuad_length]; ring
  unfold loadLeaf
  cases load with
  | true =>
    have hsd := hl rfl
    subst hsd
    rw [if_pos rfl, obind (decodes_read _ hlen r k)]
    dsimp only
    unfold fileLeaf
    simp only [if_true]
    have h1 := h.1
    simp only [if_true] at h1
    rw [List.drop_left' hql, ← h1, List.take_length]
    congr 3
    have hch : ∀ (n : ℕ) (a : List ℤ) (y : List Byte), a.length = n → chunks 4 n (a.flatMap (encodeInt 4) ++ y) = a.map (encodeInt 4) := by
      intro n a y ha
      induction a generalizing n with
      | nil => subst ha; rfl
      | cons z a ih =>
        subst ha
        rw [List.flatMap_cons, List.append_assoc, List.length_cons, chunks]
        have e1 : (encodeInt 4 z ++ (a.flatMap (encodeInt 4) ++ y)).take 4 = encodeInt 4 z := List.take_left' (encodeInt_length 4 z)
        have e2 : (encodeInt 4 z ++ (a.flatMap (encodeInt 4) ++ y)).drop 4 = a.flatMap (encodeInt 4) ++ y := List.drop_left' (encodeInt_length 4 z)
        rw [e1, e2, ih _ rfl, List.map_cons]
    rw [hch (d + 1) _ _ (deflateQuad_length x.1), List.map_map]
    rw [List.map_congr_left (g := id), List.map_id]
    intro y hy
    exact decodeInt_encodeInt (h.2 y hy)
  | false =>
    rw [if_neg (by simp)]
    unfold fileLeaf at hlen ⊢
    rw [List.append_assoc, obind (decodes_ints (deflateQuad_length x.1) h.2 _ _)]
    dsimp only
    have hds : (if sd then x.2 else []).length = ds := by
      have h1 := h.1
      cases sd
      · simp at h1 ⊢; omega
      · simpa using h1
    rw [obind (skipIf_spec _ hds (by simp only [decide_eq_true_eq]; omega) r _)]
    simp only [List.length_append, hds]
    simp [Nat.add_assoc]

theorem loadLeaves_spec {sd load : Bool} {ds : ℕ} (hl : load = true → sd = true) (ls : List (Quad d × List Byte))
    (h : ∀ x ∈ ls, LeafFits sd ds x) (r : List Byte) (k : ℕ) :
    loadLeaves d ds load ls.length ⟨ls.flatMap (fileLeaf sd) ++ r, k⟩ =
      some ((ls.flatMap fun x => deflateQuad x.1, ls.map fun x => if load then x.2 else []), ⟨r, k + (ls.flatMap (fileLeaf sd)).length⟩) := by
  induction ls generalizing k with
  | nil => rfl
  | cons x ls ih =>
    rw [List.length_cons, loadLeaves, List.flatMap_cons, List.append_assoc, obind (loadLeaf_spec (h x (by simp)) hl _ _)]
    dsimp only
    rw [obind (ih (fun y hy => h y (by simp [hy])) _)]
    dsimp only
    rw [List.flatMap_cons, List.map_cons, List.length_append, Nat.add_assoc]

/-- The bytes of the first six numbers. -/
def headNums (d sizeQuad ds : ℕ) (sd : Bool) (snp : ℕ) : List ℕ := [ondiskFormat d, 4, sizeQuad, ds, if sd then 1 else 0, snp]

/-- All bytes before the leaves: connectivity, gap, header, gap. -/
def fileHead (C : List Byte) (head : List ℕ) (part pertree : List ℕ) : List Byte :=
  C ++ (List.replicate (zpadding C.length) 0 ++ ((head.map fun x : ℕ => (x : ℤ)).flatMap (encodeInt 8) ++
    ((part.map fun x : ℕ => (x : ℤ)).flatMap (encodeInt 8) ++ (pertree.map fun x : ℕ => (x : ℤ)).flatMap (encodeInt 8))))

theorem fileHead_length (C : List Byte) (head part pertree : List ℕ) :
    (fileHead C head part pertree).length = C.length + zpadding C.length + 8 * head.length + 8 * part.length + 8 * pertree.length := by
  unfold fileHead
  simp only [List.length_append, List.length_replicate, flatMap_encode_length _ 8 (encodeInt_length 8), List.length_map]
  ring

/-- The partition that is read. -/
def Partition (rnd : ℚ → ℚ) (P : ℕ) (auto : Bool) (part : List ℕ) (gfq : ℕ → ℤ) : Prop :=
  if auto then part ≠ [] ∧ gfq = globalFirstQuadrant rnd (part.getLastD 0) P
  else part.length = P ∧ gfq = fun p => if p = 0 then 0 else (part.getD (p - 1) 0 : ℤ)

theorem loadPartition_spec {rnd : ℚ → ℚ} {P : ℕ} {auto : Bool} {part : List ℕ} {gfq : ℕ → ℤ} (h : Partition rnd P auto part gfq)
    (hp : ∀ x ∈ part, x < 2 ^ 63) (r : List Byte) (k : ℕ) :
    loadPartition rnd P auto part.length ⟨(part.map fun x : ℕ => (x : ℤ)).flatMap (encodeInt 8) ++ r, k⟩ =
      some (gfq, ⟨r, k + 8 * part.length⟩) := by
  have hs : ∀ x : ℕ, x < 2 ^ 63 → toSigned 8 x = x := fun x hx => toSigned_small (by norm_num at hx ⊢; omega)
  unfold loadPartition
  cases auto with
  | false =>
    obtain ⟨h1, rfl⟩ := h
    rw [if_pos (by rfl), obind (decodes_u64s h1 (fun x hx => (hp x hx).trans (by norm_num)) r k)]
    dsimp only
    rw [flatMap_encode_length _ 8 (encodeInt_length 8), List.length_map]
    congr 2
    funext p
    split
    · rfl
    · apply hs
      rw [List.getD_eq_getElem?_getD]
      cases hc : part[p - 1]? with
      | none => simp
      | some y => exact hp y (List.mem_of_getElem? hc)
  | true =>
    obtain ⟨h1, rfl⟩ := h
    rw [if_neg (by simp)]
    obtain ⟨init, y, rfl⟩ : ∃ init y, part = init ++ [y] := ⟨part.dropLast, part.getLast h1, (List.dropLast_append_getLast h1).symm⟩
    rw [List.map_append, List.flatMap_append, List.append_assoc]
    rw [obind (skip_spec (n := ((((init ++ [y]).length : ℕ) : ℤ) - 1).toNat * 8) _ (by
      rw [flatMap_encode_length _ 8 (encodeInt_length 8), List.length_map, List.length_append, List.length_singleton]
      have : (((init.length + 1 : ℕ) : ℤ) - 1).toNat = init.length := by omega
      rw [this]; ring) _ _)]
    rw [obind (decodes_u64s (count := 1) (a := [y]) rfl (fun x hx => by
      have := hp x (by simp at hx ⊢; exact Or.inr hx)
      exact this.trans (by norm_num)) r _)]
    dsimp only
    rw [List.getD_cons_zero, hs y (hp y (by simp)), flatMap_encode_length _ 8 (encodeInt_length 8), Int.toNat_natCast]
    congr 3
    · simp
    · simp only [List.length_append, List.length_cons, List.length_nil, List.map_cons, List.map_nil]
      have : (((init.length + 1 : ℕ) : ℤ) - 1).toNat = init.length := by omega
      simp only [Nat.zero_add]
      rw [this]; ring

theorem loadHead_spec {valid : ConnFile → Bool} {rnd : ℚ → ℚ} {version : List Byte} (hv : version.length = 24) {c : ConnFile}
    {numEtt numCtt : ℕ} (hc : ConnShape d c numEtt numCtt) (hvc : valid c = true) {sizeQuad P dataSize ds : ℕ} {sd load auto : Bool}
    (hsq : sizeQuad < 2 ^ 64) (hds : ds < 2 ^ 64) (hload : load = true → sd = true ∧ ds = dataSize)
    {part pertree : List ℕ} {gfq : ℕ → ℤ} (hp : Partition rnd P auto part gfq) (hpart : ∀ x ∈ part, x < 2 ^ 63)
    (hsnp : part.length < 2 ^ 31) (ht : pertree.length = c.numTrees) (htp : ∀ x ∈ pertree, x < 2 ^ 63)
    (htot : some (gfq P) = ((0 :: pertree).map fun x : ℕ => (x : ℤ))[c.numTrees]?) (r : List Byte) :
    loadHead d valid rnd sizeQuad P dataSize load auto
      ⟨fileHead (connBytes d version c numEtt numCtt) (headNums d sizeQuad ds sd part.length) part pertree ++ r, 0⟩ =
    some (⟨c, (connBytes d version c numEtt numCtt).length + zpadding (connBytes d version c numEtt numCtt).length, ds, part.length, gfq,
        (0 :: pertree).map fun x : ℕ => (x : ℤ)⟩,
      ⟨r, (fileHead (connBytes d version c numEtt numCtt) (headNums d sizeQuad ds sd part.length) part pertree).length⟩) := by
  have hconn := connSource_spec hv hc hvc
  have ho : ondiskFormat d < 2 ^ 64 := by unfold ondiskFormat; split <;> norm_num
  rw [fileHead_length]
  unfold loadHead fileHead
  generalize connBytes d version c numEtt numCtt = C at hconn
  simp only [List.append_assoc]
  rw [obind (hconn _ _)]
  dsimp only
  rw [Nat.zero_add, obind (skip_spec _ (by simp) _ _), obind (decodes_u64s (count := 6) (a := headNums d sizeQuad ds sd part.length) rfl (by
    intro x hx
    simp only [headNums, List.mem_cons, List.not_mem_nil, or_false] at hx
    rcases hx with rfl | rfl | rfl | rfl | rfl | rfl
    · assumption
    · omega
    · assumption
    · assumption
    · split <;> norm_num
    · omega) _ _)]
  dsimp only
  have hP : toSigned 4 ((headNums d sizeQuad ds sd part.length).getD 5 0) = part.length := by
    unfold headNums
    simp only [List.getD_cons_succ, List.getD_cons_zero]
    exact toSigned_small (by omega)
  have h4 : sd = true → toSigned 4 ((headNums d sizeQuad ds sd part.length).getD 4 0) = 1 := by
    intro h; subst h
    unfold headNums
    simp only [List.getD_cons_succ, List.getD_cons_zero, if_true]
    rfl
  rw [hP]
  rw [if_neg (by
    push Not
    refine ⟨rfl, rfl, rfl, ?_, ?_⟩
    · intro hl
      obtain ⟨h1, h2⟩ := hload hl
      exact ⟨h2, by rw [h4 h1]; norm_num⟩
    · cases auto with
      | true => left; rfl
      | false => right; exact_mod_cast hp.1.symm)]
  rw [obind (loadPartition_spec hp hpart _ _)]
  dsimp only
  rw [obind (decodes_u64s ht (fun x hx => (htp x hx).trans (by norm_num)) _ _)]
  dsimp only
  have hmap : (0 :: pertree.map (toSigned 8) : List ℤ) = (0 :: pertree).map fun x : ℕ => (x : ℤ) := by
    rw [List.map_cons]
    congr 1
    apply List.map_congr_left
    intro x hx
    have := htp x hx
    exact toSigned_small (by norm_num at this ⊢; omega)
  rw [hmap, if_neg (by rw [htot]; simp)]
  have e3 : (headNums d sizeQuad ds sd part.length).getD 3 0 = ds := rfl
  have e6 : (headNums d sizeQuad ds sd part.length).length = 6 := rfl
  rw [e3]
  simp only [flatMap_encode_length _ 8 (encodeInt_length 8), List.length_map, e6]

theorem slice_split {γ : Type} (l : List γ) {a b : ℕ} (h : a ≤ b) : l = l.take a ++ (slice a b l ++ l.drop b) := by
  have h1 := List.take_append_drop b l
  have h2 := List.take_append_drop a (l.take b)
  rw [List.take_take, min_eq_left h] at h2
  unfold slice
  rw [← List.append_assoc, h2, h1]

/-- The bytes between header and leaves. -/
def secondGap (snp T : ℕ) : List Byte := List.replicate (zpadding ((6 + snp + T) * 8)) 0

theorem loadRank_spec {sd load : Bool} (hl : load = true → sd = true) {P rank : ℕ} (hr : rank < P)
    (leaves : ℕ → List (ℕ × (Quad d × List Byte))) {h : LoadHead}
    (hL : ∀ x ∈ (List.range P).flatMap leaves, LeafFits sd h.saveDataSize x.2)
    (hgfq : ∀ p, p ≤ P → h.gfq p = ((∑ i ∈ Finset.range p, (leaves i).length : ℕ) : ℤ))
    (H r : List Byte) (hH : H.length = h.fileOffset) (own : Bool) (hown : own = false → 0 < rank) :
    loadRank d load own h P rank (if own then
        ⟨secondGap h.saveNumProcs.toNat h.conn.numTrees ++ ((((List.range P).flatMap leaves).map Prod.snd).flatMap (fileLeaf sd) ++ r), H.length⟩
      else ⟨H ++ (secondGap h.saveNumProcs.toNat h.conn.numTrees ++ ((((List.range P).flatMap leaves).map Prod.snd).flatMap (fileLeaf sd) ++ r)), 0⟩) =
    some ((((leaves rank).map Prod.snd).flatMap (fun x => deflateQuad x.1),
        if load then some ((leaves rank).map fun x => x.2.2) else none),
      ⟨r, H.length + (secondGap h.saveNumProcs.toNat h.conn.numTrees).length +
        ((((List.range P).flatMap leaves).map Prod.snd).flatMap (fileLeaf sd)).length⟩) := by
  have hfull := hL
  have hslice := rank_slice leaves P rank hr
  have htot : ((List.range P).flatMap leaves).length = ∑ i ∈ Finset.range P, (leaves i).length := by
    rw [List.length_flatMap]; rfl
  have hm1 : ∑ i ∈ Finset.range rank, (leaves i).length ≤ ∑ i ∈ Finset.range (rank + 1), (leaves i).length := prefix_mono _ (Nat.le_succ rank)
  have hm2 : ∑ i ∈ Finset.range (rank + 1), (leaves i).length ≤ ∑ i ∈ Finset.range P, (leaves i).length := prefix_mono _ (show rank + 1 ≤ P by omega)
  have hlen : (leaves rank).length = ∑ i ∈ Finset.range (rank + 1), (leaves i).length - ∑ i ∈ Finset.range rank, (leaves i).length := by
    rw [Finset.sum_range_succ]; omega
  have g0 := hgfq rank hr.le
  have g1 := hgfq (rank + 1) hr
  have gP := hgfq P le_rfl
  generalize hA : ∑ i ∈ Finset.range rank, (leaves i).length = a at *
  generalize hB : ∑ i ∈ Finset.range (rank + 1), (leaves i).length = b at *
  generalize hC : ∑ i ∈ Finset.range P, (leaves i).length = n at *
  generalize (List.range P).flatMap leaves = full at *
  have hsp := slice_split full hm1
  rw [← hslice] at hsp
  have hpre : ∀ x ∈ (full.take a).map Prod.snd, LeafFits sd h.saveDataSize x := by
    intro x hx
    obtain ⟨y, hy, rfl⟩ := List.mem_map.mp hx
    exact hfull y (List.mem_of_mem_take hy)
  have hpost : ∀ x ∈ (full.drop b).map Prod.snd, LeafFits sd h.saveDataSize x := by
    intro x hx
    obtain ⟨y, hy, rfl⟩ := List.mem_map.mp hx
    exact hfull y (List.mem_of_mem_drop hy)
  have hmid : ∀ x ∈ (leaves rank).map Prod.snd, LeafFits sd h.saveDataSize x := by
    intro x hx
    obtain ⟨y, hy, rfl⟩ := List.mem_map.mp hx
    rw [hslice] at hy
    exact hfull y (List.mem_of_mem_take (List.mem_of_mem_drop hy))
  have lpre := leaves_length hpre
  have lpost := leaves_length hpost
  have lmid := leaves_length hmid
  rw [List.length_map, List.length_take, min_eq_left (by omega)] at lpre
  rw [List.length_map, List.length_drop, htot] at lpost
  rw [List.length_map] at lmid
  have hbytes : (full.map Prod.snd).flatMap (fileLeaf sd) = ((full.take a).map Prod.snd).flatMap (fileLeaf sd) ++
      (((leaves rank).map Prod.snd).flatMap (fileLeaf sd) ++ ((full.drop b).map Prod.snd).flatMap (fileLeaf sd)) := by
    conv_lhs => rw [hsp]
    rw [List.map_append, List.map_append, List.flatMap_append, List.flatMap_append]
  have hgap : (secondGap h.saveNumProcs.toNat h.conn.numTrees).length = zpadding ((6 + h.saveNumProcs.toNat + h.conn.numTrees) * 8) := by
    unfold secondGap; simp
  rw [hbytes]
  have hln := loadLeaves_spec hl ((leaves rank).map Prod.snd) hmid
  have e1 : (h.gfq (rank + 1) - h.gfq rank).toNat = ((leaves rank).map Prod.snd).length := by
    rw [List.length_map, g0, g1, hlen]; omega
  have e2 : (h.gfq rank).toNat = a := by rw [g0]; rfl
  have e3 : (h.gfq P - h.gfq (rank + 1)).toNat = n - b := by rw [gP, g1]; omega
  simp only [List.append_assoc]
  unfold loadRank
  rw [e1, e2, e3]
  dsimp only
  have hfirst : Source.skipIf (decide (zpadding ((6 + h.saveNumProcs.toNat + h.conn.numTrees) * 8) > 0 ∨ rank > 0))
      (if own then
        ⟨secondGap h.saveNumProcs.toNat h.conn.numTrees ++ (((full.take a).map Prod.snd).flatMap (fileLeaf sd) ++
          (((leaves rank).map Prod.snd).flatMap (fileLeaf sd) ++ (((full.drop b).map Prod.snd).flatMap (fileLeaf sd) ++ r))), H.length⟩
      else ⟨H ++ (secondGap h.saveNumProcs.toNat h.conn.numTrees ++ (((full.take a).map Prod.snd).flatMap (fileLeaf sd) ++
          (((leaves rank).map Prod.snd).flatMap (fileLeaf sd) ++ (((full.drop b).map Prod.snd).flatMap (fileLeaf sd) ++ r)))), 0⟩)
      ((if own then 0 else h.fileOffset) + zpadding ((6 + h.saveNumProcs.toNat + h.conn.numTrees) * 8) + a * ((d + 1) * 4 + h.saveDataSize)) =
      some ⟨((leaves rank).map Prod.snd).flatMap (fileLeaf sd) ++ (((full.drop b).map Prod.snd).flatMap (fileLeaf sd) ++ r),
        H.length + (secondGap h.saveNumProcs.toNat h.conn.numTrees).length + (((full.take a).map Prod.snd).flatMap (fileLeaf sd)).length⟩ := by
    rw [lpre, hgap]
    cases own with
    | true =>
      simp only [if_true]
      rw [← List.append_assoc, skipIf_spec _ (n := 0 + zpadding ((6 + h.saveNumProcs.toNat + h.conn.numTrees) * 8) +
        a * ((d + 1) * 4 + h.saveDataSize)) (by rw [List.length_append, lpre, hgap]; omega)]
      · congr 2; omega
      · by_cases h0 : zpadding ((6 + h.saveNumProcs.toNat + h.conn.numTrees) * 8) > 0 ∨ rank > 0
        · left; simpa using h0
        · right
          push Not at h0
          have : rank = 0 := by omega
          subst this
          have : a = 0 := by rw [← hA]; simp
          rw [this]; omega
    | false =>
      simp only [Bool.false_eq_true, if_false]
      have := hown rfl
      rw [← List.append_assoc, ← List.append_assoc, skipIf_spec _ (n := h.fileOffset + zpadding ((6 + h.saveNumProcs.toNat + h.conn.numTrees) * 8) +
        a * ((d + 1) * 4 + h.saveDataSize)) (by rw [List.length_append, List.length_append, lpre, hgap, hH])]
      · congr 2; omega
      · left; simp only [decide_eq_true_eq]; omega
  rw [obind hfirst, obind (hln _ _)]
  dsimp only
  rw [obind (skipIf_spec _ lpost (by simp only [decide_eq_true_eq]; by_cases h0 : n = b; · right; rw [h0]; simp
                                     · left; rw [gP, g1]; omega) r _)]
  have hdata : (if load then some (((leaves rank).map Prod.snd).map fun x => if load then x.2 else []) else none) =
      if load then some ((leaves rank).map fun x => x.2.2) else none := by
    cases load with
    | false => simp
    | true => simp [Function.comp_def]
  rw [List.length_append, List.length_append, lpost, hdata]
  simp only [Nat.add_assoc]

end P4est
