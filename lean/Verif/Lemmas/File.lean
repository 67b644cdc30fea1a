import Verif.Spec.File
import Mathlib.Tactic.Linarith
import Mathlib.Tactic.Ring

/-! # Lemmas for files -/

namespace P4est
open Spec

variable {d : ℕ}

/-! ### Numbers -/

theorem encodeLE_length (n x : ℕ) : (encodeLE n x).length = n := by
  induction n generalizing x with
  | zero => rfl
  | succ n ih => rw [encodeLE, List.length_cons, ih]

theorem decodeLE_encodeLE (n x : ℕ) (h : x < 256 ^ n) : decodeLE (encodeLE n x) = x := by
  induction n generalizing x with
  | zero => rw [pow_zero] at h; rw [encodeLE, decodeLE]; omega
  | succ n ih =>
    rw [encodeLE, decodeLE, ih (x / 256) (by rw [pow_succ] at h; omega)]
    dsimp only
    omega

theorem encodeInt_length (n : ℕ) (x : ℤ) : (encodeInt n x).length = n := encodeLE_length _ _

theorem decodeLE_encodeInt (n : ℕ) (x : ℤ) : (decodeLE (encodeInt n x) : ℤ) = x % 256 ^ n := by
  have hp : (0 : ℤ) < 256 ^ n := by positivity
  have h1 := Int.emod_nonneg x hp.ne'
  have h2 := Int.emod_lt_of_pos x hp
  unfold encodeInt
  rw [decodeLE_encodeLE]
  · omega
  · zify; rw [Int.toNat_of_nonneg h1]; exact h2

theorem decodeLE_encodeInt_nat (n : ℕ) (x : ℕ) (h : x < 256 ^ n) : decodeLE (encodeInt n x) = x := by
  have h1 := decodeLE_encodeInt n x
  rw [Int.emod_eq_of_lt (by omega) (by exact_mod_cast h)] at h1
  exact_mod_cast h1

theorem toSigned_small {n x : ℕ} (h : 2 * x < 256 ^ n) : toSigned n x = x := by
  have hm : x % 256 ^ n = x := Nat.mod_eq_of_lt (by omega)
  unfold toSigned
  rw [hm, if_pos h]

theorem decodeInt_encodeInt {n : ℕ} {x : ℤ} (h : -(256 ^ n : ℤ) ≤ 2 * x ∧ 2 * x < 256 ^ n) : decodeInt n (encodeInt n x) = x := by
  have hp : (0 : ℤ) < 256 ^ n := by positivity
  have h1 := decodeLE_encodeInt n x
  have h2 := Int.emod_lt_of_pos x hp
  have h3 : decodeLE (encodeInt n x) < 256 ^ n := by zify; omega
  unfold decodeInt toSigned
  rw [Nat.mod_eq_of_lt h3, h1]
  rcases le_or_gt 0 x with h4 | h4
  · rw [Int.emod_eq_of_lt h4 (by omega)] at h1 ⊢
    rw [if_pos]
    zify
    omega
  · have h5 : x % 256 ^ n = x + 256 ^ n := by
      rw [← Int.add_emod_right, Int.emod_eq_of_lt (by omega) (by omega)]
    rw [h5] at h1 ⊢
    rw [if_neg, Int.add_sub_cancel]
    zify
    omega

/-! ### Reading what was written -/

/-- The operation reads exactly these bytes and gives this value. -/
def Decodes {β : Type} (g : Source → Option (β × Source)) (b : List Byte) (x : β) : Prop :=
  ∀ r k, g ⟨b ++ r, k⟩ = some (x, ⟨r, k + b.length⟩)

theorem decodes_read {n : ℕ} (b : List Byte) (h : b.length = n) (r : List Byte) (k : ℕ) :
    (⟨b ++ r, k⟩ : Source).read n = some (b, ⟨r, k + b.length⟩) := by
  subst h
  unfold Source.read
  dsimp only
  rw [if_pos (by rw [List.length_append]; omega), List.take_left, List.drop_left]

theorem skip_spec {n : ℕ} (b : List Byte) (h : b.length = n) (r : List Byte) (k : ℕ) :
    (⟨b ++ r, k⟩ : Source).skip n = some ⟨r, k + n⟩ := by
  unfold Source.skip
  rw [decodes_read b h r k, h]
  rfl

theorem chunks_flatMap {β : Type} (enc : β → List Byte) (n : ℕ) (h : ∀ x, (enc x).length = n) (a : List β) (count : ℕ) (ha : a.length = count) :
    chunks n count (a.flatMap enc) = a.map enc := by
  induction a generalizing count with
  | nil => subst ha; rfl
  | cons x a ih =>
    subst ha
    have h1 : (enc x ++ a.flatMap enc).take n = enc x := by rw [← h x]; exact List.take_left
    have h2 : (enc x ++ a.flatMap enc).drop n = a.flatMap enc := by rw [← h x]; exact List.drop_left
    rw [List.flatMap_cons, List.length_cons, chunks, h1, h2, ih _ rfl, List.map_cons]

theorem flatMap_encode_length {β : Type} (enc : β → List Byte) (n : ℕ) (h : ∀ x, (enc x).length = n) (a : List β) :
    (a.flatMap enc).length = n * a.length := by
  induction a with
  | nil => rfl
  | cons x a ih => rw [List.flatMap_cons, List.length_append, h, ih, List.length_cons]; ring

theorem decodes_ints {size count : ℕ} {a : List ℤ} (ha : a.length = count) (hf : Fits size a) (r : List Byte) (k : ℕ) :
    (⟨a.flatMap (encodeInt size) ++ r, k⟩ : Source).ints size count = some (a, ⟨r, k + (a.flatMap (encodeInt size)).length⟩) := by
  unfold Source.ints
  simp only [Option.bind_eq_bind]
  rw [decodes_read (n := size * count) _ (by rw [flatMap_encode_length _ size (encodeInt_length size), ha]) r k]
  simp only [Option.bind_some]
  rw [chunks_flatMap _ size (encodeInt_length size) a count ha, List.map_map]
  congr 2
  rw [List.map_congr_left (g := id), List.map_id]
  intro x hx
  exact decodeInt_encodeInt (hf x hx)

theorem decodes_u64s {count : ℕ} {a : List ℕ} (ha : a.length = count) (hf : ∀ x ∈ a, x < 2 ^ 64) (r : List Byte) (k : ℕ) :
    (⟨(a.map fun x : ℕ => (x : ℤ)).flatMap (encodeInt 8) ++ r, k⟩ : Source).u64s count =
      some (a, ⟨r, k + ((a.map fun x : ℕ => (x : ℤ)).flatMap (encodeInt 8)).length⟩) := by
  unfold Source.u64s
  simp only [Option.bind_eq_bind]
  rw [decodes_read (n := 8 * count) _ (by rw [flatMap_encode_length _ 8 (encodeInt_length 8), List.length_map, ha]) r k]
  simp only [Option.bind_some]
  rw [chunks_flatMap _ 8 (encodeInt_length 8) _ count (by rw [List.length_map, ha]), List.map_map, List.map_map]
  congr 2
  rw [List.map_congr_left (g := id), List.map_id]
  intro x hx
  exact decodeLE_encodeInt_nat 8 x (by have := hf x hx; norm_num at this ⊢; omega)

theorem decodes_intsIf {c : Bool} {size count : ℕ} {a : List ℤ} {there : Prop} (hc : c = true ↔ there) (h : ArrayOf there size count a)
    (r : List Byte) (k : ℕ) :
    Source.intsIf c ⟨a.flatMap (encodeInt size) ++ r, k⟩ size count = some (a, ⟨r, k + (a.flatMap (encodeInt size)).length⟩) := by
  unfold Source.intsIf
  split
  · rename_i h1
    exact decodes_ints (h.length (hc.mp h1)) h.fits r k
  · rename_i h1
    rw [h.absent fun h2 => h1 (hc.mpr h2)]
    rfl

theorem decodes_readIf {c : Bool} {n : ℕ} {b : List Byte} (hb : b.length = n) (hc : c = true ∨ n = 0) (r : List Byte) (k : ℕ) :
    Source.readIf c ⟨b ++ r, k⟩ n = some (b, ⟨r, k + b.length⟩) := by
  unfold Source.readIf
  split
  · exact decodes_read b hb r k
  · rename_i h1
    have : n = 0 := by rcases hc with h2 | h2; exact absurd h2 h1; exact h2
    have : b = [] := List.length_eq_zero_iff.mp (by omega)
    subst this
    rfl

theorem put_ints {c : Bool} {size count : ℕ} {a : List ℤ} {there : Prop} (hc : c = true ↔ there) (h : ArrayOf there size count a) :
    putIf c (putInts size count a) = some (a.flatMap (encodeInt size)) := by
  unfold putIf putInts
  split
  · rename_i h1
    have := h.length (hc.mp h1)
    rw [if_pos (by omega), ← this, List.take_length]
  · rename_i h1
    rw [h.absent fun h2 => h1 (hc.mpr h2)]; rfl

theorem put_ints' {size count : ℕ} {a : List ℤ} (h : ArrayOf True size count a) :
    putInts size count a = some (a.flatMap (encodeInt size)) := put_ints (c := true) (by simp) h

theorem put_bytes {c : Bool} {n : ℕ} {b : List Byte} (hb : b.length = n) (hc : c = true ∨ n = 0) : putIf c (putBytes n b) = some b := by
  unfold putIf putBytes
  split
  · rw [if_pos (by omega), ← hb, List.take_length]
  · rename_i h1
    have : n = 0 := by rcases hc with h2 | h2; exact absurd h2 h1; exact h2
    have : b = [] := List.length_eq_zero_iff.mp (by omega)
    subst this
    rfl

/-- The bytes of a connectivity. -/
def connBytes (d : ℕ) (version : List Byte) (c : ConnFile) (numEtt numCtt : ℕ) : List Byte :=
  magic d ++ (version ++ ((connHead d c numEtt numCtt).flatMap (encodeInt 8) ++ (c.vertices ++ (c.treeToEdge.flatMap (encodeInt 4) ++
    (c.treeToVertex.flatMap (encodeInt 4) ++ (c.treeToCorner.flatMap (encodeInt 4) ++ (c.treeToTree.flatMap (encodeInt 4) ++
    (c.treeToFace.flatMap (encodeInt 1) ++ (c.attr ++ (c.ettOffset.flatMap (encodeInt 4) ++ (c.edgeToTree.flatMap (encodeInt 4) ++
    (c.edgeToEdge.flatMap (encodeInt 1) ++ (c.cttOffset.flatMap (encodeInt 4) ++ (c.cornerToTree.flatMap (encodeInt 4) ++
    c.cornerToCorner.flatMap (encodeInt 1)))))))))))))))

theorem obind {β γ : Type} {x : Option β} {a : β} (h : x = some a) (f : β → Option γ) : (x >>= f) = f a := by rw [h]; rfl

theorem connSink_spec {version : List Byte} {c : ConnFile} {numEtt numCtt : ℕ} (h : ConnShape d c numEtt numCtt) :
    connSink d version c = some (connBytes d version c numEtt numCtt) := by
  have hE : c.numEtt d = some (numEtt : ℤ) := by
    unfold ConnFile.numEtt
    split
    · rename_i h3; exact h.ettLast h3
    · rename_i h3; rw [(h.noEdges h3).2]; rfl
  unfold connSink
  rw [obind (hE)]
  rw [obind h.cttLast, Int.toNat_natCast]
  rw [obind (put_bytes h.vertices (by simp only [decide_eq_true_eq]; omega))]
  rw [obind (put_ints (by simp) h.treeToEdge)]
  rw [obind (put_ints (by simp) h.treeToVertex)]
  rw [obind (put_ints (by simp) h.treeToCorner)]
  rw [obind (put_ints' h.treeToTree)]
  rw [obind (put_ints' h.treeToFace)]
  rw [obind (put_bytes h.attr (by
    simp only [decide_eq_true_eq]
    rcases Nat.eq_zero_or_pos c.attrBytes with h0 | h0
    · right; rw [h0, Nat.mul_zero]
    · left; exact h0))]
  rw [obind (put_ints (by simp) h.ettOffset)]
  rw [obind (put_ints (by simp) h.edgeToTree)]
  rw [obind (put_ints (by simp) h.edgeToEdge)]
  rw [obind (put_ints' h.cttOffset)]
  rw [Int.toNat_natCast, obind (put_ints (by simp) h.cornerToTree)]
  rw [obind (put_ints (by simp) h.cornerToCorner)]
  rfl

theorem connSourceHead_spec {version : List Byte} (hv : version.length = 24) {c : ConnFile} {numEtt numCtt : ℕ}
    (h : ConnShape d c numEtt numCtt) :
    Decodes (connSourceHead d) (magic d ++ (version ++ (connHead d c numEtt numCtt).flatMap (encodeInt 8)))
      ⟨c.numVertices, c.numTrees, c.numEdges, numEtt, c.numCorners, numCtt, c.attrBytes⟩ := by
  intro r k
  have hl : connHead d c numEtt numCtt = ([ondiskFormat d, 4, c.numVertices, c.numTrees, c.numEdges, numEtt, c.numCorners, numCtt,
      c.attrBytes, 0] : List ℕ).map fun x : ℕ => (x : ℤ) := by
    unfold connHead
    by_cases h3 : d = 3
    · simp [h3]
    · simp [h3, (h.noEdges h3).1]
  have hb := h.numTrees
  have hb1 := h.numVertices
  have hb2 := h.numEdges
  have hb3 := h.numEtt
  have hb4 := h.numCorners
  have hb5 := h.numCtt
  have hb6 := h.attrBytes
  have ho : ondiskFormat d < 2 ^ 64 := by unfold ondiskFormat; split <;> norm_num
  have hu : ∀ k, (⟨(connHead d c numEtt numCtt).flatMap (encodeInt 8) ++ r, k⟩ : Source).u64s 10 = some (([ondiskFormat d, 4, c.numVertices,
      c.numTrees, c.numEdges, numEtt, c.numCorners, numCtt, c.attrBytes, 0] : List ℕ), ⟨r, k + ((connHead d c numEtt numCtt).flatMap (encodeInt 8)).length⟩) := by
    intro k
    rw [hl]
    apply decodes_u64s (by rfl)
    intro x hx
    simp only [List.mem_cons, List.not_mem_nil, or_false] at hx
    rcases hx with rfl | rfl | rfl | rfl | rfl | rfl | rfl | rfl | rfl | rfl
    all_goals first | assumption | omega
  unfold connSourceHead
  simp only [Option.bind_eq_bind, List.append_assoc]
  rw [decodes_read (magic d) (by rfl)]
  simp only [Option.bind_some]
  rw [if_neg (by simp), decodes_read version hv]
  simp only [Option.bind_some]
  rw [hu]
  simp only [Option.bind_some, List.getD_cons_zero, List.getD_cons_succ]
  rw [toSigned_small (x := c.numVertices) (by omega), toSigned_small (x := c.numTrees) (by omega), toSigned_small (x := c.numEdges) (by omega),
    toSigned_small (x := numEtt) (by omega), toSigned_small (x := c.numCorners) (by omega), toSigned_small (x := numCtt) (by omega)]
  rw [if_neg (by
    push Not
    refine ⟨rfl, rfl, ?_, ?_, ?_, ?_⟩ <;> omega)]
  rw [if_neg (by
    split
    · push Not; constructor <;> omega
    · rename_i h3
      push Not
      have := h.noEdges h3
      omega)]
  simp only [List.length_append]
  congr 3
  omega

theorem connSource_spec {version : List Byte} (hv : version.length = 24) {c : ConnFile} {numEtt numCtt : ℕ} (h : ConnShape d c numEtt numCtt)
    {valid : ConnFile → Bool} (hc : valid c = true) :
    Decodes (connSource d valid) (connBytes d version c numEtt numCtt) c := by
  intro r k
  have hh := connSourceHead_spec hv h
  unfold connSource connBytes
  have e : ∀ x : List Byte, magic d ++ (version ++ ((connHead d c numEtt numCtt).flatMap (encodeInt 8) ++ x)) =
      (magic d ++ (version ++ (connHead d c numEtt numCtt).flatMap (encodeInt 8))) ++ x := by
    intro x; simp only [List.append_assoc]
  rw [e]
  generalize magic d ++ (version ++ (connHead d c numEtt numCtt).flatMap (encodeInt 8)) = hd at hh
  simp only [List.append_assoc]
  rw [obind (hh _ _)]; dsimp only; simp only [Int.toNat_natCast]
  have hev : ∀ n : ℕ, decide ((n : ℤ) > 0) = true ↔ 0 < n := by intro n; simp
  have hev3 : ∀ n : ℕ, decide (d = 3 ∧ (n : ℤ) > 0) = true ↔ d = 3 ∧ 0 < n := by intro n; simp
  rw [obind (decodes_readIf h.vertices (by rw [hev]; omega) _ _)]; dsimp only
  rw [obind (decodes_intsIf (hev3 _) h.treeToEdge _ _)]; dsimp only
  rw [obind (decodes_intsIf (hev _) h.treeToVertex _ _)]; dsimp only
  rw [obind (decodes_intsIf (hev _) h.treeToCorner _ _)]; dsimp only
  rw [obind (decodes_ints (h.treeToTree.length trivial) h.treeToTree.fits _ _)]; dsimp only
  rw [obind (decodes_ints (h.treeToFace.length trivial) h.treeToFace.fits _ _)]; dsimp only
  rw [obind (decodes_readIf h.attr (by
    simp only [decide_eq_true_eq]
    rcases Nat.eq_zero_or_pos c.attrBytes with h0 | h0
    · right; rw [h0, Nat.mul_zero]
    · left; exact h0) _ _)]; dsimp only
  rw [obind (decodes_intsIf (by simp) h.ettOffset _ _)]; dsimp only
  rw [if_neg (by
    unfold lastOffset
    by_cases h3 : d = 3
    · simp [h.ettLast h3]
    · simp [h3])]
  rw [obind (decodes_intsIf (hev3 _) h.edgeToTree _ _)]; dsimp only
  rw [obind (decodes_intsIf (hev3 _) h.edgeToEdge _ _)]; dsimp only
  rw [obind (decodes_ints (h.cttOffset.length trivial) h.cttOffset.fits _ _)]; dsimp only
  rw [if_neg (by unfold lastOffset; simp [h.cttLast])]
  rw [obind (decodes_intsIf (hev _) h.cornerToTree _ _)]; dsimp only
  rw [obind (decodes_intsIf (hev _) h.cornerToCorner _ _)]; dsimp only
  rw [if_pos hc]
  simp only [List.length_append, Nat.add_assoc]

end P4est
