import Verif.Lemmas.File
import Verif.Lemmas.GhostNew
import Verif.Lemmas.RepartitionFill
import Verif.Spec.GhostExchange

/-! # Lemmas on the exchange of data of ghosts -/

namespace P4est
open Spec

variable {d : ℕ}

/-! ### Memory -/

theorem writeBytes_append {mem u v : List Byte} {s : ℕ} (h : s + u.length + v.length ≤ mem.length) :
    writeBytes mem s (u ++ v) = (writeBytes mem s u).bind fun m => writeBytes m (s + u.length) v := by
  have h1 : s + u.length ≤ mem.length := by omega
  have e : (mem.take s).length = s := by rw [List.length_take]; omega
  unfold writeBytes
  rw [if_pos (by rw [List.length_append]; omega), if_pos h1, Option.bind_some, if_pos (by simp; omega)]
  congr 1
  have e1 : (mem.take s ++ u ++ mem.drop (s + u.length)).take (s + u.length) = mem.take s ++ u := by
    apply List.take_left'
    rw [List.length_append, e]
  have e2 : (mem.take s ++ u ++ mem.drop (s + u.length)).drop (s + u.length + v.length) = mem.drop (s + u.length + v.length) := by
    have : (mem.take s ++ u).length = s + u.length := by rw [List.length_append, e]
    rw [List.drop_append, this, List.drop_eq_nil_of_le (by omega), List.nil_append, List.drop_drop]
    congr 1; omega
  rw [e1, e2, List.length_append, Nat.add_assoc]
  simp only [List.append_assoc]

/-- One item is written. -/
theorem writeBytes_item {size : ℕ} {mem D : List Byte} {a : ℕ} (hD : D.length = size) (h : (a + 1) * size ≤ mem.length) :
    ∃ m, writeBytes mem (a * size) D = some m ∧ m.length = mem.length ∧ item size m a = D ∧
      ∀ i, i ≠ a → item size m i = item size mem i := by
  have h0 : (a + 1) * size = a * size + size := by ring
  have e : (mem.take (a * size)).length = a * size := by rw [List.length_take]; omega
  refine ⟨_, if_pos (by omega), ?_, ?_, ?_⟩
  · simp only [List.length_append, List.length_take, List.length_drop]; omega
  · unfold item
    rw [List.append_assoc, List.drop_left' e, List.take_left' hD]
  · intro i hi
    unfold item
    apply List.ext_getElem?
    intro k
    rw [List.getElem?_take, List.getElem?_take]
    by_cases hk : k < size
    · rw [if_pos hk, if_pos hk, List.getElem?_drop, List.getElem?_drop]
      rcases Nat.lt_or_gt_of_ne hi with h1 | h1
      · have : (i + 1) * size ≤ a * size := Nat.mul_le_mul_right _ h1
        have h2 : (i + 1) * size = i * size + size := by ring
        rw [List.append_assoc, List.getElem?_append_left (by omega), List.getElem?_take, if_pos (by omega)]
      · have : (a + 1) * size ≤ i * size := Nat.mul_le_mul_right _ h1
        rw [List.getElem?_append_right (by rw [List.length_append, e]; omega), List.length_append, e, List.getElem?_drop]
        congr 1; omega
    · rw [if_neg hk, if_neg hk]

/-- What a message does to the data of the ghosts from one rank. -/
def Effect {β : Type} (size a : ℕ) (xs : List β) (w : β → Bool) (D : β → List Byte) (mem m : List Byte) : Prop :=
  m.length = mem.length ∧
  (∀ k x, xs[k]? = some x → item size m (a + k) = if w x = true then D x else item size mem (a + k)) ∧
  ∀ i, (i < a ∨ a + xs.length ≤ i) → item size m i = item size mem i

theorem Effect.nil {β : Type} {size a : ℕ} {w : β → Bool} {D : β → List Byte} {mem : List Byte} :
    Effect size a [] w D mem mem := ⟨rfl, by simp, fun _ _ => rfl⟩

theorem Effect.cons {β : Type} {size a : ℕ} {y : β} {xs : List β} {w : β → Bool} {D : β → List Byte} {mem m1 m : List Byte}
    (h1 : m1.length = mem.length) (h2 : item size m1 a = if w y = true then D y else item size mem a)
    (h3 : ∀ i, i ≠ a → item size m1 i = item size mem i) (h : Effect size (a + 1) xs w D m1 m) :
    Effect size a (y :: xs) w D mem m := by
  refine ⟨by rw [h.1, h1], ?_, ?_⟩
  · intro k x hk
    cases k with
    | zero =>
      rw [List.getElem?_cons_zero] at hk
      cases hk
      rw [Nat.add_zero, h.2.2 a (Or.inl (by omega)), h2]
    | succ k =>
      rw [List.getElem?_cons_succ] at hk
      have := h.2.1 k x hk
      rw [Nat.add_assoc, Nat.add_comm 1 k] at this
      rw [this, h3 _ (by omega)]
  · intro i hi
    rw [List.length_cons] at hi
    rw [h.2.2 i (by omega), h3 i (by omega)]

/-- A message that is received directly. -/
theorem write_effect {β : Type} {size : ℕ} {D : β → List Byte} {w : β → Bool} (xs : List β) :
    ∀ (a : ℕ) (mem : List Byte), (∀ x ∈ xs, (D x).length = size ∧ w x = true) → (a + xs.length) * size ≤ mem.length →
    ∃ m, writeBytes mem (a * size) (xs.flatMap D) = some m ∧ Effect size a xs w D mem m := by
  induction xs with
  | nil =>
    intro a mem _ h
    refine ⟨mem, ?_, Effect.nil⟩
    simp only [List.length_nil, Nat.add_zero] at h
    unfold writeBytes
    simp [h]
  | cons y xs ih =>
    intro a mem hD h
    obtain ⟨hy, hD'⟩ := List.forall_mem_cons.mp hD
    have hlen : (xs.flatMap D).length = xs.length * size := by
      rw [List.length_flatMap]
      have : xs.map (fun x => (D x).length) = xs.map fun _ => size := List.map_congr_left fun x hx => (hD' x hx).1
      rw [this]; simp
    have e : (a + (y :: xs).length) * size = a * size + size + xs.length * size := by
      rw [List.length_cons]; ring
    have e1 : (a + 1) * size = a * size + size := by ring
    obtain ⟨m1, k1, k2, k3, k4⟩ := writeBytes_item (a := a) (mem := mem) hy.1 (by omega)
    obtain ⟨m, k5, k6⟩ := ih (a + 1) m1 hD' (by rw [k2]; rw [Nat.add_assoc, Nat.add_comm 1]; exact h)
    refine ⟨m, ?_, Effect.cons k2 (by rw [k3, if_pos hy.2]) k4 k6⟩
    rw [List.flatMap_cons, writeBytes_append (by rw [hy.1, hlen]; omega), k1, Option.bind_some, hy.1, ← e1, k5]

/-- A message that is received in a buffer. -/
theorem copy_effect {size : ℕ} {g : GhostLayer d} {wanted : ℕ → Bool} {D : GhostQuad d → List Byte} {rbuf : List Byte}
    (xs : List (GhostQuad d)) : ∀ (a c : ℕ) (mem : List Byte), (∀ x ∈ xs, wanted x.1.2.level = true → (D x).length = size) →
    (a + xs.length) * size ≤ mem.length → (∀ k < xs.length, g.ghosts[a + k]? = xs[k]?) →
    rbuf.drop (c * size) = (xs.filter fun x => wanted x.1.2.level).flatMap D →
    ∃ m c', (List.range' a xs.length).foldlM (copyGhost size wanted g rbuf) (mem, c) = some (m, c') ∧
      Effect size a xs (fun x => wanted x.1.2.level) D mem m := by
  induction xs with
  | nil => intro a c mem _ _ _ _; exact ⟨mem, c, rfl, Effect.nil⟩
  | cons y xs ih =>
    intro a c mem hD h hg hb
    obtain ⟨hy, hD'⟩ := List.forall_mem_cons.mp hD
    have e : (a + (y :: xs).length) * size = a * size + size + xs.length * size := by
      rw [List.length_cons]; ring
    have e1 : (a + 1) * size = a * size + size := by ring
    have hg0 : g.ghosts[a]? = some y := by have := hg 0 (by simp); simpa using this
    have hg' : ∀ k < xs.length, g.ghosts[a + 1 + k]? = xs[k]? := by
      intro k hk
      have := hg (k + 1) (by rw [List.length_cons]; omega)
      rw [List.getElem?_cons_succ] at this
      rw [← this]; congr 1; omega
    rw [List.length_cons, List.range'_succ, List.foldlM_cons]
    by_cases hw : wanted y.1.2.level = true
    · rw [List.filter_cons_of_pos (by exact hw), List.flatMap_cons] at hb
      have hsz := hy hw
      obtain ⟨m1, k1, k2, k3, k4⟩ := writeBytes_item (a := a) (mem := mem) hsz (by omega)
      have hb' : rbuf.drop ((c + 1) * size) = (xs.filter fun x => wanted x.1.2.level).flatMap D := by
        rw [show (c + 1) * size = c * size + size by ring, ← List.drop_drop, hb, List.drop_left' hsz]
      obtain ⟨m, c', k5, k6⟩ := ih (a + 1) (c + 1) m1 hD' (by rw [k2]; rw [Nat.add_assoc, Nat.add_comm 1]; exact h) hg' hb'
      refine ⟨m, c', ?_, Effect.cons k2 (by rw [k3, if_pos hw]) k4 k6⟩
      have hf : firstBytes size (rbuf.drop (c * size)) = some (D y) := by
        rw [hb]; unfold firstBytes
        rw [if_pos (by rw [List.length_append]; omega), List.take_left' hsz]
      have : copyGhost size wanted g rbuf (mem, c) a = some (m1, c + 1) := by
        unfold copyGhost
        rw [obind hg0, if_pos hw, obind hf, obind k1]
      rw [obind this, k5]
    · rw [List.filter_cons_of_neg (by exact hw)] at hb
      obtain ⟨m, c', k5, k6⟩ := ih (a + 1) c mem hD' (by rw [Nat.add_assoc, Nat.add_comm 1]; exact h) hg' hb
      refine ⟨m, c', ?_, Effect.cons rfl (by rw [if_neg hw]) (fun _ _ => rfl) k6⟩
      have : copyGhost size wanted g rbuf (mem, c) a = some (mem, c) := by
        unfold copyGhost
        rw [obind hg0, if_neg hw]
      rw [obind this, k5]

/-! ### Offsets -/

theorem cutInto_facts {β : Type} {l : List β} {offs : List ℕ} {n : ℕ} {piece : ℕ → List β} (h : CutInto l offs n piece) :
    ∃ off : ℕ → ℕ, (∀ i ≤ n, offs[i]? = some (off i)) ∧ off 0 = 0 ∧ off n = l.length ∧
      (∀ i < n, off (i + 1) = off i + (piece i).length) ∧ (∀ i j, i ≤ j → j ≤ n → off i ≤ off j) ∧
      ∀ i < n, ∀ k < (piece i).length, l[off i + k]? = (piece i)[k]? := by
  obtain ⟨h1, h2, h3, h4⟩ := h
  have hoff : ∀ i ≤ n, offs[i]? = some (offs.getD i 0) := by
    intro i hi
    rw [List.getD_eq_getElem?_getD, List.getElem?_eq_getElem (by omega)]; rfl
  have hs : ∀ i < n, offs.getD i 0 ≤ offs.getD (i + 1) 0 ∧
      (l.drop (offs.getD i 0)).take (offs.getD (i + 1) 0 - offs.getD i 0) = piece i := by
    intro i hi
    obtain ⟨a, b, ha, hb, hab, hp⟩ := h4 i hi
    rw [hoff i (by omega)] at ha
    rw [hoff (i + 1) (by omega)] at hb
    cases ha; cases hb
    exact ⟨hab, hp⟩
  have hmono : ∀ i j, i ≤ j → j ≤ n → offs.getD i 0 ≤ offs.getD j 0 := by
    intro i j hij hj
    induction j, hij using Nat.le_induction with
    | base => exact le_rfl
    | succ j hij ih => exact (ih (by omega)).trans (hs j (by omega)).1
  have hn : offs.getD n 0 = l.length := by
    have := hoff n le_rfl
    rw [h3] at this; exact (Option.some.inj this).symm
  have hlen : ∀ i < n, offs.getD (i + 1) 0 = offs.getD i 0 + (piece i).length := by
    intro i hi
    have h5 := hmono (i + 1) n (by omega) le_rfl
    have h6 := (hs i hi).1
    rw [← (hs i hi).2, List.length_take, List.length_drop]
    omega
  refine ⟨fun i => offs.getD i 0, hoff, ?_, hn, hlen, hmono, ?_⟩
  · have := hoff 0 (by omega)
    rw [h2] at this; exact (Option.some.inj this).symm
  · intro i hi k hk
    have h7 := hlen i hi
    rw [← (hs i hi).2, List.getElem?_take, if_pos (by omega), List.getElem?_drop]

/-! ### Posting -/

theorem mapM_range_list {β γ : Type} {f : ℕ → Option γ} {h : β → γ} {xs : List β}
    (H : ∀ k x, xs[k]? = some x → f k = some (h x)) : (List.range xs.length).mapM f = some (xs.map h) := by
  induction xs using List.reverseRecOn with
  | nil => rfl
  | append_singleton xs x ih =>
    have h1 := ih (fun k y hk => H k y (by
      obtain ⟨hlt, -⟩ := List.getElem?_eq_some_iff.mp hk
      rw [List.getElem?_append_left hlt, hk]))
    have h2 : f xs.length = some (h x) := H _ x (by simp)
    rw [List.length_append, List.length_singleton, List.range_succ, List.mapM_append, obind h1]
    simp [h2]

/-- The receive that is posted for the ghosts from a rank. -/
def recvOf (size : ℕ) (off : ℕ → ℕ) (piece : ℕ → List (GhostQuad d)) (wanted : ℕ → Bool) (q : ℕ) : Option GhostRecv :=
  let cnt := (piece q).countP fun x => wanted x.1.2.level
  if 0 < cnt then some ⟨q, off q, cnt * size, decide (cnt < (piece q).length)⟩ else none

/-- The message that is sent to a rank. -/
def sendOf (piece : ℕ → List (GhostQuad d)) (wanted : ℕ → Bool) (D : GhostQuad d → List Byte) (q : ℕ) :
    Option (ℕ × List Byte) :=
  if 0 < (piece q).countP fun x => wanted x.1.2.level then
    some (q, ((piece q).filter fun x => wanted x.1.2.level).flatMap D) else none

/-- Offsets of consecutive pieces. -/
structure Offsets {β : Type} (l : List β) (offs : List ℕ) (n : ℕ) (piece : ℕ → List β) (off : ℕ → ℕ) : Prop where
  get : ∀ i ≤ n, offs[i]? = some (off i)
  zero : off 0 = 0
  total : off n = l.length
  next : ∀ i < n, off (i + 1) = off i + (piece i).length
  mono : ∀ i j, i ≤ j → j ≤ n → off i ≤ off j
  at_ : ∀ i < n, ∀ k < (piece i).length, l[off i + k]? = (piece i)[k]?

theorem customRecvs_spec {size P : ℕ} {l : List (GhostQuad d)} {offs : List ℕ} {piece : ℕ → List (GhostQuad d)} {off : ℕ → ℕ}
    (h : Offsets l offs P piece off) : ∀ n k, k + n ≤ P → customRecvs size offs (List.range' k n) (off k) =
      some ((List.range' k n).filterMap (recvOf size off piece fun _ => true)) := by
  intro n
  induction n with
  | zero => intro k _; rfl
  | succ n ih =>
    intro k hk
    have h1 := h.next k (by omega)
    have h2 := ih (k + 1) (by omega)
    rw [List.range'_succ, customRecvs, obind (h.get (k + 1) (by omega)), List.filterMap_cons]
    have hc : (piece k).countP (fun x => (fun _ => true) x.1.2.level) = (piece k).length := by simp
    unfold recvOf at h2 ⊢
    simp only [hc]
    by_cases hp : 0 < (piece k).length
    · rw [if_pos (by omega), if_pos hp, obind h2]
      have : off (k + 1) - off k = (piece k).length := by omega
      simp [this]
    · rw [if_neg (by omega), if_neg hp]
      have : off (k + 1) = off k := by omega
      rw [this] at h2
      exact h2

theorem levelsRecvs_spec {size P : ℕ} {wanted : ℕ → Bool} {g : GhostLayer d} {piece : ℕ → List (GhostQuad d)} {off : ℕ → ℕ}
    (h : Offsets g.ghosts g.procOffsets P piece off) : ∀ n k, k + n ≤ P →
      levelsRecvs size wanted g (List.range' k n) (off k) =
      some ((List.range' k n).filterMap (recvOf size off piece wanted)) := by
  intro n
  induction n with
  | zero => intro k _; rfl
  | succ n ih =>
    intro k hk
    have h1 := h.next k (by omega)
    have h2 := ih (k + 1) (by omega)
    rw [List.range'_succ, levelsRecvs, obind (h.get (k + 1) (by omega)), List.filterMap_cons]
    by_cases hp : 0 < (piece k).length
    · have e : off (k + 1) - off k = (piece k).length := by omega
      have h3 : (List.range (off (k + 1) - off k)).mapM (fun theg => g.ghosts[off k + theg]?) = some ((piece k).map id) := by
        rw [e]
        refine mapM_range_list fun i x hi => ?_
        rw [h.at_ k (by omega) i (List.getElem?_eq_some_iff.mp hi).1, hi]; rfl
      rw [if_pos (by omega), obind h3, obind h2, List.map_id]
      unfold recvOf
      simp only
      by_cases hc : 0 < (piece k).countP fun x => wanted x.1.2.level
      · simp only [if_pos hc, gt_iff_lt]
        rw [e]
        by_cases hl : ((piece k).countP fun x => wanted x.1.2.level) < (piece k).length
        · rw [if_pos hl]; simp [hl]
        · rw [if_neg hl]
          have : ((piece k).countP fun x => wanted x.1.2.level) = (piece k).length := by
            have := List.countP_le_length (p := fun x : GhostQuad d => wanted x.1.2.level) (l := piece k)
            omega
          simp [this]
      · simp only [if_neg hc, gt_iff_lt]
    · rw [if_neg (by omega)]
      have e1 : off (k + 1) = off k := by omega
      rw [e1] at h2
      have e2 : piece k = [] := List.length_eq_zero_iff.mp (by omega)
      have : recvOf size off piece wanted k = none := by simp [recvOf, e2]
      rw [this]
      exact h2

/-- What a rank has in its lists for the messages. -/
structure Lists (size P : ℕ) (wanted : ℕ → Bool) (g : GhostLayer d) (mirrorData : List (List Byte))
    (ppiece : ℕ → List ℕ) (piece : ℕ → List (GhostQuad d)) (off : ℕ → ℕ) (D : GhostQuad d → List Byte) : Prop where
  offs : Offsets g.mirrorProcMirrors g.mirrorProcOffsets P ppiece off
  same : ∀ q < P, (ppiece q).map (fun i => g.mirrors[i]?) = (piece q).map some
  bytes : ∀ (m : ℕ) (x : GhostQuad d), g.mirrors[m]? = some x → wanted x.1.2.level = true →
    ∃ dat, mirrorData[m]? = some dat ∧ firstBytes size dat = some (D x)

theorem Lists.length {size P : ℕ} {wanted : ℕ → Bool} {g : GhostLayer d} {mirrorData : List (List Byte)}
    {ppiece : ℕ → List ℕ} {piece : ℕ → List (GhostQuad d)} {off : ℕ → ℕ} {D : GhostQuad d → List Byte}
    (h : Lists size P wanted g mirrorData ppiece piece off D) {q : ℕ} (hq : q < P) : (ppiece q).length = (piece q).length := by
  have := congrArg List.length (h.same q hq)
  simpa using this

theorem Lists.mirror {size P : ℕ} {wanted : ℕ → Bool} {g : GhostLayer d} {mirrorData : List (List Byte)}
    {ppiece : ℕ → List ℕ} {piece : ℕ → List (GhostQuad d)} {off : ℕ → ℕ} {D : GhostQuad d → List Byte}
    (h : Lists size P wanted g mirrorData ppiece piece off D) {q : ℕ} (hq : q < P) {k : ℕ} {x : GhostQuad d}
    (hk : (piece q)[k]? = some x) : ∃ m, g.mirrorProcMirrors[off q + k]? = some m ∧ g.mirrors[m]? = some x := by
  have h1 : k < (ppiece q).length := by rw [h.length hq]; exact (List.getElem?_eq_some_iff.mp hk).1
  have h2 := congrArg (fun l => l[k]?) (h.same q hq)
  simp only [List.getElem?_map, hk, Option.map_some] at h2
  rw [h.offs.at_ q hq k h1]
  rw [List.getElem?_eq_getElem h1] at h2 ⊢
  exact ⟨_, rfl, Option.some.inj h2⟩

theorem customSends_spec {size P : ℕ} {g : GhostLayer d} {mirrorData : List (List Byte)}
    {ppiece : ℕ → List ℕ} {piece : ℕ → List (GhostQuad d)} {off : ℕ → ℕ} {D : GhostQuad d → List Byte}
    (h : Lists size P (fun _ => true) g mirrorData ppiece piece off D) : ∀ n k, k + n ≤ P →
      customSends size g mirrorData (List.range' k n) (off k) =
      some ((List.range' k n).filterMap (sendOf piece (fun _ => true) D)) := by
  intro n
  induction n with
  | zero => intro k _; rfl
  | succ n ih =>
    intro k hk
    have h1 := h.offs.next k (by omega)
    rw [h.length (by omega)] at h1
    have h2 := ih (k + 1) (by omega)
    rw [List.range'_succ, customSends, obind (h.offs.get (k + 1) (by omega)), List.filterMap_cons]
    by_cases hp : 0 < (piece k).length
    · have e : off (k + 1) - off k = (piece k).length := by omega
      have h3 : (List.range (off (k + 1) - off k)).mapM (fun theg => customPart size g mirrorData (off k + theg)) =
          some ((piece k).map D) := by
        rw [e]
        refine mapM_range_list fun i x hi => ?_
        obtain ⟨m, k1, k2⟩ := h.mirror (by omega) hi
        obtain ⟨dat, k3, k4⟩ := h.bytes m x k2 rfl
        unfold customPart
        rw [obind k1, obind k3, k4]
      rw [if_pos (by omega), obind h3, obind h2]
      have : sendOf piece (fun _ => true) D k = some (k, ((piece k).map D).flatten) := by
        unfold sendOf
        rw [if_pos (by simpa using hp)]
        simp [List.flatMap_def]
      rw [this]
    · rw [if_neg (by omega)]
      have e1 : off (k + 1) = off k := by omega
      rw [e1] at h2
      have e2 : piece k = [] := List.length_eq_zero_iff.mp (by omega)
      have : sendOf piece (fun _ => true) D k = none := by simp [sendOf, e2]
      rw [this]
      exact h2

theorem reduceOption_parts (wanted : ℕ → Bool) (D : GhostQuad d → List Byte) (xs : List (GhostQuad d)) :
    (xs.map fun x => if wanted x.1.2.level = true then some (D x) else none).reduceOption =
      (xs.filter fun x => wanted x.1.2.level).map D := by
  induction xs with
  | nil => rfl
  | cons x xs ih =>
    rw [List.map_cons]
    by_cases hw : wanted x.1.2.level = true
    · rw [if_pos hw, List.filter_cons_of_pos (by exact hw), List.map_cons, ← ih]
      simp [List.reduceOption]
    · rw [if_neg hw, List.filter_cons_of_neg (by exact hw), ← ih]
      simp [List.reduceOption]

theorem levelsSends_spec {size P : ℕ} {wanted : ℕ → Bool} {g : GhostLayer d} {mirrorData : List (List Byte)}
    {ppiece : ℕ → List ℕ} {piece : ℕ → List (GhostQuad d)} {off : ℕ → ℕ} {D : GhostQuad d → List Byte}
    (h : Lists size P wanted g mirrorData ppiece piece off D) : ∀ n k, k + n ≤ P →
      levelsSends size wanted g mirrorData (List.range' k n) (off k) =
      some ((List.range' k n).filterMap (sendOf piece wanted D)) := by
  intro n
  induction n with
  | zero => intro k _; rfl
  | succ n ih =>
    intro k hk
    have h1 := h.offs.next k (by omega)
    rw [h.length (by omega)] at h1
    have h2 := ih (k + 1) (by omega)
    rw [List.range'_succ, levelsSends, obind (h.offs.get (k + 1) (by omega)), List.filterMap_cons]
    by_cases hp : 0 < (piece k).length
    · have e : off (k + 1) - off k = (piece k).length := by omega
      have h3 : (List.range (off (k + 1) - off k)).mapM (fun theg => levelsPart size wanted g mirrorData (off k + theg)) =
          some ((piece k).map fun x => if wanted x.1.2.level = true then some (D x) else none) := by
        rw [e]
        refine mapM_range_list fun i x hi => ?_
        obtain ⟨m, k1, k2⟩ := h.mirror (by omega) hi
        unfold levelsPart
        rw [obind k1, obind k2]
        by_cases hw : wanted x.1.2.level = true
        · obtain ⟨dat, k3, k4⟩ := h.bytes m x k2 hw
          rw [if_pos hw, if_pos hw, obind k3, obind k4]
        · rw [if_neg hw, if_neg hw]
      rw [if_pos (by omega), obind h3, obind h2, reduceOption_parts, List.length_map, ← List.countP_eq_length_filter]
      unfold sendOf
      by_cases hc : 0 < (piece k).countP fun x => wanted x.1.2.level
      · simp only [if_pos hc, gt_iff_lt]
        rw [List.flatMap_def]
      · simp only [if_neg hc, gt_iff_lt]
    · rw [if_neg (by omega)]
      have e1 : off (k + 1) = off k := by omega
      rw [e1] at h2
      have e2 : piece k = [] := List.length_eq_zero_iff.mp (by omega)
      have : sendOf piece wanted D k = none := by simp [sendOf, e2]
      rw [this]
      exact h2

/-! ### Completion -/

theorem mapM_zipIdx {β γ : Type} {l : List β} {f : β × ℕ → Option γ} {h : ℕ → γ}
    (H : ∀ i x, l[i]? = some x → f (x, i) = some (h i)) : l.zipIdx.mapM f = some ((List.range l.length).map h) := by
  rw [mapM_some (g := fun x => h x.2) (fun x hx => H x.2 x.1 (List.mem_zipIdx_iff_getElem?.mp hx))]
  congr 1
  rw [List.range_eq_range', ← List.zipIdx_map_snd 0 l, List.map_map]
  rfl

theorem find_sendOf {piece : ℕ → List (GhostQuad d)} {wanted : ℕ → Bool} {D : GhostQuad d → List Byte} {P q : ℕ} (hq : q < P)
    (hc : 0 < (piece q).countP fun x => wanted x.1.2.level) :
    ((List.range P).filterMap (sendOf piece wanted D)).find? (fun s => decide (s.1 = q)) =
      some (q, ((piece q).filter fun x => wanted x.1.2.level).flatMap D) := by
  have hmem : (q, ((piece q).filter fun x => wanted x.1.2.level).flatMap D) ∈ (List.range P).filterMap (sendOf piece wanted D) := by
    rw [List.mem_filterMap]
    exact ⟨q, List.mem_range.mpr hq, if_pos hc⟩
  cases hf : ((List.range P).filterMap (sendOf piece wanted D)).find? (fun s => decide (s.1 = q)) with
  | none => exact absurd (List.find?_eq_none.mp hf _ hmem) (by simp)
  | some s =>
    have h1 := List.find?_some hf
    have h2 := List.mem_of_find?_eq_some hf
    rw [List.mem_filterMap] at h2
    obtain ⟨a, -, ha⟩ := h2
    unfold sendOf at ha
    split at ha
    · cases ha
      simp only [decide_eq_true_eq] at h1
      rw [h1]
    · cases ha

/-- One receive completes. -/
theorem completeRecv_spec {size P : ℕ} {wanted : ℕ → Bool} {g : GhostLayer d} {piece : ℕ → List (GhostQuad d)} {off : ℕ → ℕ}
    (h : Offsets g.ghosts g.procOffsets P piece off) {D : ℕ → GhostQuad d → List Byte} {message : ℕ → Option (List Byte)}
    (hmsg : ∀ q < P, 0 < ((piece q).countP fun x => wanted x.1.2.level) →
      message q = some (((piece q).filter fun x => wanted x.1.2.level).flatMap (D q)))
    (hD : ∀ q < P, ∀ x ∈ piece q, wanted x.1.2.level = true → (D q x).length = size)
    {q : ℕ} (hq : q < P) {y : GhostRecv} (hy : recvOf size off piece wanted q = some y) {mem : List Byte}
    (hmem : g.ghosts.length * size ≤ mem.length) :
    y.source = q ∧ ∃ m, completeRecv size wanted g message mem y = some m ∧
      Effect size (off q) (piece q) (fun x => wanted x.1.2.level) (D q) mem m := by
  unfold recvOf at hy
  simp only at hy
  split at hy
  · rename_i hc
    cases hy
    refine ⟨rfl, ?_⟩
    have hb : (off q + (piece q).length) * size ≤ mem.length := by
      rw [← h.next q hq]
      have := h.mono (q + 1) P (by omega) le_rfl
      rw [h.total] at this
      exact (Nat.mul_le_mul_right _ this).trans hmem
    have hlen : (((piece q).filter fun x => wanted x.1.2.level).flatMap (D q)).length =
        ((piece q).countP fun x => wanted x.1.2.level) * size := by
      rw [List.length_flatMap]
      have : ((piece q).filter fun x => wanted x.1.2.level).map (fun x => (D q x).length) =
          ((piece q).filter fun x => wanted x.1.2.level).map fun _ => size := List.map_congr_left fun x hx => by
        rw [List.mem_filter] at hx
        exact hD q hq x hx.1 hx.2
      rw [this, List.countP_eq_length_filter]; simp
    unfold completeRecv
    simp only
    rw [obind (hmsg q hq hc), if_neg (by rw [hlen]; omega)]
    by_cases hl : ((piece q).countP fun x => wanted x.1.2.level) < (piece q).length
    · rw [if_pos (by simpa using hl), obind (h.get q (by omega)), obind (h.get (q + 1) (by omega))]
      have e : off (q + 1) - off q = (piece q).length := by rw [h.next q hq]; omega
      obtain ⟨m, c', k1, k2⟩ := copy_effect (size := size) (g := g) (wanted := wanted) (D := D q)
        (rbuf := ((piece q).filter fun x => wanted x.1.2.level).flatMap (D q)) (piece q) (off q) 0 mem (hD q hq) hb
        (h.at_ q hq) (by simp)
      rw [e, obind k1]
      exact ⟨m, rfl, k2⟩
    · rw [if_neg (by simpa using hl)]
      have hall : ∀ x ∈ piece q, wanted x.1.2.level = true := by
        apply List.countP_eq_length.mp
        have := List.countP_le_length (p := fun x : GhostQuad d => wanted x.1.2.level) (l := piece q)
        omega
      rw [List.filter_eq_self.mpr hall]
      exact write_effect (piece q) (off q) mem (fun x hx => ⟨hD q hq x hx (hall x hx), hall x hx⟩) hb
  · cases hy

/-- All receives complete. -/
theorem completeAll_spec {size P : ℕ} {wanted : ℕ → Bool} {g : GhostLayer d} {piece : ℕ → List (GhostQuad d)} {off : ℕ → ℕ}
    (h : Offsets g.ghosts g.procOffsets P piece off) {D : ℕ → GhostQuad d → List Byte} {message : ℕ → Option (List Byte)}
    (hmsg : ∀ q < P, 0 < ((piece q).countP fun x => wanted x.1.2.level) →
      message q = some (((piece q).filter fun x => wanted x.1.2.level).flatMap (D q)))
    (hD : ∀ q < P, ∀ x ∈ piece q, wanted x.1.2.level = true → (D q x).length = size) (A : List GhostRecv) :
    ∀ mem : List Byte, g.ghosts.length * size ≤ mem.length →
      (∀ y ∈ A, ∃ q < P, recvOf size off piece wanted q = some y) →
    ∃ m, A.foldlM (completeRecv size wanted g message) mem = some m ∧ m.length = mem.length ∧
      (∀ q < P, ∀ k x, (piece q)[k]? = some x → wanted x.1.2.level = true → (∃ y ∈ A, y.source = q) →
        item size m (off q + k) = D q x) ∧
      (∀ q < P, ∀ k x, (piece q)[k]? = some x → (wanted x.1.2.level = false ∨ ∀ y ∈ A, y.source ≠ q) →
        item size m (off q + k) = item size mem (off q + k)) ∧
      ∀ i, g.ghosts.length ≤ i → item size m i = item size mem i := by
  induction A with
  | nil => intro mem _ _; exact ⟨mem, rfl, rfl, by simp, fun _ _ _ _ _ _ => rfl, fun _ _ => rfl⟩
  | cons y A ih =>
    intro mem hmem hA
    obtain ⟨⟨q0, hq0, hy⟩, hA'⟩ := List.forall_mem_cons.mp hA
    obtain ⟨hs, m1, k1, k2⟩ := completeRecv_spec h hmsg hD hq0 hy hmem
    obtain ⟨m, k3, k4, k5, k6, k7⟩ := ih m1 (by rw [k2.1]; exact hmem) hA'
    have hout : ∀ q < P, q ≠ q0 → ∀ k x, (piece q)[k]? = some x → item size m1 (off q + k) = item size mem (off q + k) := by
      intro q hq hne k x hk
      have hk' := (List.getElem?_eq_some_iff.mp hk).1
      apply k2.2.2
      rcases Nat.lt_or_gt_of_ne hne with h1 | h1
      · have := h.mono (q + 1) q0 h1 (by omega)
        rw [h.next q hq] at this; left; omega
      · have := h.mono (q0 + 1) q h1 (by omega)
        rw [h.next q0 hq0] at this; right; omega
    refine ⟨m, ?_, by rw [k4, k2.1], ?_, ?_, ?_⟩
    · rw [List.foldlM_cons, obind k1, k3]
    · rintro q hq k x hk hw ⟨z, hz, hzq⟩
      by_cases hA2 : ∃ y ∈ A, y.source = q
      · exact k5 q hq k x hk hw hA2
      · push Not at hA2
        rw [k6 q hq k x hk (Or.inr hA2)]
        have e : q = q0 := by
          rcases List.mem_cons.mp hz with rfl | hz
          · rw [← hzq, hs]
          · exact absurd hzq (hA2 z hz)
        subst e
        rw [k2.2.1 k x hk, if_pos hw]
    · intro q hq k x hk hc
      rw [k6 q hq k x hk (hc.imp id fun h z hz => h z (List.mem_cons_of_mem _ hz))]
      by_cases e : q = q0
      · subst e
        have hw : wanted x.1.2.level = false := by
          rcases hc with hc | hc
          · exact hc
          · exact absurd hs (hc y (by simp))
        rw [k2.2.1 k x hk, if_neg (by simp [hw])]
      · exact hout q hq e k x hk
    · intro i hi
      rw [k7 i hi]
      apply k2.2.2
      right
      rw [← h.next q0 hq0]
      have := h.mono (q0 + 1) P (by omega) le_rfl
      rw [h.total] at this; omega

/-- Each position is in one of the pieces. -/
theorem Offsets.find {β : Type} {l : List β} {offs : List ℕ} {n : ℕ} {piece : ℕ → List β} {off : ℕ → ℕ}
    (h : Offsets l offs n piece off) {i : ℕ} {x : β} (hi : l[i]? = some x) :
    ∃ p < n, ∃ k, i = off p + k ∧ (piece p)[k]? = some x := by
  have key : ∀ j ≤ n, i < off j → ∃ p < n, ∃ k, i = off p + k ∧ (piece p)[k]? = some x := by
    intro j hj
    induction j with
    | zero => rw [h.zero]; omega
    | succ j ih =>
      intro hlt
      by_cases h1 : i < off j
      · exact ih (by omega) h1
      · rw [h.next j (by omega)] at hlt
        refine ⟨j, by omega, i - off j, by omega, ?_⟩
        rw [← h.at_ j (by omega) (i - off j) (by omega), ← hi]
        congr 1; omega
  refine key n le_rfl ?_
  rw [h.total]
  exact (List.getElem?_eq_some_iff.mp hi).1

theorem offsets_of_cut {β : Type} {l : List β} {offs : List ℕ} {n : ℕ} {piece : ℕ → List β} (h : CutInto l offs n piece) :
    ∃ off, Offsets l offs n piece off := by
  obtain ⟨off, h1, h2, h3, h4, h5, h6⟩ := cutInto_facts h
  exact ⟨off, h1, h2, h3, h4, h5, h6⟩

/-- The exchange on all ranks. -/
theorem exchange_core {rel : ℕ × Quad d → ℕ × Quad d → Prop} {leaves : ℕ → List (ℕ × Quad d)} {P size : ℕ}
    {gs : List (GhostLayer d)} (hl : gs.length = P) (hg : ∀ r < P, ∃ g, gs[r]? = some g ∧ GhostTables rel leaves P r g)
    {wanted : ℕ → Bool} {D : ℕ → GhostQuad d → List Byte} {begins : ℕ → GhostLayer d → Option GhostPost}
    (hbegin : ∀ r < P, ∀ g, gs[r]? = some g → ∀ off, Offsets g.ghosts g.procOffsets P (fun p => seenBy rel leaves p r) off →
      begins r g = some ⟨(List.range P).filterMap (recvOf size off (fun p => seenBy rel leaves p r) wanted),
        (List.range P).filterMap (sendOf (fun q => seenBy rel leaves r q) wanted (D r))⟩)
    (hD : ∀ p < P, ∀ r < P, ∀ x ∈ seenBy rel leaves p r, wanted x.1.2.level = true → (D p x).length = size)
    {mems : ℕ → List Byte} (hmem : ∀ (r : ℕ) g, gs[r]? = some g → g.ghosts.length * size ≤ (mems r).length)
    {order : ℕ → List GhostRecv → List GhostRecv} (ho : AnyOrder order) :
    ∃ res, exchangeAll size wanted order begins gs mems = some res ∧ res.length = P ∧
      ∀ r < P, ∃ g m, gs[r]? = some g ∧ res[r]? = some m ∧ m.length = (mems r).length ∧
        (∀ (i : ℕ) x, g.ghosts[i]? = some x → ∃ p < P, OwnedBy g i p ∧ x ∈ seenBy rel leaves p r ∧
          item size m i = if wanted x.1.2.level = true then D p x else item size (mems r) i) ∧
        ∀ i, g.ghosts.length ≤ i → item size m i = item size (mems r) i := by
  have hg' : ∀ r : ℕ, ∃ g off, r < P → gs[r]? = some g ∧ GhostTables rel leaves P r g ∧
      Offsets g.ghosts g.procOffsets P (fun p => seenBy rel leaves p r) off := by
    intro r
    by_cases hr : r < P
    · obtain ⟨g, h1, h2⟩ := hg r hr
      obtain ⟨off, h3⟩ := offsets_of_cut h2.procs
      exact ⟨g, off, fun _ => ⟨h1, h2, h3⟩⟩
    · exact ⟨⟨[], [], [], [], [], [], []⟩, fun _ => 0, fun h => absurd h hr⟩
  choose G off hG using hg'
  have hget : ∀ (r : ℕ) g, gs[r]? = some g → r < P ∧ g = G r := by
    intro r g h
    have hr : r < P := by rw [← hl]; exact (List.getElem?_eq_some_iff.mp h).1
    have := (hG r hr).1
    rw [h] at this
    exact ⟨hr, Option.some.inj this⟩
  have hposts := mapM_zipIdx (l := gs) (f := fun x => begins x.2 x.1)
    (h := fun r => (⟨(List.range P).filterMap (recvOf size (off r) (fun p => seenBy rel leaves p r) wanted),
        (List.range P).filterMap (sendOf (fun q => seenBy rel leaves r q) wanted (D r))⟩ : GhostPost))
    (fun i x hx => by
      obtain ⟨h1, h2⟩ := hget i x hx
      subst h2
      exact hbegin i h1 (G i) hx (off i) (hG i h1).2.2)
  rw [hl] at hposts
  set posts := (List.range P).map (fun r => (⟨(List.range P).filterMap (recvOf size (off r) (fun p => seenBy rel leaves p r) wanted),
        (List.range P).filterMap (sendOf (fun q => seenBy rel leaves r q) wanted (D r))⟩ : GhostPost)) with hp
  have hpget : ∀ r < P, posts[r]? = some ⟨(List.range P).filterMap (recvOf size (off r) (fun p => seenBy rel leaves p r) wanted),
        (List.range P).filterMap (sendOf (fun q => seenBy rel leaves r q) wanted (D r))⟩ := by
    intro r hr
    rw [hp, List.getElem?_map, List.getElem?_range hr]; rfl
  have hend : ∀ r : ℕ, ∃ m, r < P → exchangeEnd size wanted order posts r (G r) (mems r) = some m ∧
      m.length = (mems r).length ∧
        (∀ (i : ℕ) x, (G r).ghosts[i]? = some x → ∃ p < P, OwnedBy (G r) i p ∧ x ∈ seenBy rel leaves p r ∧
          item size m i = if wanted x.1.2.level = true then D p x else item size (mems r) i) ∧
        ∀ i, (G r).ghosts.length ≤ i → item size m i = item size (mems r) i := by
    intro r
    by_cases hr : r < P
    · obtain ⟨h1, -, h3⟩ := hG r hr
      have hperm := ho r ((List.range P).filterMap (recvOf size (off r) (fun p => seenBy rel leaves p r) wanted))
      obtain ⟨m, k1, k2, k3, k4, k5⟩ := completeAll_spec (D := D) (message := messageFrom posts r) h3 (fun q hq hc => by
          unfold messageFrom
          rw [obind (hpget q hq), obind (find_sendOf hr hc)])
        (fun q hq => hD q hq r hr) (order r ((List.range P).filterMap (recvOf size (off r) (fun p => seenBy rel leaves p r) wanted)))
        (mems r) (hmem r _ h1) (fun y hy => by
          rw [hperm.mem_iff, List.mem_filterMap] at hy
          obtain ⟨q, hq, h⟩ := hy
          exact ⟨q, List.mem_range.mp hq, h⟩)
      refine ⟨m, fun _ => ⟨?_, k2, ?_, k5⟩⟩
      · unfold exchangeEnd
        rw [obind (hpget r hr)]
        simp only
        rw [obind k1, if_pos]
        rw [List.all_eq_true]
        intro s hs
        rw [List.mem_filterMap] at hs
        obtain ⟨q, hq, hs⟩ := hs
        rw [List.mem_range] at hq
        unfold sendOf at hs
        split at hs
        · rename_i hc
          cases hs
          unfold awaits
          simp only [hpget q hq]
          rw [List.any_eq_true]
          refine ⟨⟨r, off q r, ((seenBy rel leaves r q).countP fun x => wanted x.1.2.level) * size,
            decide (((seenBy rel leaves r q).countP fun x => wanted x.1.2.level) < (seenBy rel leaves r q).length)⟩, ?_, by simp⟩
          rw [List.mem_filterMap]
          refine ⟨r, List.mem_range.mpr hr, ?_⟩
          unfold recvOf
          simp only
          rw [if_pos hc]
        · cases hs
      · intro i x hx
        obtain ⟨p, hp, k, rfl, hk⟩ := h3.find hx
        have hmx : x ∈ seenBy rel leaves p r := List.mem_of_getElem? hk
        refine ⟨p, hp, ⟨off r p, off r (p + 1), h3.get p (by omega), h3.get (p + 1) (by omega), by omega, ?_⟩, hmx, ?_⟩
        · rw [h3.next p hp]
          have := (List.getElem?_eq_some_iff.mp hk).1
          omega
        · by_cases hw : wanted x.1.2.level = true
          · rw [if_pos hw]
            have hc : 0 < (seenBy rel leaves p r).countP fun x => wanted x.1.2.level := List.countP_pos_iff.mpr ⟨x, hmx, hw⟩
            refine k3 p hp k x hk hw ⟨⟨p, off r p, ((seenBy rel leaves p r).countP fun x => wanted x.1.2.level) * size,
              decide (((seenBy rel leaves p r).countP fun x => wanted x.1.2.level) < (seenBy rel leaves p r).length)⟩, ?_, rfl⟩
            rw [hperm.mem_iff, List.mem_filterMap]
            refine ⟨p, List.mem_range.mpr hp, ?_⟩
            unfold recvOf
            simp only
            rw [if_pos hc]
          · rw [if_neg hw]
            exact k4 p hp k x hk (Or.inl (by simpa using hw))
    · exact ⟨[], fun h => absurd h hr⟩
  choose M hM using hend
  have hres := mapM_zipIdx (l := gs) (f := fun x => exchangeEnd size wanted order posts x.2 x.1 (mems x.2)) (h := M) (fun i x hx => by
      obtain ⟨h1, h2⟩ := hget i x hx
      subst h2
      exact (hM i h1).1)
  rw [hl] at hres
  refine ⟨(List.range P).map M, ?_, by simp, ?_⟩
  · unfold exchangeAll
    rw [obind hposts, hres]
  · intro r hr
    refine ⟨G r, M r, (hG r hr).1, ?_, (hM r hr).2⟩
    rw [List.getElem?_map, List.getElem?_range hr]; rfl

end P4est
