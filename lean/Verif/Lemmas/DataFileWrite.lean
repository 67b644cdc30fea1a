import Verif.Lemmas.DataFile

/-! # Writing data files -/

namespace P4est

open Spec

/-! ### Single writes -/

theorem length_putAt (f : List Byte) (w : ℕ × List Byte) :
    (putAt f w).length = if w.2 = [] then f.length else max f.length (w.1 + w.2.length) := by
  unfold putAt writeAt
  split
  · rfl
  · simp
    omega

theorem getD_putAt (f : List Byte) (w : ℕ × List Byte) (i : ℕ) :
    (putAt f w).getD i 0 = if w.1 ≤ i ∧ i < w.1 + w.2.length then w.2.getD (i - w.1) 0 else f.getD i 0 := by
  obtain ⟨p, b⟩ := w
  unfold putAt writeAt
  dsimp only
  by_cases hb : b = []
  · subst hb
    rw [if_pos rfl, if_neg (by simp)]
  rw [if_neg hb]
  simp only [List.getD_eq_getElem?_getD]
  by_cases h1 : i < p
  · rw [if_neg (by omega), List.append_assoc, List.append_assoc]
    by_cases h2 : i < f.length
    · rw [List.getElem?_append_left (by simp; omega), List.getElem?_take_of_lt h1]
    · rw [List.getElem?_append_right (by simp; omega), List.getElem?_append_left (by simp; omega), List.getElem?_replicate,
        if_pos (by simp; omega), List.getElem?_eq_none (l := f) (by omega)]
      rfl
  have hl : (f.take p ++ List.replicate (p - f.length) (0 : Byte)).length = p := by simp; omega
  by_cases h2 : i < p + b.length
  · rw [if_pos (by omega), List.append_assoc, List.getElem?_append_right (by omega), hl, List.getElem?_append_left (by omega)]
  · rw [if_neg (by omega), List.append_assoc, List.getElem?_append_right (by omega), hl, List.getElem?_append_right (by omega),
      List.getElem?_drop]
    congr 2
    omega

theorem length_setSize (f : List Byte) (n : ℕ) : (setSize f n).length = n := by
  unfold setSize
  simp
  omega

theorem getD_setSize {f : List Byte} {n : ℕ} (h : f.length ≤ n) (i : ℕ) : (setSize f n).getD i 0 = f.getD i 0 := by
  unfold setSize
  rw [List.take_of_length_le h]
  simp only [List.getD_eq_getElem?_getD]
  by_cases h2 : i < f.length
  · rw [List.getElem?_append_left h2]
  · rw [List.getElem?_append_right (by omega), List.getElem?_eq_none (l := f) (by omega), List.getElem?_replicate]
    split <;> rfl

theorem ext_getD {f g : List Byte} (hl : f.length = g.length) (h : ∀ i < f.length, f.getD i 0 = g.getD i 0) : f = g := by
  apply List.ext_getElem hl
  intro i h1 h2
  have := h i h1
  simpa [h1, h2] using this

/-! ### Many writes -/

/-- A write agrees with what a file will contain in the end. -/
def Agrees (F : List Byte) (w : ℕ × List Byte) : Prop :=
  w.1 + w.2.length ≤ F.length ∧ ∀ i, w.1 ≤ i → i < w.1 + w.2.length → w.2.getD (i - w.1) 0 = F.getD i 0

theorem putAll_getD {F : List Byte} {ws : List (ℕ × List Byte)} (hw : ∀ w ∈ ws, Agrees F w) (f : List Byte) (i : ℕ)
    (h : f.getD i 0 = F.getD i 0 ∨ ∃ w ∈ ws, w.1 ≤ i ∧ i < w.1 + w.2.length) : (putAll f ws).getD i 0 = F.getD i 0 := by
  unfold putAll
  induction ws generalizing f with
  | nil => simpa using h
  | cons w ws ih =>
    rw [List.foldl_cons]
    apply ih fun x hx => hw x (by simp [hx])
    rw [getD_putAt]
    by_cases hc : w.1 ≤ i ∧ i < w.1 + w.2.length
    · rw [if_pos hc]
      exact Or.inl ((hw w (by simp)).2 i hc.1 hc.2)
    · rw [if_neg hc]
      rcases h with h | ⟨x, hx, h⟩
      · exact Or.inl h
      · rcases List.mem_cons.1 hx with rfl | hx
        · exact absurd h hc
        · exact Or.inr ⟨x, hx, h⟩

theorem le_length_putAll (f : List Byte) (ws : List (ℕ × List Byte)) : f.length ≤ (putAll f ws).length := by
  unfold putAll
  induction ws generalizing f with
  | nil => simp
  | cons w ws ih =>
    rw [List.foldl_cons]
    refine le_trans ?_ (ih _)
    rw [length_putAt]
    split <;> omega

theorem end_le_length_putAll (f : List Byte) {ws : List (ℕ × List Byte)} {w : ℕ × List Byte} (h : w ∈ ws) (hb : w.2 ≠ []) :
    w.1 + w.2.length ≤ (putAll f ws).length := by
  induction ws generalizing f with
  | nil => simp at h
  | cons x ws ih =>
    rcases List.mem_cons.1 h with rfl | h
    · change _ ≤ (putAll (putAt f w) ws).length
      refine le_trans ?_ (le_length_putAll _ _)
      rw [length_putAt, if_neg hb]
      omega
    · exact ih (putAt f x) h

theorem length_putAll_le {n : ℕ} {f : List Byte} {ws : List (ℕ × List Byte)} (hf : f.length ≤ n) (hw : ∀ w ∈ ws, w.1 + w.2.length ≤ n) :
    (putAll f ws).length ≤ n := by
  induction ws generalizing f with
  | nil => simpa [putAll] using hf
  | cons w ws ih =>
    refine ih (f := putAt f w) ?_ fun x hx => hw x (by simp [hx])
    have := hw w (by simp)
    rw [length_putAt]
    split <;> omega

/-- A file that is written completely. -/
theorem putAll_eq {F f : List Byte} {ws : List (ℕ × List Byte)} (hw : ∀ w ∈ ws, Agrees F w) (hf : f.length ≤ F.length)
    (hend : ∃ w ∈ ws, w.2 ≠ [] ∧ w.1 + w.2.length = F.length)
    (hcov : ∀ i < F.length, f.getD i 0 = F.getD i 0 ∨ ∃ w ∈ ws, w.1 ≤ i ∧ i < w.1 + w.2.length) : putAll f ws = F := by
  have h1 := length_putAll_le hf fun w hw' => (hw w hw').1
  obtain ⟨w, hw', hb, he⟩ := hend
  have h2 := end_le_length_putAll f hw' hb
  have hl : (putAll f ws).length = F.length := by omega
  exact ext_getD hl fun i hi => putAll_getD hw f i (hcov i (by omega))

theorem getD_take {f : List Byte} {n i : ℕ} (h : i < n) : (f.take n).getD i 0 = f.getD i 0 := by
  simp [List.getElem?_take_of_lt h]

/-- Writes after the end of the first part of a file do not change it. -/
theorem putAll_prefix {A f : List Byte} {ws : List (ℕ × List Byte)} (hA : A <+: f) (hw : ∀ w ∈ ws, A.length ≤ w.1) : A <+: putAll f ws := by
  rw [List.prefix_iff_eq_take]
  have hl := le_length_putAll f ws
  have hAf := hA.length_le
  apply ext_getD (by simp; omega)
  intro i hi
  have h1 : (putAll f ws).getD i 0 = f.getD i 0 := by
    clear hl
    unfold putAll
    induction ws generalizing f with
    | nil => rfl
    | cons w ws ih =>
      rw [List.foldl_cons]
      have hA' : A <+: putAt f w := by
        rw [List.prefix_iff_eq_take]
        have := length_putAt f w
        have hl' : A.length ≤ (putAt f w).length := by rw [this]; split <;> omega
        apply ext_getD (by simp; omega)
        intro j hj
        rw [getD_take hj, getD_putAt,
          if_neg (by have := hw w (by simp); omega)]
        obtain ⟨t, rfl⟩ := hA
        simp [List.getElem?_append_left hj]
      rw [ih hA' (fun x hx => hw x (by simp [hx])) hA'.length_le, getD_putAt, if_neg (by have := hw w (by simp); omega)]
  rw [getD_take hi, h1]
  obtain ⟨t, rfl⟩ := hA
  simp [List.getElem?_append_left hi]

/-! ### Partitions -/

theorem Spec.IsPartition.le {P n : ℕ} {gfq : ℕ → ℕ} (h : IsPartition P n gfq) {a b : ℕ} (hab : a ≤ b) (hb : b ≤ P) : gfq a ≤ gfq b := by
  induction b, hab using Nat.le_induction with
  | base => exact le_refl _
  | succ b hab ih => exact le_trans (ih (by omega)) (h.mono b (by omega))

theorem Spec.IsPartition.find {P n : ℕ} {gfq : ℕ → ℕ} (h : IsPartition P n gfq) (size : ℕ) {i : ℕ} (hi : i < n * size) :
    ∃ r < P, gfq r * size ≤ i ∧ i < gfq (r + 1) * size := by
  have : ∀ m ≤ P, i < gfq m * size → ∃ r < m, gfq r * size ≤ i ∧ i < gfq (r + 1) * size := by
    intro m
    induction m with
    | zero => intro _ h0; rw [h.first] at h0; omega
    | succ m ih =>
      intro hm hi'
      by_cases hc : gfq m * size ≤ i
      · exact ⟨m, by omega, hc, hi'⟩
      · obtain ⟨r, hr, h'⟩ := ih (by omega) (by omega)
        exact ⟨r, by omega, h'⟩
  exact this P (le_refl _) (by rw [h.last]; exact hi)

theorem flatten_drop {size : ℕ} {es : List (List Byte)} (h : ∀ e ∈ es, e.length = size) (k : ℕ) :
    (es.drop k).flatten = es.flatten.drop (k * size) := by
  induction k generalizing es with
  | zero => simp
  | succ k ih =>
    rcases es with _ | ⟨e, es⟩
    · simp
    · rw [List.drop_succ_cons, ih fun x hx => h x (by simp [hx]), List.flatten_cons, Nat.succ_mul, Nat.add_comm,
        ← List.drop_drop, List.drop_left' (h e (by simp))]

theorem flatten_take {size : ℕ} {es : List (List Byte)} (h : ∀ e ∈ es, e.length = size) (k : ℕ) :
    (es.take k).flatten = es.flatten.take (k * size) := by
  induction k generalizing es with
  | zero => simp
  | succ k ih =>
    rcases es with _ | ⟨e, es⟩
    · simp
    · rw [List.take_succ_cons, List.flatten_cons, ih fun x hx => h x (by simp [hx]), List.flatten_cons, List.take_append,
        h e (by simp), List.take_of_length_le (l := e) (by rw [h e (by simp), Nat.succ_mul]; omega), Nat.succ_mul, Nat.add_sub_cancel]

theorem length_flatten {size : ℕ} {es : List (List Byte)} (h : ∀ e ∈ es, e.length = size) : es.flatten.length = es.length * size := by
  induction es with
  | nil => simp
  | cons e es ih =>
    rw [List.flatten_cons, List.length_append, ih fun x hx => h x (by simp [hx]), h e (by simp), List.length_cons, Nat.succ_mul, Nat.add_comm]

theorem ownEntries_eq {size : ℕ} {es : List (List Byte)} (h : ∀ e ∈ es, e.length = size) (gfq : ℕ → ℕ) (r : ℕ) :
    ownEntries gfq r es = (es.flatten.drop (gfq r * size)).take ((gfq (r + 1) - gfq r) * size) := by
  unfold ownEntries
  rw [flatten_take (fun e he => h e (List.mem_of_mem_drop he)), flatten_drop h]

theorem length_ownEntries {size : ℕ} {es : List (List Byte)} (h : ∀ e ∈ es, e.length = size) {P : ℕ} {gfq : ℕ → ℕ}
    (hp : IsPartition P es.length gfq) {r : ℕ} (hr : r < P) : (ownEntries gfq r es).length = (gfq (r + 1) - gfq r) * size := by
  rw [ownEntries_eq h, List.length_take, List.length_drop, length_flatten h, Nat.sub_mul]
  have h1 := hp.le (show r + 1 ≤ P by omega) (le_refl _)
  rw [hp.last] at h1
  have := Nat.mul_le_mul_right size h1
  have := Nat.mul_le_mul_right size (hp.mono r hr)
  omega

/-! ### Sections -/

/-- A section in the file. -/
def sectionCode (gnq : ℕ) : DataSection → List Byte
  | .block data str => sectionHeader 66 data.length str ++ data ++ padString (padBytes data.length)
  | .field size es str => sectionHeader 70 size str ++ es.flatten ++ padString (padBytes (gnq * size))

theorem length_sectionHeader {type : Byte} {size : ℕ} {str : List Byte} (hs : str.length < 48) (hn : size ≤ 9999999999999) :
    (sectionHeader type size str).length = 64 := (sectionHeader_facts hs hn).length

theorem length_sectionCode {gnq : ℕ} {s : DataSection} (h : SectionOk gnq s) (hp : sectionBytes gnq s % 16 ≠ 15) :
    (sectionCode gnq s).length = sectionBytes gnq s + 64 + padBytes (sectionBytes gnq s) := by
  have hk := (padding_some hp).2.1
  cases s with
  | block data str =>
    obtain ⟨h1, h2, h3⟩ := h
    simp only [sectionBytes, sectionCode, List.length_append, length_sectionHeader h1 h3] at *
    rw [length_padString hk]
    omega
  | field size es str =>
    obtain ⟨h1, h2, h3, h4, h5⟩ := h
    simp only [sectionBytes, sectionCode, List.length_append, length_sectionHeader h1 h3] at *
    rw [length_padString hk, length_flatten h5, h4]
    omega

theorem agrees_append {A B C : List Byte} {p : ℕ} (hp : p = A.length) : Agrees (A ++ B ++ C) (p, B) := by
  subst hp
  refine ⟨by simp, fun i h1 h2 => ?_⟩
  dsimp only at h1 h2 ⊢
  simp only [List.getD_eq_getElem?_getD]
  rw [List.append_assoc, List.getElem?_append_right h1, List.getElem?_append_left (by omega)]

theorem sizeFor_facts (mpiio : Bool) {A : List Byte} {acc n : ℕ} (hA : A.length = acc + 112) :
    A.length ≤ (sizeFor mpiio A acc n).length ∧ (sizeFor mpiio A acc n).length ≤ acc + 112 + 64 + n ∧
      ∀ i, (sizeFor mpiio A acc n).getD i 0 = A.getD i 0 := by
  unfold sizeFor
  cases mpiio
  · simp; omega
  · refine ⟨?_, ?_, fun i => getD_setSize (by omega) i⟩
    · simp only [if_true, length_setSize]; omega
    · simp only [if_true, length_setSize]; omega

theorem putAll_block (mpiio : Bool) (gnq : ℕ) {A data str : List Byte} {acc : ℕ} (hA : A.length = acc + 112) (hs : str.length < 48)
    (hn : data.length ≤ 9999999999999) (hp : data.length % 16 ≠ 15) :
    putAll (sizeFor mpiio A acc data.length) (blockWrites acc (padBytes data.length) data str) = A ++ sectionCode gnq (.block data str) := by
  obtain ⟨-, hk, -, -⟩ := padding_some hp
  have hh := length_sectionHeader (type := 66) hs hn
  have hpl := length_padString hk
  obtain ⟨s1, s2, s3⟩ := sizeFor_facts mpiio (n := data.length) hA
  unfold blockWrites
  simp only [sectionCode]
  generalize sectionHeader 66 data.length str = H at *
  generalize padString (padBytes data.length) = K at *
  generalize padBytes data.length = k at *
  have hl : (A ++ (H ++ data ++ K)).length = acc + 112 + 64 + data.length + k := by simp; omega
  apply putAll_eq
  · intro w hw
    simp only [List.mem_cons, List.not_mem_nil, or_false] at hw
    rcases hw with rfl | rfl | rfl
    · rw [show A ++ (H ++ data ++ K) = A ++ H ++ (data ++ K) by simp]
      exact agrees_append (by omega)
    · rw [show A ++ (H ++ data ++ K) = (A ++ H) ++ data ++ K by simp]
      exact agrees_append (by simp; omega)
    · rw [show A ++ (H ++ data ++ K) = (A ++ H ++ data) ++ K ++ [] by simp]
      exact agrees_append (by simp; omega)
  · omega
  · refine ⟨(acc + 96 + 16 + 64 + data.length, K), by simp, ?_, ?_⟩
    · dsimp only
      rw [← List.length_pos_iff_ne_nil]
      omega
    · rw [hl]
      dsimp only
      omega
  · intro i hi
    by_cases h0 : i < A.length
    · left
      rw [s3, List.getD_eq_getElem?_getD, List.getD_eq_getElem?_getD, List.getElem?_append_left h0]
    · right
      by_cases h1 : i < acc + 112 + 64
      · exact ⟨_, by simp; left; rfl, by dsimp only; omega, by dsimp only; omega⟩
      by_cases h2 : i < acc + 112 + 64 + data.length
      · exact ⟨(acc + 96 + 16 + 64, data), by simp, by dsimp only; omega, by dsimp only; omega⟩
      · exact ⟨(acc + 96 + 16 + 64 + data.length, K), by simp, by dsimp only; omega, by dsimp only; omega⟩

theorem putAll_field (mpiio : Bool) {A str : List Byte} {acc size P : ℕ} {es : List (List Byte)} {gfq : ℕ → ℕ} {order : List ℕ}
    (hA : A.length = acc + 112) (hs : str.length < 48) (hn : size ≤ 9999999999999) (he : ∀ e ∈ es, e.length = size)
    (hp : es.length * size % 16 ≠ 15) (hq : IsPartition P es.length gfq) (ho : order.Perm (List.range P)) :
    putAll (sizeFor mpiio A acc (es.length * size))
      (fieldWrites acc es.length (padBytes (es.length * size)) size gfq (fun r => ownEntries gfq r es) str order) =
        A ++ sectionCode es.length (.field size es str) := by
  obtain ⟨-, hk, -, -⟩ := padding_some hp
  have hh := length_sectionHeader (type := 70) hs hn
  have hpl := length_padString hk
  obtain ⟨s1, s2, s3⟩ := sizeFor_facts mpiio (n := es.length * size) hA
  have hD := length_flatten he
  have hord : ∀ r, r ∈ order ↔ r < P := fun r => by rw [ho.mem_iff, List.mem_range]
  have own := fun r => ownEntries_eq he gfq r
  have ownl := fun r (hr : r < P) => length_ownEntries he hq hr
  have hend : ∀ r, r < P → gfq r * size + (ownEntries gfq r es).length = gfq (r + 1) * size := by
    intro r hr
    rw [ownl r hr, Nat.sub_mul]
    have := Nat.mul_le_mul_right size (hq.mono r hr)
    omega
  have hlast : ∀ r, r < P → gfq (r + 1) * size ≤ es.length * size := by
    intro r hr
    have h1 := hq.le (show r + 1 ≤ P by omega) (le_refl _)
    rw [hq.last] at h1
    exact Nat.mul_le_mul_right size h1
  have h0 := hq.first
  unfold fieldWrites
  simp only [sectionCode]
  generalize sectionHeader 70 size str = H at *
  generalize padString (padBytes (es.length * size)) = K at *
  generalize padBytes (es.length * size) = k at *
  generalize hn' : es.length * size = n at *
  have hl : (A ++ (H ++ es.flatten ++ K)).length = acc + 112 + 64 + n + k := by simp only [List.length_append]; omega
  apply putAll_eq
  · intro w hw
    simp only [List.mem_cons, List.mem_append, List.mem_map, List.not_mem_nil, or_false] at hw
    rcases hw with rfl | ⟨r, hr, rfl⟩ | rfl
    · rw [show A ++ (H ++ es.flatten ++ K) = A ++ H ++ (es.flatten ++ K) by simp]
      exact agrees_append (by rw [h0]; omega)
    · have hr' := (hord r).1 hr
      have e1 := hend r hr'
      have e2 := hlast r hr'
      refine ⟨by dsimp only; omega, fun i h1 h2 => ?_⟩
      dsimp only at h1 h2 ⊢
      rw [show A ++ (H ++ es.flatten ++ K) = (A ++ H) ++ (es.flatten ++ K) by simp]
      simp only [List.getD_eq_getElem?_getD]
      have hAH : (A ++ H).length = acc + 112 + 64 := by simp only [List.length_append]; omega
      rw [List.getElem?_append_right (by omega), List.getElem?_append_left (by omega), own r,
        List.getElem?_take_of_lt (by rw [← ownl r hr']; omega), List.getElem?_drop]
      congr 2
      omega
    · rw [show A ++ (H ++ es.flatten ++ K) = (A ++ H ++ es.flatten) ++ K ++ [] by simp]
      exact agrees_append (by simp only [List.length_append]; omega)
  · omega
  · refine ⟨(acc + 96 + 16 + n + 64, K), by simp, ?_, ?_⟩
    · dsimp only
      rw [← List.length_pos_iff_ne_nil]
      omega
    · rw [hl]
      dsimp only
      omega
  · intro i hi
    by_cases h0' : i < A.length
    · left
      rw [s3, List.getD_eq_getElem?_getD, List.getD_eq_getElem?_getD, List.getElem?_append_left h0']
    · right
      by_cases h1 : i < acc + 112 + 64
      · exact ⟨_, List.mem_cons_self, by dsimp only; rw [h0]; omega, by dsimp only; omega⟩
      by_cases h2 : i < acc + 112 + 64 + n
      · have h3 : i - (acc + 112 + 64) < es.length * size := by omega
        obtain ⟨r, hr, r1, r2⟩ := hq.find size h3
        have := hend r hr
        refine ⟨(acc + (96 + 16 + gfq r * size) + 64, ownEntries gfq r es), ?_, by dsimp only; omega, by dsimp only; omega⟩
        simp only [List.mem_cons, List.mem_append, List.mem_map]
        exact Or.inr (Or.inl ⟨r, (hord r).2 hr, rfl⟩)
      · exact ⟨(acc + 96 + 16 + n + 64, K), by simp, by dsimp only; omega, by dsimp only; omega⟩

end P4est
