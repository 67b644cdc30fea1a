import Verif.Lemmas.DataFileWrite

/-! # Reading data files -/

namespace P4est

open Spec

/-- The sections in the file. -/
def sectionsCode (gnq : ℕ) (ss : List DataSection) : List Byte := ss.flatMap (sectionCode gnq)

theorem sectionsCode_cons (gnq : ℕ) (s : DataSection) (ss : List DataSection) :
    sectionsCode gnq (s :: ss) = sectionCode gnq s ++ sectionsCode gnq ss := by simp [sectionsCode]

theorem sectionsCode_append (gnq : ℕ) (ss ss' : List DataSection) :
    sectionsCode gnq (ss ++ ss') = sectionsCode gnq ss ++ sectionsCode gnq ss' := by simp [sectionsCode]

/-- A context further ahead in the file. -/
def FileCtx.ahead (c : FileCtx) (n : ℕ) : FileCtx := { c with accessed := c.accessed + n }

/-! ### What is written -/

theorem writeSection_eq (mpiio : Bool) {P gnq : ℕ} {order : List ℕ} {A : List Byte} {c : FileCtx} {s : DataSection} (hA : A.length = c.accessed + 112)
    (hc : c.gnq = gnq) (hq : IsPartition P gnq c.gfq) (ho : order.Perm (List.range P)) (hs : SectionOk gnq s)
    (hp : sectionBytes gnq s % 16 ≠ 15) :
    writeSection mpiio P order A c s = .done (A ++ sectionCode gnq s, c.ahead (sectionCode gnq s).length) := by
  have hl := length_sectionCode hs hp
  obtain ⟨hk, -, -, -⟩ := padding_some hp
  subst hc
  cases s with
  | block data str =>
    obtain ⟨h1, h2, h3⟩ := hs
    simp only [sectionBytes] at *
    simp only [writeSection, fileWriteBlock, hk, not_true, h1, h3, if_false]
    rw [putAll_block mpiio c.gnq hA h1 h3 hp, FileCtx.ahead, hl]
  | field size es str =>
    obtain ⟨h1, h2, h3, h4, h5⟩ := hs
    simp only [sectionBytes] at *
    rw [← h4] at hq hp hk hl
    have hg : ¬ ¬ ∀ r < P, ownEntries c.gfq r es = [] ∨ (ownEntries c.gfq r es).length = (c.gfq (r + 1) - c.gfq r) * size := by
      rw [not_not]
      exact fun r hr => Or.inr (length_ownEntries h5 hq hr)
    simp only [writeSection, fileWriteField]
    rw [if_neg hg]
    rw [← h4]
    simp only [hk, not_true, h1, h3, if_false]
    rw [putAll_field mpiio hA h1 h3 h5 hp hq ho, FileCtx.ahead, hl, Nat.mul_comm size, h4]

theorem writeSections_eq (mpiio : Bool) {P gnq : ℕ} {order : ℕ → List ℕ} {ss : List DataSection} (ho : ∀ i, (order i).Perm (List.range P))
    (hs : ∀ s ∈ ss, SectionOk gnq s) (hp : ∀ s ∈ ss, sectionBytes gnq s % 16 ≠ 15) (i : ℕ) {A : List Byte} {c : FileCtx}
    (hA : A.length = c.accessed + 112) (hc : c.gnq = gnq) (hq : IsPartition P gnq c.gfq) :
    writeSections mpiio P order i A c ss = .done (A ++ sectionsCode gnq ss, c.ahead (sectionsCode gnq ss).length) := by
  induction ss generalizing i A c with
  | nil => simp [writeSections, sectionsCode, FileCtx.ahead]
  | cons s ss ih =>
    rw [writeSections, writeSection_eq mpiio hA hc hq (ho i) (hs s (by simp)) (hp s (by simp))]
    dsimp only
    rw [ih (fun x hx => hs x (by simp [hx])) (fun x hx => hp x (by simp [hx])) (i + 1) (by simp [FileCtx.ahead]; omega)
      (by simpa [FileCtx.ahead] using hc) (by simpa [FileCtx.ahead] using hq), sectionsCode_cons]
    simp [FileCtx.ahead, Nat.add_assoc]

/-! ### What is read -/

theorem getAt_mid {A X B : List Byte} {p n : ℕ} (hp : p = A.length) (hn : n = X.length) : getAt (A ++ X ++ B) p n = X := by
  subst hp hn
  unfold getAt
  rw [List.append_assoc, List.drop_left, List.take_left]

theorem padString_ends {k : ℕ} (h : 2 ≤ k) : (padString k)[0]? = some 10 ∧ (padString k)[k - 1]? = some 10 := by
  refine ⟨rfl, ?_⟩
  unfold padString
  rw [show k - 1 = (k - 2) + 1 by omega, List.getElem?_cons_succ, List.getElem?_append_right (by simp)]
  simp

theorem readSection_eq (rank : ℕ) {A D B str : List Byte} {c : FileCtx} {size n : ℕ} {type : Byte} (hA : A.length = c.accessed + 112)
    (hs : str.length < 48) (hs0 : 0 ∉ str) (hz : size ≤ 9999999999999) (hn : (if type = 70 then size * c.gnq else size) = n) (hD : D.length = n)
    (hp : n % 16 ≠ 15) :
    readSection rank (A ++ (sectionHeader type size str ++ D ++ padString (padBytes n)) ++ B) c size type = .done (padRight 47 str) := by
  obtain ⟨hk, hk2, -, -⟩ := padding_some hp
  have hf := sectionHeader_facts (type := type) hs hz
  have hpl := length_padString hk2
  have hpe := padString_ends hk2
  have hz' : cstr (decimal 13 size) = decimal 13 size := cstr_eq zero_decimal
  have hz'' : cstr (padRight 47 str) = padRight 47 str := cstr_eq (zero_padRight hs0)
  have hsl : (padRight 47 str).length = 47 := length_padRight (by omega)
  have hat := atol_decimal (w := 13) (n := size)
  unfold readSection
  generalize sectionHeader type size str = H at *
  generalize padString (padBytes n) = K at *
  have e1 : getAt (A ++ (H ++ D ++ K) ++ B) (c.accessed + 96 + 16) 64 = H := by
    rw [show A ++ (H ++ D ++ K) ++ B = A ++ H ++ (D ++ K ++ B) by simp]
    exact getAt_mid (by omega) hf.length.symm
  have e2 : getAt (A ++ (H ++ D ++ K) ++ B) (c.accessed + 96 + 16 + 64 + n) (padBytes n) = K := by
    rw [show A ++ (H ++ D ++ K) ++ B = (A ++ H ++ D) ++ K ++ B by simp]
    exact getAt_mid (by simp [hf.length]; omega) hpl.symm
  have hmod : ((size : ℤ) % 2 ^ 64) = size := by omega
  dsimp only
  rw [e1, hn, hk]
  simp only [hf.length, hf.type, hf.nl, hf.nl', hf.size, hf.str, hz', hz'', hat, hmod, ne_eq, not_true, if_false]
  rw [e2]
  simp only [hpl, hpe.1, hpe.2, not_true, or_self, if_false]
  simp [hsl]

theorem tooShort_neg {f : List Byte} {n : ℕ} (h1 : n + 176 ≤ f.length) (h2 : f.length < 2 ^ 64) : ¬ tooShort f n := by
  unfold tooShort
  omega

theorem readBlock_eq (mpiio : Bool) (rank : ℕ) {A B data str : List Byte} {c : FileCtx} (hA : A.length = c.accessed + 112)
    (hs : SectionOk c.gnq (.block data str)) (hp : data.length % 16 ≠ 15) (hl : (A ++ sectionCode c.gnq (.block data str) ++ B).length < 2 ^ 64)
    (skip : Bool) :
    fileReadBlock mpiio rank (A ++ sectionCode c.gnq (.block data str) ++ B) c data.length skip =
      .done (if skip then [] else data, padRight 47 str, c.ahead (sectionCode c.gnq (.block data str)).length) := by
  have hcl := length_sectionCode hs hp
  obtain ⟨h1, h2, h3⟩ := hs
  obtain ⟨hk, hk2, -, -⟩ := padding_some hp
  have hr := readSection_eq rank (B := B) (D := data) (str := str) (size := data.length) (type := 66) hA h1 h2 h3 (n := data.length)
    (by rw [if_neg (by decide)]) rfl hp
  have hts : ¬ tooShort (A ++ sectionCode c.gnq (.block data str) ++ B) data.length := by
    refine tooShort_neg ?_ hl
    simp only [List.length_append, hcl, sectionBytes]
    omega
  have e3 : getAt (A ++ sectionCode c.gnq (.block data str) ++ B) (c.accessed + 96 + 64 + 16) data.length = data := by
    simp only [sectionCode]
    rw [show ∀ H K, A ++ (H ++ data ++ K) ++ B = (A ++ H) ++ data ++ (K ++ B) by simp]
    exact getAt_mid (by simp [length_sectionHeader h1 h3]; omega) rfl
  unfold fileReadBlock
  rw [hk]
  dsimp only
  have hr' : readSection rank (A ++ sectionCode c.gnq (.block data str) ++ B) c data.length 66 = .done (padRight 47 str) := hr
  rw [e3, hr']
  simp only [hts, decide_false, Bool.and_false, Bool.false_eq_true, if_false]
  simp only [sectionBytes] at hcl
  cases skip
  · simp [FileCtx.ahead, hcl]
  · simp [FileCtx.ahead, hcl]

theorem readFieldExt_eq (mpiio : Bool) {Q rank : ℕ} {A B str : List Byte} {size : ℕ} {es : List (List Byte)} {c : FileCtx} {gfq : ℕ → ℕ}
    (hr : rank < Q) (hA : A.length = c.accessed + 112) (hq : IsPartition Q c.gnq gfq) (hs : SectionOk c.gnq (.field size es str))
    (hp : c.gnq * size % 16 ≠ 15) (hl : (A ++ sectionCode c.gnq (.field size es str) ++ B).length < 2 ^ 64) (skip : Bool) :
    fileReadFieldExt mpiio Q rank (A ++ sectionCode c.gnq (.field size es str) ++ B) c gfq size skip =
      .done (if skip then [] else ownEntries gfq rank es, padRight 47 str, c.ahead (sectionCode c.gnq (.field size es str)).length) := by
  have hcl := length_sectionCode hs hp
  obtain ⟨h1, h2, h3, h4, h5⟩ := hs
  obtain ⟨hk, hk2, -, -⟩ := padding_some hp
  have hfl := length_flatten h5
  have hrs := readSection_eq rank (B := B) (D := es.flatten) (str := str) (size := size) (type := 70) hA h1 h2 h3 (n := c.gnq * size)
    (by rw [if_pos rfl, Nat.mul_comm]) (by rw [hfl, h4]) hp
  have hq' : IsPartition Q es.length gfq := by rw [h4]; exact hq
  have hpart : ∀ r < Q, fieldPart (A ++ sectionCode c.gnq (.field size es str) ++ B) c.accessed size gfq r = ownEntries gfq r es := by
    intro r hr
    rw [ownEntries_eq h5]
    have b1 := hq'.le (show r + 1 ≤ Q by omega) (le_refl _)
    rw [hq'.last] at b1
    have b2 := Nat.mul_le_mul_right size b1
    have b3 := Nat.mul_le_mul_right size (hq'.mono r hr)
    unfold fieldPart getAt
    simp only [sectionCode]
    rw [show ∀ H K, A ++ (H ++ es.flatten ++ K) ++ B = (A ++ H) ++ (es.flatten ++ (K ++ B)) by simp, ← List.drop_drop,
      List.drop_left' (by simp [length_sectionHeader h1 h3]; omega)]
    rw [List.drop_append_of_le_length (by omega), List.take_append_of_le_length (by rw [List.length_drop, Nat.sub_mul]; omega)]
  have hle : ∀ r < Q, (gfq (r + 1) - gfq r) * size ≤ c.gnq * size := by
    intro r hr
    have h1 := hq.le (show r + 1 ≤ Q by omega) (le_refl _)
    rw [hq.last] at h1
    exact Nat.mul_le_mul_right size (by omega)
  have hts : ∀ r < Q, ¬ tooShort (A ++ sectionCode c.gnq (.field size es str) ++ B) ((gfq (r + 1) - gfq r) * size) := by
    intro r hr
    refine tooShort_neg ?_ hl
    have := hle r hr
    simp only [List.length_append, hcl, sectionBytes]
    omega
  have hrs' : readSection rank (A ++ sectionCode c.gnq (.field size es str) ++ B) c size 70 = .done (padRight 47 str) := hrs
  unfold fileReadFieldExt
  rw [if_neg (by rw [hq.first, hq.last]; simp), if_neg (fun h => hts 0 hq.ranks (h.2 0 hq.ranks)), if_neg (fun h => h.2 hts), hrs', hk]
  dsimp only
  rw [if_neg]
  · simp only [sectionBytes] at hcl
    rw [hpart rank hr]
    simp [FileCtx.ahead, hcl, Nat.mul_comm]
  · rintro ⟨-, h⟩
    apply h
    intro r hr
    rw [hpart r hr, length_ownEntries h5 hq' hr]

theorem readsBack (mpiio : Bool) {Q rank : ℕ} (hr : rank < Q) {ss : List DataSection} {A B : List Byte} {c : FileCtx}
    (hA : A.length = c.accessed + 112) (hq : IsPartition Q c.gnq c.gfq) (hs : ∀ s ∈ ss, SectionOk c.gnq s)
    (hp : ∀ s ∈ ss, sectionBytes c.gnq s % 16 ≠ 15) (hl : (A ++ sectionsCode c.gnq ss ++ B).length < 2 ^ 64) :
    ReadsBack mpiio Q rank (A ++ sectionsCode c.gnq ss ++ B) c ss (c.ahead (sectionsCode c.gnq ss).length) := by
  induction ss generalizing A c with
  | nil => exact ReadsBack.nil c
  | cons s ss ih =>
    have hgoal : ∀ c' : FileCtx, c' = c.ahead (sectionCode c.gnq s).length →
        ReadsBack mpiio Q rank (A ++ sectionsCode c.gnq (s :: ss) ++ B) c' ss (c.ahead (sectionsCode c.gnq (s :: ss)).length) := by
      rintro c' rfl
      have := ih (A := A ++ sectionCode c.gnq s) (c := c.ahead (sectionCode c.gnq s).length) (by simp [FileCtx.ahead]; omega)
        hq (fun x hx => hs x (by simp [hx])) (fun x hx => hp x (by simp [hx]))
        (by rw [sectionsCode_cons] at hl; simpa [FileCtx.ahead, Nat.add_assoc] using hl)
      rw [sectionsCode_cons]
      have e : ((c.ahead (sectionCode c.gnq s).length).ahead (sectionsCode c.gnq ss).length) =
          c.ahead (sectionCode c.gnq s ++ sectionsCode c.gnq ss).length := by
        simp [FileCtx.ahead, Nat.add_assoc]
      rw [← e, ← List.append_assoc A]
      exact this
    rw [sectionsCode_cons, ← List.append_assoc, List.append_assoc (A ++ _)] at hl
    have hss := hs s (by simp)
    have hpp := hp s (by simp)
    have hfile : A ++ sectionsCode c.gnq (s :: ss) ++ B = A ++ sectionCode c.gnq s ++ (sectionsCode c.gnq ss ++ B) := by
      rw [sectionsCode_cons]; simp
    cases s with
    | block data str =>
      refine ReadsBack.block c _ _ data str ss (fun skip => ?_) (hgoal _ rfl)
      rw [hfile]
      exact readBlock_eq mpiio rank hA hss hpp hl skip
    | field size es str =>
      refine ReadsBack.field c _ _ size es str ss (fun skip => ?_) (hgoal _ rfl)
      rw [hfile]
      unfold fileReadField
      rw [readFieldExt_eq mpiio hr hA hq hss hpp hl skip]

end P4est
