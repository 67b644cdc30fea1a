import Verif.Lemmas.DataFileRead

/-! # Incomplete data files and the list of sections -/

namespace P4est

open Spec

theorem readSection_short {rank : ℕ} {A X : List Byte} {c : FileCtx} {size n : ℕ} {type : Byte} (hA : A.length = c.accessed + 112)
    (hn : (if type = 70 then size * c.gnq else size) = n) (hX : X.length < 64 + n + padBytes n) (str : List Byte) :
    readSection rank (A ++ X) c size type ≠ .done str := by
  unfold readSection
  intro h
  dsimp only at h
  rw [hn] at h
  have hpd : padding n = none ∨ padding n = some (padBytes n) := by
    unfold padding
    split <;> simp
  rcases hpd with hpd | hpd
  · rw [hpd] at h
    dsimp only at h
    split_ifs at h
  · rw [hpd] at h
    dsimp only at h
    generalize getAt (A ++ X) (c.accessed + 96 + 16) 64 = H at h
    have h1 : (getAt (A ++ X) (c.accessed + 96 + 16 + 64 + n) (padBytes n)).length ≠ padBytes n := by
      have : 0 < padBytes n := by unfold padBytes; dsimp only; split <;> omega
      simp only [getAt, List.length_take, List.length_drop, List.length_append]
      omega
    rw [if_pos h1] at h
    split_ifs at h

theorem tryRead_short (mpiio : Bool) (Q rank : ℕ) {A X : List Byte} {c : FileCtx} {s : DataSection} (hA : A.length = c.accessed + 112)
    (hX : X.length < 64 + sectionBytes c.gnq s + padBytes (sectionBytes c.gnq s)) (skip : Bool) (r : List Byte × List Byte × FileCtx) :
    tryRead mpiio Q rank (A ++ X) c skip s ≠ .done r := by
  cases s with
  | block data str =>
    have := fun str => readSection_short (rank := rank) (size := data.length) (type := 66) hA (by rw [if_neg (by decide)]; rfl) hX str
    simp only [tryRead, fileReadBlock, sectionBytes] at *
    cases padding data.length with
    | none => simp
    | some k =>
      dsimp only
      generalize readSection rank (A ++ X) c data.length 66 = o at *
      cases o with
      | abort => dsimp only; split <;> simp
      | fail e => dsimp only; split <;> simp
      | done str => exact absurd rfl (this str)
  | field size es str =>
    have := fun str => readSection_short (rank := rank) (size := size) (n := c.gnq * size) (type := 70) hA (by rw [if_pos rfl, Nat.mul_comm]) hX str
    simp only [tryRead, fileReadFieldExt] at *
    generalize readSection rank (A ++ X) c size 70 = o at *
    cases o with
    | abort => dsimp only; split_ifs <;> simp
    | fail e => dsimp only; split_ifs <;> simp
    | done str => exact absurd rfl (this str)

theorem getAt_short {A X : List Byte} {p n : ℕ} (hp : p = A.length) : getAt (A ++ X) p n = X.take n := by
  subst hp
  unfold getAt
  rw [List.drop_left]

/-- The three parts of a section in the file. -/
theorem sectionCode_parts {gnq : ℕ} {s : DataSection} (hs : SectionOk gnq s) (hp : sectionBytes gnq s % 16 ≠ 15) :
    ∃ (type : Byte) (size : ℕ) (str D : List Byte), sectionInfo s = (type, size, padRight 47 str) ∧ (type = 66 ∨ type = 70) ∧ str.length < 48 ∧ 0 ∉ str ∧
      size ≤ 9999999999999 ∧ (if type = 70 then gnq * size else size) = sectionBytes gnq s ∧ D.length = sectionBytes gnq s ∧
      sectionCode gnq s = sectionHeader type size str ++ D ++ padString (padBytes (sectionBytes gnq s)) := by
  cases s with
  | block data str =>
    obtain ⟨h1, h2, h3⟩ := hs
    exact ⟨66, data.length, str, data, rfl, Or.inl rfl, h1, h2, h3, by rw [if_neg (by decide)]; rfl, rfl, rfl⟩
  | field size es str =>
    obtain ⟨h1, h2, h3, h4, h5⟩ := hs
    exact ⟨70, size, str, es.flatten, rfl, Or.inr rfl, h1, h2, h3, by rw [if_pos rfl]; rfl, by rw [length_flatten h5, h4]; rfl, rfl⟩

/-- The codes for a section whose end is missing. -/
theorem readSection_cut {rank : ℕ} {A X : List Byte} {c : FileCtx} {size n : ℕ} {type : Byte} {str D : List Byte} (hA : A.length = c.accessed + 112)
    (hs : str.length < 48) (hz : size ≤ 9999999999999) (hn : (if type = 70 then size * c.gnq else size) = n)
    (hD : D.length = n) (hp : n % 16 ≠ 15) (hX : X <+: sectionHeader type size str ++ D ++ padString (padBytes n))
    (hlt : X.length < 64 + n + padBytes n) :
    readSection rank (A ++ X) c size type = .fail (if rank = 0 then .count else if X.length < 64 then .unknown else .format) := by
  obtain ⟨hk, hk2, -, -⟩ := padding_some hp
  have hf := sectionHeader_facts (type := type) hs hz
  have hz' : cstr (decimal 13 size) = decimal 13 size := cstr_eq zero_decimal
  have hat := atol_decimal (w := 13) (n := size)
  unfold readSection
  dsimp only
  rw [getAt_short (p := c.accessed + 96 + 16) (by omega)]
  by_cases h64 : X.length < 64
  · rw [if_pos (by rw [List.length_take]; omega)]
    simp [h64]
  · have e1 : X.take 64 = sectionHeader type size str := by
      obtain ⟨t, ht⟩ := hX
      have : (X ++ t).take 64 = X.take 64 := List.take_append_of_le_length (by omega)
      rw [← this, ht, List.append_assoc]
      exact List.take_left' hf.length
    rw [e1, hn, hk]
    have hmod : ((size : ℤ) % 2 ^ 64) = size := by omega
    simp only [hf.length, hf.type, hf.nl, hf.nl', hf.size, hz', hat, hmod, ne_eq, not_true, if_false]
    rw [if_pos]
    · simp [h64]
    · simp only [getAt, List.length_take, List.length_drop, List.length_append]
      omega

theorem tryRead_cut {Q rank : ℕ} {A X : List Byte} {c : FileCtx} {s : DataSection} (hA : A.length = c.accessed + 112)
    (hq : IsPartition Q c.gnq c.gfq) (hs : SectionOk c.gnq s) (hp : sectionBytes c.gnq s % 16 ≠ 15) (hX : X <+: sectionCode c.gnq s)
    (hlt : X.length < (sectionCode c.gnq s).length) (skip : Bool) :
    tryRead false Q rank (A ++ X) c skip s = .fail (if rank = 0 then .count else if X.length < 64 then .unknown else .format) := by
  have hk := (padding_some hp).1
  rw [length_sectionCode hs hp] at hlt
  cases s with
  | block data str =>
    obtain ⟨h1, h2, h3⟩ := hs
    have := readSection_cut (rank := rank) hA h1 h3 (type := 66) (by rw [if_neg (by decide)]) rfl hp hX
      (by simp only [sectionBytes] at hlt ⊢; omega)
    simp only [sectionBytes] at *
    simp only [tryRead, fileReadBlock, hk, this]
    simp
  | field size es str =>
    obtain ⟨h1, h2, h3, h4, h5⟩ := hs
    have := readSection_cut (rank := rank) (D := es.flatten) hA h1 h3 (type := 70) (n := c.gnq * size) (by rw [if_pos rfl, Nat.mul_comm])
      (by rw [length_flatten h5, h4]) hp hX (by simp only [sectionBytes] at hlt ⊢; omega)
    simp only [sectionBytes] at *
    simp only [tryRead, fileReadFieldExt, this]
    rw [if_neg (by rw [hq.first, hq.last]; simp)]
    simp

/-! ### The list of sections -/

theorem infoSection_eq {gnq : ℕ} {s : DataSection} (hs : SectionOk gnq s) (hp : sectionBytes gnq s % 16 ≠ 15) (A B : List Byte) :
    infoSection (A ++ sectionCode gnq s ++ B) gnq A.length = .done (some (sectionInfo s, A.length + (sectionCode gnq s).length)) := by
  obtain ⟨hk, hk2, hk3, -⟩ := padding_some hp
  have hcl := length_sectionCode hs hp
  obtain ⟨type, size, str, D, e0, ht, h1, h2, h3, h4, h5, h6⟩ := sectionCode_parts hs hp
  have hf := sectionHeader_facts (type := type) h1 h3
  have hpl := length_padString hk2
  have hpe := padString_ends hk2
  have hz' : cstr (decimal 13 size) = decimal 13 size := cstr_eq zero_decimal
  have hz'' : cstr (padRight 47 str) = padRight 47 str := cstr_eq (zero_padRight h2)
  have hsl : (padRight 47 str).length = 47 := length_padRight (by omega)
  have hat := atol_decimal (w := 13) (n := size)
  have hmod : ((size : ℤ) % 2 ^ 64) = size := by omega
  rw [h6, e0]
  rw [h6] at hcl
  unfold infoSection
  generalize sectionBytes gnq s = n at *
  generalize sectionHeader type size str = H at *
  generalize padString (padBytes n) = K at *
  have e1 : getAt (A ++ (H ++ D ++ K) ++ B) A.length 64 = H := by
    rw [show A ++ (H ++ D ++ K) ++ B = A ++ H ++ (D ++ K ++ B) by simp]
    exact getAt_mid rfl hf.length.symm
  have e2 : getAt (A ++ (H ++ D ++ K) ++ B) (A.length + 64 + n) (padBytes n) = K := by
    rw [show A ++ (H ++ D ++ K) ++ B = (A ++ H ++ D) ++ K ++ B by simp]
    exact getAt_mid (by simp [hf.length]; omega) hpl.symm
  have hH : ∃ t, H = type :: t := by
    rcases H with _ | ⟨x, t⟩
    · exact absurd hf.length (by simp)
    · have := hf.type
      simp at this
      exact ⟨t, by rw [this]⟩
  dsimp only
  rw [e1]
  have hlen := hf.length
  rw [if_neg (by rw [hlen]; simp)]
  obtain ⟨t, rfl⟩ := hH
  dsimp only
  rw [if_neg (by rcases ht with rfl | rfl <;> simp)]
  simp only [hf.nl, hf.nl', hf.size, hf.str, hz', hz'', hat, hmod, ne_eq, not_true, if_false]
  simp only [Int.toNat_natCast, h4]
  rw [hk]
  dsimp only
  rw [e2, if_neg]
  · rw [hcl, List.take_of_length_le (by omega)]
    congr 4
    omega
  · rw [List.getElem?_append_left (by omega), List.getElem?_append_left (by omega), hpe.1, hpe.2]
    simp

theorem infoSection_end {gnq : ℕ} {s : DataSection} (hs : SectionOk gnq s) (hp : sectionBytes gnq s % 16 ≠ 15) (A : List Byte) {X : List Byte}
    (hX : X <+: sectionCode gnq s) (hlt : X.length < (sectionCode gnq s).length) : infoSection (A ++ X) gnq A.length = .done none := by
  obtain ⟨hk, hk2, hk3, -⟩ := padding_some hp
  rw [length_sectionCode hs hp] at hlt
  obtain ⟨type, size, str, D, e0, ht, h1, h2, h3, h4, h5, h6⟩ := sectionCode_parts hs hp
  have hf := sectionHeader_facts (type := type) h1 h3
  have hz' : cstr (decimal 13 size) = decimal 13 size := cstr_eq zero_decimal
  have hat := atol_decimal (w := 13) (n := size)
  have hmod : ((size : ℤ) % 2 ^ 64) = size := by omega
  rw [h6] at hX
  unfold infoSection
  generalize sectionBytes gnq s = n at *
  dsimp only
  rw [getAt_short rfl]
  by_cases h64 : X.length < 64
  · rw [if_pos (by rw [List.length_take]; omega)]
  have e1 : X.take 64 = sectionHeader type size str := by
    obtain ⟨t, ht⟩ := hX
    have : (X ++ t).take 64 = X.take 64 := List.take_append_of_le_length (by omega)
    rw [← this, ht, List.append_assoc]
    exact List.take_left' hf.length
  rw [e1]
  generalize sectionHeader type size str = H at *
  have hH : ∃ t, H = type :: t := by
    rcases H with _ | ⟨x, t⟩
    · exact absurd hf.length (by simp)
    · have := hf.type
      simp at this
      exact ⟨t, by rw [this]⟩
  have hlen := hf.length
  rw [if_neg (by rw [hlen]; simp)]
  obtain ⟨t, rfl⟩ := hH
  dsimp only
  rw [if_neg (by rcases ht with rfl | rfl <;> simp)]
  simp only [hf.nl, hf.nl', hf.size, hz', hat, hmod, ne_eq, not_true, if_false]
  simp only [Int.toNat_natCast, h4]
  rw [hk]
  dsimp only
  have hpl : (getAt (A ++ X) (A.length + 64 + n) (padBytes n)).length < padBytes n := by
    simp only [getAt, List.length_take, List.length_drop, List.length_append]
    omega
  generalize getAt (A ++ X) (A.length + 64 + n) (padBytes n) = p at *
  rw [if_pos]
  rcases Nat.eq_zero_or_pos p.length with h0 | h0
  · left
    rw [List.length_eq_zero_iff] at h0
    subst h0
    simp
    rcases ht with rfl | rfl <;> decide
  · right
    generalize padBytes n = k at *
    rw [List.getElem?_append_right (by omega), List.getElem?_drop, show p.length + (k - 1 - p.length) = k - 1 by omega,
      List.getElem?_set_ne (by omega)]
    by_cases h15 : k = 16
    · subst h15
      rw [List.getElem?_set_self (by omega)]
      simp
    rw [List.getElem?_set_ne (by omega)]
    by_cases h2' : k = 2
    · subst h2'
      rw [hf.space]
      simp
    · obtain ⟨c, hc, hc'⟩ := hf.digit (k - 1) (by omega) (by omega)
      rw [hc]
      simpa using hc'

theorem infoLoop_eq {gnq : ℕ} {ss : List DataSection} (hs : ∀ s ∈ ss, SectionOk gnq s) (hp : ∀ s ∈ ss, sectionBytes gnq s % 16 ≠ 15)
    (A X : List Byte) (hX : infoSection (A ++ sectionsCode gnq ss ++ X) gnq (A.length + (sectionsCode gnq ss).length) = .done none)
    (m : ℕ) (hm : ss.length < m) :
    infoLoop (A ++ sectionsCode gnq ss ++ X) gnq m A.length = .done (ss.map sectionInfo) := by
  induction ss generalizing A m with
  | nil =>
    obtain ⟨m, rfl⟩ : ∃ m', m = m' + 1 := ⟨m - 1, by simp at hm; omega⟩
    simp only [sectionsCode, List.flatMap_nil, List.length_nil, Nat.add_zero] at hX ⊢
    rw [infoLoop, hX]
    rfl
  | cons s ss ih =>
    obtain ⟨m, rfl⟩ : ∃ m', m = m' + 1 := ⟨m - 1, by simp at hm; omega⟩
    have hfile : A ++ sectionsCode gnq (s :: ss) ++ X = A ++ sectionCode gnq s ++ (sectionsCode gnq ss ++ X) := by
      rw [sectionsCode_cons]; simp
    have hfile' : A ++ sectionsCode gnq (s :: ss) ++ X = (A ++ sectionCode gnq s) ++ sectionsCode gnq ss ++ X := by
      rw [sectionsCode_cons]; simp
    have h1 := infoSection_eq (hs s (by simp)) (hp s (by simp)) A (sectionsCode gnq ss ++ X)
    rw [infoLoop, hfile, h1]
    dsimp only
    rw [← hfile, hfile', ← List.length_append, ih (fun x hx => hs x (by simp [hx])) (fun x hx => hp x (by simp [hx])) _ ?_ m
      (by simp at hm; omega)]
    · rfl
    · rw [← hfile', List.length_append, Nat.add_assoc, ← List.length_append, ← sectionsCode_cons]
      exact hX

/-! ### Requests that do not fit -/

theorem readSection_wrong (rank : ℕ) {A D B str : List Byte} {c : FileCtx} {size size' : ℕ} {type type' : Byte} (hA : A.length = c.accessed + 112)
    (hs : str.length < 48) (hz : size ≤ 9999999999999) (ht : type = 66 ∨ type = 70) (h64 : size' < 2 ^ 64)
    (hne : type' ≠ type ∨ size' ≠ size) :
    readSection rank (A ++ (sectionHeader type size str ++ D) ++ B) c size' type' = .fail (if type' = type then .format else .sectionType) := by
  have hf := sectionHeader_facts (type := type) hs hz
  have hz' : cstr (decimal 13 size) = decimal 13 size := cstr_eq zero_decimal
  have hat := atol_decimal (w := 13) (n := size)
  unfold readSection
  generalize sectionHeader type size str = H at *
  have e1 : getAt (A ++ (H ++ D) ++ B) (c.accessed + 96 + 16) 64 = H := by
    rw [show A ++ (H ++ D) ++ B = A ++ H ++ (D ++ B) by simp]
    exact getAt_mid (by omega) hf.length.symm
  have hmod : ((size : ℤ) % 2 ^ 64) = size := by omega
  dsimp only
  rw [e1]
  simp only [hf.length, hf.type, hf.nl, hf.size, hz', hat, hmod, ne_eq, not_true, if_false]
  by_cases h : type' = type
  · subst h
    have : ¬ size = size' := by rcases hne with h | h; exact absurd rfl h; exact fun h' => h h'.symm
    simp [this]
  · have h' : ¬ some type = some type' := by simpa using fun h' => h h'.symm
    rw [if_pos h', if_neg h, if_neg (by rcases ht with rfl | rfl <;> simp)]

theorem tryRequest_wrong {Q rank : ℕ} {A B : List Byte} {c : FileCtx} {s : DataSection} {req : DataRequest} (hA : A.length = c.accessed + 112)
    (hq : IsPartition Q c.gnq c.gfq) (hs : SectionOk c.gnq s) (hp : sectionBytes c.gnq s % 16 ≠ 15) (hr : RequestOk req)
    (hne : req ≠ requestFor s) (skip : Bool) :
    (∀ mpiio r, tryRequest mpiio Q rank (A ++ sectionCode c.gnq s ++ B) c skip req ≠ .done r) ∧
    tryRequest false Q rank (A ++ sectionCode c.gnq s ++ B) c skip req =
      .fail (if req.isBlock = (requestFor s).isBlock then .format else .sectionType) := by
  obtain ⟨type, size, str, D, e0, ht, h1, h2, h3, h4, h5, h6⟩ := sectionCode_parts hs hp
  rw [h6, List.append_assoc (sectionHeader type size str)]
  have hty : requestFor s = if type = 66 then .block size else .field size := by
    cases s <;> simp only [sectionInfo, Prod.mk.injEq] at e0 <;> obtain ⟨rfl, rfl, -⟩ := e0 <;> simp [requestFor]
  rw [hty] at hne ⊢
  cases req with
  | block size' =>
    have hw := readSection_wrong rank (D := D ++ padString (padBytes (sectionBytes c.gnq s))) (B := B) (type' := 66) (size' := size') hA h1 h3 ht hr.1
      (by rcases ht with rfl | rfl <;> simp at hne ⊢; exact hne)
    obtain ⟨hk, -⟩ := padding_some hr.2
    refine ⟨fun mpiio r => ?_, ?_⟩ <;> simp only [tryRequest, fileReadBlock, hk, hw]
    · split <;> simp
    · rcases ht with rfl | rfl <;> simp [DataRequest.isBlock]
  | field size' =>
    have hw := readSection_wrong rank (D := D ++ padString (padBytes (sectionBytes c.gnq s))) (B := B) (type' := 70) (size' := size') hA h1 h3 ht hr
      (by rcases ht with rfl | rfl <;> simp at hne ⊢; exact hne)
    refine ⟨fun mpiio r => ?_, ?_⟩ <;> simp only [tryRequest, fileReadFieldExt, hw]
    · split_ifs <;> simp
    · rw [if_neg (by rw [hq.first, hq.last]; simp)]
      rcases ht with rfl | rfl <;> simp [DataRequest.isBlock]

theorem checkHeader_dim {d d' : ℕ} {version str : List Byte} {gnq : ℕ} (hv : version.length ≤ 23) (hv0 : 0 ∉ version) (hs : str.length < 48)
    (hn : gnq ≤ 9999999999999999) (hd : dataMagic d ≠ dataMagic d') :
    checkHeader d' (dataMagic d ++ [10] ++ padRight 23 version ++ [10] ++ padRight 47 str ++ [10] ++ decimal 16 gnq) = .error .format := by
  have h4 : (dataMagic d).length = 7 := by simp [dataMagic]
  have z4 : 0 ∉ dataMagic d := by unfold dataMagic; split <;> decide
  unfold checkHeader
  have e0 : (dataMagic d ++ [10] ++ padRight 23 version ++ [10] ++ padRight 47 str ++ [10] ++ decimal 16 gnq).take 7 = dataMagic d := by
    simp only [List.append_assoc]
    exact List.take_left' h4
  rw [e0, cstr_eq z4, if_pos (c := _ ∨ _) (Or.inl hd)]
  split_ifs <;> rfl

end P4est
