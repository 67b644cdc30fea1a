import Verif.Lemmas.DataFileInfo

/-! # C77, C78, C79: data files -/

namespace P4est

open Spec

theorem length_fileHeader {d : ℕ} {version str : List Byte} {gnq : ℕ} (hv : version.length ≤ 23) (hs : str.length < 48)
    (hn : gnq ≤ 9999999999999999) : (fileHeader d version str gnq).length = 112 := by
  rw [fileHeader_eq hv hs hn]
  have h1 : (decimal 16 gnq).length = 16 := length_decimal (by omega)
  have h2 : (padRight 47 str).length = 47 := length_padRight (by omega)
  have h3 : (padRight 23 version).length = 23 := length_padRight hv
  simp [h1, h2, h3, dataMagic]

theorem getAt_fileHeader {d : ℕ} {version str X : List Byte} {gnq : ℕ} (hv : version.length ≤ 23) (hs : str.length < 48)
    (hn : gnq ≤ 9999999999999999) : getAt (fileHeader d version str gnq ++ X) 0 96 =
      dataMagic d ++ [10] ++ padRight 23 version ++ [10] ++ padRight 47 str ++ [10] ++ decimal 16 gnq := by
  rw [fileHeader_eq hv hs hn]
  have h1 : (decimal 16 gnq).length = 16 := length_decimal (by omega)
  have h2 : (padRight 47 str).length = 47 := length_padRight (by omega)
  have h3 : (padRight 23 version).length = 23 := length_padRight hv
  unfold getAt
  rw [List.drop_zero, List.append_assoc]
  exact List.take_left' (by simp [h1, h2, h3, dataMagic])

theorem fileOpenRead_eq {d : ℕ} {version str X : List Byte} {gnq : ℕ} (hv : version.length ≤ 23) (hv0 : 0 ∉ version) (hs : str.length < 48)
    (hs0 : 0 ∉ str) (hn : gnq ≤ 9999999999999999) (rank : ℕ) (gfq : ℕ → ℕ) :
    fileOpenRead d rank (fileHeader d version str gnq ++ X) gnq gfq = .done ((padRight 47 str).take 46, ⟨gnq, gfq, 0⟩) := by
  unfold fileOpenRead fileOpenReadExt
  dsimp only
  have h1 : (decimal 16 gnq).length = 16 := length_decimal (by omega)
  have h2 : (padRight 47 str).length = 47 := length_padRight (by omega)
  have h3 : (padRight 23 version).length = 23 := length_padRight hv
  rw [getAt_fileHeader hv hs hn, if_neg (by simp [h1, h2, h3, dataMagic]), checkHeader_eq hv hv0 hs hs0 hn]
  simp

theorem writeFile_eq {d : ℕ} {version str : List Byte} {gnq : ℕ} (hv : version.length ≤ 23) (hs : str.length < 48)
    (hn : gnq ≤ 9999999999999999) (mpiio : Bool) {P : ℕ} {gfq : ℕ → ℕ} {order : ℕ → List ℕ} {ss : List DataSection}
    (hq : IsPartition P gnq gfq) (ho : ∀ i, (order i).Perm (List.range P)) (hss : ∀ s ∈ ss, SectionOk gnq s)
    (hp : ∀ s ∈ ss, sectionBytes gnq s % 16 ≠ 15) :
    writeFile d version str gnq mpiio P gfq order ss =
      .done (fileHeader d version str gnq ++ sectionsCode gnq ss, ⟨gnq, gfq, (sectionsCode gnq ss).length⟩) := by
  unfold writeFile fileOpenCreate
  have hl := length_fileHeader (d := d) hv hs hn
  have e : putAt [] (0, fileHeader d version str gnq) = fileHeader d version str gnq := by
    unfold putAt
    rw [if_neg (by dsimp only; intro h; rw [h] at hl; simp at hl)]
    simp [writeAt]
  rw [if_neg (by simpa using hs), if_neg (by simpa using hn)]
  dsimp only
  rw [e, writeSections_eq mpiio ho hss hp 0 (by simpa using hl) rfl hq]
  simp [FileCtx.ahead]

theorem fileInfo_eq {d : ℕ} {version str X : List Byte} {gnq : ℕ} (hv : version.length ≤ 23) (hv0 : 0 ∉ version) (hs : str.length < 48)
    (hs0 : 0 ∉ str) (hn : gnq ≤ 9999999999999999) {ss : List DataSection} (hss : ∀ s ∈ ss, SectionOk gnq s)
    (hp : ∀ s ∈ ss, sectionBytes gnq s % 16 ≠ 15)
    (hX : ∀ A : List Byte, infoSection (A ++ X) gnq A.length = .done none) :
    fileInfo d (fileHeader d version str gnq ++ sectionsCode gnq ss ++ X) gnq = .done ((padRight 47 str).take 46, ss.map sectionInfo) := by
  have hl := length_fileHeader (d := d) hv hs hn
  have h1 : (decimal 16 gnq).length = 16 := length_decimal (by omega)
  have h2 : (padRight 47 str).length = 47 := length_padRight (by omega)
  have h3 : (padRight 23 version).length = 23 := length_padRight hv
  have hlen : ss.length ≤ (sectionsCode gnq ss).length := by
    clear hX
    induction ss with
    | nil => simp
    | cons s ss ih =>
      have := ih (fun x hx => hss x (by simp [hx])) (fun x hx => hp x (by simp [hx]))
      rw [sectionsCode_cons, List.length_append, length_sectionCode (hss s (by simp)) (hp s (by simp)), List.length_cons]
      omega
  unfold fileInfo
  dsimp only
  have hg := getAt_fileHeader (d := d) (X := sectionsCode gnq ss ++ X) hv hs hn
  rw [← List.append_assoc] at hg
  rw [hg, if_neg (by simp [h1, h2, h3, dataMagic]), checkHeader_eq hv hv0 hs hs0 hn]
  dsimp only
  rw [if_neg (by simp)]
  have := infoLoop_eq hss hp (fileHeader d version str gnq) X (by rw [← List.length_append]; exact hX _)
    ((fileHeader d version str gnq ++ sectionsCode gnq ss ++ X).length + 1) (by simp only [List.length_append]; omega)
  rw [hl] at this
  rw [this]

theorem infoSection_nil (gnq : ℕ) (A : List Byte) : infoSection (A ++ []) gnq A.length = .done none := by
  unfold infoSection
  dsimp only
  rw [getAt_short rfl, if_pos (by simp)]

/-- C77: what is written to a data file is read back.

For all strings, numbers of quadrants and sequences of blocks and fields there is one file that is written by any number of ranks with any
partition of the quadrants, whatever the order in which the data of the ranks reach the file, with and without MPI I/O.  Its length is
a multiple of 16, and at most 80 bytes are added to the data of a section.  Any rank of any number of ranks with any other partition opens this file and reads or skips all the sections:
it gets the blocks, the entries of its own quadrants and the strings.  After the last section the next attempt to read or to skip
fails.  `p4est_file_info` lists the sections.

Partial: no section has a number of bytes that is 15 modulo 16 (see `C77_size_aborts`), and the string in the header of the file has less
than 47 characters (see `C77_header_string_cut`). -/
theorem C77_roundtrip_partial {d : ℕ} {version str : List Byte} {gnq : ℕ} {ss : List DataSection} (hv : version.length ≤ 23) (hv0 : 0 ∉ version)
    (hs : str.length < 47) (hs0 : 0 ∉ str) (hn : gnq ≤ 9999999999999999) (hss : ∀ s ∈ ss, SectionOk gnq s)
    (hp : ∀ s ∈ ss, sectionBytes gnq s % 16 ≠ 15) :
    ∃ file : List Byte,
      (∀ mpiio P gfq order, IsPartition P gnq gfq → (∀ i, (order i).Perm (List.range P)) →
        ∃ c, writeFile d version str gnq mpiio P gfq order ss = .done (file, c)) ∧
      file.length % 16 = 0 ∧ file.length ≤ 112 + (ss.map fun s => 64 + sectionBytes gnq s + 16).sum ∧
      (file.length < 2 ^ 64 → ∀ mpiio Q gfq rank, IsPartition Q gnq gfq → rank < Q →
        ∃ c c', fileOpenRead d rank file gnq gfq = .done (padRight 46 str, c) ∧ ReadsBack mpiio Q rank file c ss c' ∧
          ∀ skip s r, tryRead mpiio Q rank file c' skip s ≠ .done r) ∧
      fileInfo d file gnq = .done (padRight 46 str, ss.map sectionInfo) := by
  have hs' : str.length < 48 := by omega
  have hl := length_fileHeader (d := d) hv hs' hn
  have hstr : (padRight 47 str).take 46 = padRight 46 str := by
    unfold padRight
    rw [List.take_append, List.take_of_length_le (by omega), List.take_replicate]
    congr 2
    omega
  refine ⟨fileHeader d version str gnq ++ sectionsCode gnq ss, ?_, ?_, ?_, ?_, ?_⟩
  · intro mpiio P gfq order hq ho
    exact ⟨_, writeFile_eq hv hs' hn mpiio hq ho hss hp⟩
  · rw [List.length_append, hl]
    have : (sectionsCode gnq ss).length % 16 = 0 := by
      induction ss with
      | nil => rfl
      | cons s ss ih =>
        have := ih (fun x hx => hss x (by simp [hx])) (fun x hx => hp x (by simp [hx]))
        have h1 := (padding_some (hp s (by simp))).2.2.2
        rw [sectionsCode_cons, List.length_append, length_sectionCode (hss s (by simp)) (hp s (by simp))]
        omega
    omega
  · rw [List.length_append, hl]
    refine Nat.add_le_add_left ?_ _
    induction ss with
    | nil => simp [sectionsCode]
    | cons s ss ih =>
      have := ih (fun x hx => hss x (by simp [hx])) (fun x hx => hp x (by simp [hx]))
      have h1 := (padding_some (hp s (by simp))).2.2.1
      rw [sectionsCode_cons, List.length_append, length_sectionCode (hss s (by simp)) (hp s (by simp)), List.map_cons, List.sum_cons]
      omega
  · intro hlt mpiio Q gfq rank hq hr
    refine ⟨⟨gnq, gfq, 0⟩, FileCtx.ahead ⟨gnq, gfq, 0⟩ (sectionsCode gnq ss).length, ?_, ?_, ?_⟩
    · rw [fileOpenRead_eq hv hv0 hs' hs0 hn, hstr]
    · have := readsBack mpiio hr (A := fileHeader d version str gnq) (B := []) (c := ⟨gnq, gfq, 0⟩) (by simpa using hl) hq hss hp
        (by simpa using hlt)
      simpa using this
    · intro skip s r
      have := tryRead_short mpiio Q rank (A := fileHeader d version str gnq ++ sectionsCode gnq ss) (X := [])
        (c := FileCtx.ahead ⟨gnq, gfq, 0⟩ (sectionsCode gnq ss).length) (s := s) (by simp [FileCtx.ahead, hl, Nat.add_comm])
        (by simp) skip r
      simpa using this
  · have := fileInfo_eq (d := d) (X := []) hv hv0 hs' hs0 hn hss hp (infoSection_nil gnq)
    rw [hstr] at this
    simpa using this

/-- C77 fails for a block of 15, 31, ... bytes: one byte of padding is too few for two newlines, so that it is 17 bytes, which an assertion
excludes; without assertions, the string is written to an array of 17 bytes together with a zero. -/
theorem C77_size_aborts (mpiio : Bool) (file : List Byte) (c : FileCtx) {data str : List Byte} (hs : str.length < 48)
    (hn : data.length ≤ 9999999999999) (hp : data.length % 16 = 15) :
    fileWriteBlock mpiio file c data str = .abort ∧ padBytes data.length = 17 ∧ (padString (padBytes data.length)).length = 17 := by
  have h17 : padBytes data.length = 17 := by
    unfold padBytes
    dsimp only
    rw [if_pos (by omega)]
    omega
  refine ⟨?_, h17, by rw [h17, length_padString (by omega)]⟩
  unfold fileWriteBlock
  rw [padding_none hp, if_neg (by simpa using hs), if_neg (by simpa using hn)]

/-- C77 fails for the string in the header of the file: the last one of 47 characters is lost, although it is in the file. -/
theorem C77_header_string_cut {d : ℕ} {version str : List Byte} {gnq : ℕ} (hv : version.length ≤ 23) (hv0 : 0 ∉ version) (hs : str.length = 47)
    (hs0 : 0 ∉ str) (hn : gnq ≤ 9999999999999999) (rank : ℕ) (gfq : ℕ → ℕ) :
    ∃ file c, fileOpenCreate d version str gnq gfq = .done (file, c) ∧ (file.drop 32).take 47 = str ∧
      fileOpenRead d rank file gnq gfq = .done (str.take 46, c) := by
  have hl := length_fileHeader (d := d) hv (show str.length < 48 by omega) hn
  have e : putAt [] (0, fileHeader d version str gnq) = fileHeader d version str gnq := by
    unfold putAt
    rw [if_neg (by dsimp only; intro h; rw [h] at hl; simp at hl)]
    simp [writeAt]
  have hpad : padRight 47 str = str := by simp [padRight, hs]
  refine ⟨fileHeader d version str gnq, ⟨gnq, gfq, 0⟩, ?_, ?_, ?_⟩
  · unfold fileOpenCreate
    rw [if_neg (by omega), if_neg (by simpa using hn), e]
  · rw [fileHeader_eq hv (by omega) hn, hpad]
    have h3 : (padRight 23 version).length = 23 := length_padRight hv
    rw [show ∀ V D E : List Byte, dataMagic d ++ [10] ++ V ++ [10] ++ str ++ [10] ++ D ++ E = (dataMagic d ++ [10] ++ V ++ [10]) ++ (str ++ ([10] ++ D ++ E))
      by simp, List.drop_left' (by simp [h3, dataMagic]), List.take_left' hs]
  · have := fileOpenRead_eq (d := d) (X := []) hv hv0 (show str.length < 48 by omega) hs0 hn rank gfq
    rw [hpad] at this
    simpa using this

/-- C78: an interrupted write of a section does not damage the sections before it, and the section is not taken for complete.

A file with the sections `pre` is written, and the program stops while it writes `s`.  Any pieces of the writes may have reached the file, in
any order, as long as the last byte of the section is not among them.  Then every rank still reads the sections in `pre`, and every attempt
to read or to skip `s` fails. -/
theorem C78_interrupted_partial {d : ℕ} {version str : List Byte} {gnq : ℕ} {pre : List DataSection} {s : DataSection} (hv : version.length ≤ 23)
    (hv0 : 0 ∉ version) (hs : str.length < 48) (hs0 : 0 ∉ str) (hn : gnq ≤ 9999999999999999) (hss : ∀ x ∈ pre ++ [s], SectionOk gnq x)
    (hp : ∀ x ∈ pre ++ [s], sectionBytes gnq x % 16 ≠ 15) {mpiio : Bool} {P : ℕ} {gfq : ℕ → ℕ} {order : ℕ → List ℕ} (hq : IsPartition P gnq gfq)
    (ho : ∀ i, (order i).Perm (List.range P)) {file file' : List Byte} {c c' : FileCtx}
    (hw : writeFile d version str gnq mpiio P gfq order pre = .done (file, c))
    (hw' : writeSection mpiio P (order pre.length) file c s = .done (file', c')) (hlt : file'.length < 2 ^ 64) {k : ℕ}
    (hk : padding (sectionBytes gnq s) = some k) {ws : List (ℕ × List Byte)}
    (hws : Pieces (sectionWrites c.accessed gnq k gfq (order pre.length) s) ws) (hlast : ∀ w ∈ ws, w.1 + w.2.length < file'.length)
    {g : List Byte} (hg : g = putAll (sizeFor mpiio file c.accessed (sectionBytes gnq s)) ws) {mpiio' : Bool} {Q rank : ℕ} {gfq' : ℕ → ℕ}
    (hq' : IsPartition Q gnq gfq') (hr : rank < Q) :
    ∃ str' c₀ c₁, fileOpenRead d rank g gnq gfq' = .done (str', c₀) ∧ ReadsBack mpiio' Q rank g c₀ pre c₁ ∧
      ∀ skip r, tryRead mpiio' Q rank g c₁ skip s ≠ .done r := by
  have hl := length_fileHeader (d := d) hv hs hn
  have hpre : ∀ x ∈ pre, SectionOk gnq x := fun x hx => hss x (by simp [hx])
  have hpp : ∀ x ∈ pre, sectionBytes gnq x % 16 ≠ 15 := fun x hx => hp x (by simp [hx])
  rw [writeFile_eq hv hs hn mpiio hq ho hpre hpp] at hw
  injection hw with hw
  obtain ⟨rfl, rfl⟩ := Prod.mk.inj hw
  have hA : (fileHeader d version str gnq ++ sectionsCode gnq pre).length = (sectionsCode gnq pre).length + 112 := by
    rw [List.length_append, hl]; omega
  rw [writeSection_eq mpiio hA rfl hq (ho _) (hss s (by simp)) (hp s (by simp))] at hw'
  injection hw' with hw'
  obtain ⟨rfl, rfl⟩ := Prod.mk.inj hw'
  have hcl := length_sectionCode (hss s (by simp)) (hp s (by simp))
  obtain ⟨hk', hk2, -, -⟩ := padding_some (hp s (by simp))
  rw [hk'] at hk
  obtain rfl := Option.some.inj hk
  dsimp only at hws hg hlast hlt
  set A := fileHeader d version str gnq ++ sectionsCode gnq pre with hAdef
  obtain ⟨s1, s2, s3⟩ := sizeFor_facts mpiio (n := sectionBytes gnq s) hA
  have hstart : ∀ w ∈ ws, A.length ≤ w.1 := by
    intro w hw
    obtain ⟨w', h1, i, j, rfl⟩ := hws w hw
    dsimp only
    refine le_trans ?_ (Nat.le_add_right _ _)
    rw [hA]
    cases s with
    | block data str =>
      simp only [sectionWrites, blockWrites, List.mem_cons, List.not_mem_nil, or_false] at h1
      rcases h1 with rfl | rfl | rfl <;> dsimp only <;> omega
    | field size es str =>
      simp only [sectionWrites, fieldWrites, List.mem_cons, List.mem_append, List.mem_map, List.not_mem_nil, or_false] at h1
      rcases h1 with rfl | ⟨r, -, rfl⟩ | rfl <;> dsimp only <;> omega
  have hpref : A <+: sizeFor mpiio A (sectionsCode gnq pre).length (sectionBytes gnq s) := by
    rw [List.prefix_iff_eq_take]
    apply ext_getD (by simp; omega)
    intro i hi
    rw [getD_take hi, s3]
  have hpg := putAll_prefix hpref hstart
  rw [← hg] at hpg
  have hlg : g.length < (A ++ sectionCode gnq s).length := by
    have : g.length ≤ (A ++ sectionCode gnq s).length - 1 := by
      rw [hg]
      refine length_putAll_le ?_ fun w hw => by have := hlast w hw; omega
      simp only [List.length_append, hcl] at *
      omega
    have : 0 < (A ++ sectionCode gnq s).length := by simp only [List.length_append, hcl]; omega
    omega
  obtain ⟨X, rfl⟩ := hpg
  have hX : X.length < (sectionCode gnq s).length := by simpa using hlg
  refine ⟨(padRight 47 str).take 46, ⟨gnq, gfq', 0⟩, FileCtx.ahead ⟨gnq, gfq', 0⟩ (sectionsCode gnq pre).length, ?_, ?_, ?_⟩
  · rw [hAdef, List.append_assoc]
    exact fileOpenRead_eq hv hv0 hs hs0 hn rank gfq'
  · exact readsBack mpiio' hr (A := fileHeader d version str gnq) (B := X) (c := ⟨gnq, gfq', 0⟩) (by simpa using hl) hq' hpre hpp (lt_trans hlg hlt)
  · intro skip r
    refine tryRead_short mpiio' Q rank (by simp [FileCtx.ahead, hl]; omega) ?_ skip r
    rw [hcl] at hX
    simp only [FileCtx.ahead]
    omega

/-- C78: a file that is cut off.

Of a file with the sections `pre`, `s` and others, only the first `n` bytes are left: all bytes of `pre`, but not all of `s`.  Then every rank reads
the sections in `pre`, and every attempt to read or to skip `s` fails; the error code is that for a wrong count on rank 0, and another
one on the other ranks (without MPI I/O).  `p4est_file_info` lists `pre`. -/
theorem C78_cut_partial {d : ℕ} {version str : List Byte} {gnq : ℕ} {pre suf : List DataSection} {s : DataSection} (hv : version.length ≤ 23)
    (hv0 : 0 ∉ version) (hs : str.length < 48) (hs0 : 0 ∉ str) (hn : gnq ≤ 9999999999999999) (hss : ∀ x ∈ pre ++ s :: suf, SectionOk gnq x)
    (hp : ∀ x ∈ pre ++ s :: suf, sectionBytes gnq x % 16 ≠ 15) {mpiio : Bool} {P : ℕ} {gfq : ℕ → ℕ} {order : ℕ → List ℕ}
    (hq : IsPartition P gnq gfq) (ho : ∀ i, (order i).Perm (List.range P)) {file file₁ file₂ : List Byte} {c c₁ c₂ : FileCtx}
    (hw : writeFile d version str gnq mpiio P gfq order (pre ++ s :: suf) = .done (file, c))
    (hw₁ : writeFile d version str gnq mpiio P gfq order pre = .done (file₁, c₁))
    (hw₂ : writeFile d version str gnq mpiio P gfq order (pre ++ [s]) = .done (file₂, c₂)) {n : ℕ} (h₁ : file₁.length ≤ n)
    (h₂ : n < file₂.length) (hlt : n < 2 ^ 64) {Q rank : ℕ} {gfq' : ℕ → ℕ} (hq' : IsPartition Q gnq gfq') (hr : rank < Q) :
    (∃ str' c₀ c₁, fileOpenRead d rank (file.take n) gnq gfq' = .done (str', c₀) ∧
      (∀ mpiio', ReadsBack mpiio' Q rank (file.take n) c₀ pre c₁) ∧ (∀ mpiio' skip r, tryRead mpiio' Q rank (file.take n) c₁ skip s ≠ .done r) ∧
      ∀ skip, tryRead false Q rank (file.take n) c₁ skip s =
        .fail (if rank = 0 then .count else if n < file₁.length + 64 then .unknown else .format)) ∧
    ∃ str', fileInfo d (file.take n) gnq = .done (str', pre.map sectionInfo) := by
  have hl := length_fileHeader (d := d) hv hs hn
  have hpre : ∀ x ∈ pre, SectionOk gnq x := fun x hx => hss x (by simp [hx])
  have hpp : ∀ x ∈ pre, sectionBytes gnq x % 16 ≠ 15 := fun x hx => hp x (by simp [hx])
  have hs1 := hss s (by simp)
  have hp1 := hp s (by simp)
  rw [writeFile_eq hv hs hn mpiio hq ho hss hp] at hw
  rw [writeFile_eq hv hs hn mpiio hq ho hpre hpp] at hw₁
  rw [writeFile_eq hv hs hn mpiio hq ho (fun x hx => hss x (by simp at hx ⊢; tauto)) (fun x hx => hp x (by simp at hx ⊢; tauto))] at hw₂
  injection hw with hw
  injection hw₁ with hw₁
  injection hw₂ with hw₂
  obtain ⟨rfl, -⟩ := Prod.mk.inj hw
  obtain ⟨rfl, -⟩ := Prod.mk.inj hw₁
  obtain ⟨rfl, -⟩ := Prod.mk.inj hw₂
  have e2 : sectionsCode gnq (pre ++ [s]) = sectionsCode gnq pre ++ sectionCode gnq s := by
    rw [sectionsCode_append, sectionsCode_cons]; simp [sectionsCode]
  rw [e2] at h₂
  have hcl := length_sectionCode hs1 hp1
  obtain ⟨-, hk2, -, -⟩ := padding_some hp1
  simp only [List.length_append] at h₁ h₂
  set m := n - (fileHeader d version str gnq ++ sectionsCode gnq pre).length with hm
  have hcut : (fileHeader d version str gnq ++ sectionsCode gnq (pre ++ s :: suf)).take n =
      fileHeader d version str gnq ++ sectionsCode gnq pre ++ (sectionCode gnq s).take m := by
    rw [sectionsCode_append, sectionsCode_cons, ← List.append_assoc, List.take_append, List.take_of_length_le (by simp; omega), ← hm,
      List.take_append_of_le_length (by simp only [hm, List.length_append]; omega)]
  have hml : ((sectionCode gnq s).take m).length = m := by
    rw [List.length_take]; simp only [hm, List.length_append]; omega
  have hmlt : m < (sectionCode gnq s).length := by simp only [hm, List.length_append]; omega
  have hX : (sectionCode gnq s).take m <+: sectionCode gnq s := List.take_prefix _ _
  have hA : (fileHeader d version str gnq ++ sectionsCode gnq pre).length = (FileCtx.ahead ⟨gnq, gfq', 0⟩ (sectionsCode gnq pre).length).accessed + 112 := by
    simp [FileCtx.ahead, hl]; omega
  rw [hcut]
  refine ⟨⟨(padRight 47 str).take 46, ⟨gnq, gfq', 0⟩, FileCtx.ahead ⟨gnq, gfq', 0⟩ (sectionsCode gnq pre).length, ?_, ?_, ?_, ?_⟩, (padRight 47 str).take 46, ?_⟩
  · rw [List.append_assoc]
    exact fileOpenRead_eq hv hv0 hs hs0 hn rank gfq'
  · intro mpiio'
    refine readsBack mpiio' hr (A := fileHeader d version str gnq) (c := ⟨gnq, gfq', 0⟩) (by simpa using hl) hq' hpre hpp ?_
    simp only [List.length_append, hml]
    simp only [hm, List.length_append]
    omega
  · intro mpiio' skip r
    refine tryRead_short mpiio' Q rank hA ?_ skip r
    rw [hml]
    simp only [FileCtx.ahead]
    omega
  · intro skip
    have := tryRead_cut (Q := Q) (rank := rank) (s := s) hA (by exact hq') hs1 hp1 hX (by rw [hml]; exact hmlt) skip
    have he : m < 64 ↔ n < (fileHeader d version str gnq ++ sectionsCode gnq pre).length + 64 := by
      simp only [hm, List.length_append]; omega
    rw [this, hml, if_congr he rfl rfl]
  · exact fileInfo_eq hv hv0 hs hs0 hn hpre hpp fun A => infoSection_end hs1 hp1 A hX (by rw [hml]; exact hmlt)

/-- C78: a file whose header is cut off cannot be opened. -/
theorem C78_header_cut {d : ℕ} {file : List Byte} {n rank gnq : ℕ} {gfq : ℕ → ℕ} (hn : n < 96) :
    fileOpenRead d rank (file.take n) gnq gfq = .fail (if rank = 0 then .count else .unknown) ∧ fileInfo d (file.take n) gnq = .fail .count := by
  have : (getAt (file.take n) 0 96).length ≠ 96 := by
    simp only [getAt, List.length_take, List.length_drop]
    omega
  constructor
  · unfold fileOpenRead fileOpenReadExt
    dsimp only
    rw [if_pos this]
  · unfold fileInfo
    dsimp only
    rw [if_pos this]

/-- C79: a request that does not fit the next section fails.

A file has the sections `pre`, `s` and others.  A rank has read `pre` and asks for a block or a field that differs from `s` in its kind or
its size.  Then the call fails; without MPI I/O, the error code is the one for a wrong type of the section when the kind is wrong, and the
one for a wrong format when only the size is.  `p4est_file_read_field` uses its context after it was freed. -/
theorem C79_wrong_request_partial {d : ℕ} {version str : List Byte} {gnq : ℕ} {pre suf : List DataSection} {s : DataSection} (hv : version.length ≤ 23)
    (hv0 : 0 ∉ version) (hs : str.length < 48) (hs0 : 0 ∉ str) (hn : gnq ≤ 9999999999999999) (hss : ∀ x ∈ pre ++ s :: suf, SectionOk gnq x)
    (hp : ∀ x ∈ pre ++ s :: suf, sectionBytes gnq x % 16 ≠ 15) {mpiio : Bool} {P : ℕ} {gfq : ℕ → ℕ} {order : ℕ → List ℕ}
    (hq : IsPartition P gnq gfq) (ho : ∀ i, (order i).Perm (List.range P)) {file : List Byte} {c : FileCtx}
    (hw : writeFile d version str gnq mpiio P gfq order (pre ++ s :: suf) = .done (file, c)) (hlt : file.length < 2 ^ 64) {Q rank : ℕ}
    {gfq' : ℕ → ℕ} (hq' : IsPartition Q gnq gfq') (hr : rank < Q) {req : DataRequest} (hreq : RequestOk req) (hne : req ≠ requestFor s) :
    ∃ str' c₀ c₁, fileOpenRead d rank file gnq gfq' = .done (str', c₀) ∧ (∀ mpiio', ReadsBack mpiio' Q rank file c₀ pre c₁) ∧
      (∀ mpiio' skip r, tryRequest mpiio' Q rank file c₁ skip req ≠ .done r) ∧
      (∀ skip, tryRequest false Q rank file c₁ skip req = .fail (if req.isBlock = (requestFor s).isBlock then .format else .sectionType)) ∧
      ∀ mpiio' skip size, req = .field size → fileReadField mpiio' Q rank file c₁ size skip = .abort := by
  have hl := length_fileHeader (d := d) hv hs hn
  have hpre : ∀ x ∈ pre, SectionOk gnq x := fun x hx => hss x (by simp [hx])
  have hpp : ∀ x ∈ pre, sectionBytes gnq x % 16 ≠ 15 := fun x hx => hp x (by simp [hx])
  rw [writeFile_eq hv hs hn mpiio hq ho hss hp] at hw
  injection hw with hw
  obtain ⟨rfl, -⟩ := Prod.mk.inj hw
  have e : fileHeader d version str gnq ++ sectionsCode gnq (pre ++ s :: suf) =
      fileHeader d version str gnq ++ sectionsCode gnq pre ++ sectionCode gnq s ++ sectionsCode gnq suf := by
    rw [sectionsCode_append, sectionsCode_cons]
    simp
  have hA : (fileHeader d version str gnq ++ sectionsCode gnq pre).length = (FileCtx.ahead ⟨gnq, gfq', 0⟩ (sectionsCode gnq pre).length).accessed + 112 := by
    simp [FileCtx.ahead, hl]; omega
  have hwr := tryRequest_wrong (Q := Q) (rank := rank) (B := sectionsCode gnq suf) (req := req) hA hq' (hss s (by simp)) (hp s (by simp)) hreq hne
  have hwr' : ∀ mpiio' skip r, tryRequest mpiio' Q rank (fileHeader d version str gnq ++ sectionsCode gnq (pre ++ s :: suf))
      (FileCtx.ahead ⟨gnq, gfq', 0⟩ (sectionsCode gnq pre).length) skip req ≠ .done r := by
    intro mpiio' skip r
    rw [e]
    exact (hwr skip).1 mpiio' r
  refine ⟨(padRight 47 str).take 46, ⟨gnq, gfq', 0⟩, FileCtx.ahead ⟨gnq, gfq', 0⟩ (sectionsCode gnq pre).length, ?_, ?_, hwr', ?_, ?_⟩
  · exact fileOpenRead_eq hv hv0 hs hs0 hn rank gfq'
  · intro mpiio'
    have := readsBack mpiio' hr (A := fileHeader d version str gnq) (B := sectionCode gnq s ++ sectionsCode gnq suf) (c := ⟨gnq, gfq', 0⟩)
      (by simpa using hl) hq' hpre hpp (by rw [e] at hlt; simpa [Nat.add_assoc] using hlt)
    rw [e]
    simpa using this
  · intro skip
    rw [e]
    exact (hwr skip).2
  · rintro mpiio' skip size rfl
    have := hwr' mpiio' skip
    simp only [tryRequest] at this
    unfold fileReadField
    generalize fileReadFieldExt mpiio' Q rank (fileHeader d version str gnq ++ sectionsCode gnq (pre ++ s :: suf))
      (FileCtx.ahead ⟨gnq, gfq', 0⟩ (sectionsCode gnq pre).length) (FileCtx.ahead ⟨gnq, gfq', 0⟩ (sectionsCode gnq pre).length).gfq size skip = o at this ⊢
    cases o with
    | abort => rfl
    | fail e => rfl
    | done r => exact absurd rfl (this r)

/-- C79: a file for another dimension is not opened. -/
theorem C79_other_dimension {d d' : ℕ} {version str : List Byte} {gnq gnq' : ℕ} {ss : List DataSection} (hv : version.length ≤ 23) (hv0 : 0 ∉ version)
    (hs : str.length < 48) (hn : gnq ≤ 9999999999999999) (hss : ∀ x ∈ ss, SectionOk gnq x)
    (hp : ∀ x ∈ ss, sectionBytes gnq x % 16 ≠ 15) {mpiio : Bool} {P : ℕ} {gfq gfq' : ℕ → ℕ} {order : ℕ → List ℕ} (hq : IsPartition P gnq gfq)
    (ho : ∀ i, (order i).Perm (List.range P)) {file : List Byte} {c : FileCtx}
    (hw : writeFile d version str gnq mpiio P gfq order ss = .done (file, c)) (hd : (d = 2 ∧ d' = 3) ∨ (d = 3 ∧ d' = 2)) (rank : ℕ) :
    fileOpenRead d' rank file gnq' gfq' = .fail .format ∧ fileInfo d' file gnq' = .fail .format := by
  rw [writeFile_eq hv hs hn mpiio hq ho hss hp] at hw
  injection hw with hw
  obtain ⟨rfl, -⟩ := Prod.mk.inj hw
  have hg := getAt_fileHeader (d := d) (X := sectionsCode gnq ss) hv hs hn
  have hc := checkHeader_dim (d := d) (d' := d') hv hv0 hs hn (by rcases hd with ⟨rfl, rfl⟩ | ⟨rfl, rfl⟩ <;> simp [dataMagic])
  have h1 : (decimal 16 gnq).length = 16 := length_decimal (by omega)
  have h2 : (padRight 47 str).length = 47 := length_padRight (by omega)
  have h3 : (padRight 23 version).length = 23 := length_padRight hv
  constructor
  · unfold fileOpenRead fileOpenReadExt
    dsimp only
    rw [hg, if_neg (by simp [h1, h2, h3, dataMagic]), hc]
  · unfold fileInfo
    dsimp only
    rw [hg, if_neg (by simp [h1, h2, h3, dataMagic]), hc]

/-- C79 fails for a forest with another number of quadrants: the file is not opened, but the error code is the one for success. -/
theorem C79_other_count_reports_success {d : ℕ} {version str : List Byte} {gnq gnq' : ℕ} {ss : List DataSection} (hv : version.length ≤ 23)
    (hv0 : 0 ∉ version) (hs : str.length < 48) (hs0 : 0 ∉ str) (hn : gnq ≤ 9999999999999999) (hss : ∀ x ∈ ss, SectionOk gnq x)
    (hp : ∀ x ∈ ss, sectionBytes gnq x % 16 ≠ 15) {mpiio : Bool} {P : ℕ} {gfq gfq' : ℕ → ℕ} {order : ℕ → List ℕ} (hq : IsPartition P gnq gfq)
    (ho : ∀ i, (order i).Perm (List.range P)) {file : List Byte} {c : FileCtx}
    (hw : writeFile d version str gnq mpiio P gfq order ss = .done (file, c)) (hne : gnq' ≠ gnq) (rank : ℕ) :
    fileOpenRead d rank file gnq' gfq' = .fail .success := by
  rw [writeFile_eq hv hs hn mpiio hq ho hss hp] at hw
  injection hw with hw
  obtain ⟨rfl, -⟩ := Prod.mk.inj hw
  have h1 : (decimal 16 gnq).length = 16 := length_decimal (by omega)
  have h2 : (padRight 47 str).length = 47 := length_padRight (by omega)
  have h3 : (padRight 23 version).length = 23 := length_padRight hv
  unfold fileOpenRead fileOpenReadExt
  dsimp only
  rw [getAt_fileHeader hv hs hn, if_neg (by simp [h1, h2, h3, dataMagic]), checkHeader_eq hv hv0 hs hs0 hn]
  simp [hne]

/-! ### Concrete cases -/

/-- Two quadrants on two ranks. -/
theorem example_partition : IsPartition 2 2 id := ⟨by decide, rfl, rfl, fun r _ => by simp⟩

/-- A block of three bytes and a field with one byte for each of two quadrants. -/
def exampleSections : List DataSection := [.block [1, 2, 3] [97], .field 1 [[7], [8]] [98]]

theorem exampleSections_ok : ∀ x ∈ exampleSections, SectionOk 2 x := by
  intro x hx
  simp only [exampleSections, List.mem_cons, List.not_mem_nil, or_false] at hx
  rcases hx with rfl | rfl <;> simp [SectionOk] <;> decide

theorem exampleSections_pad : ∀ x ∈ exampleSections, sectionBytes 2 x % 16 ≠ 15 := by
  intro x hx
  simp only [exampleSections, List.mem_cons, List.not_mem_nil, or_false] at hx
  rcases hx with rfl | rfl <;> simp [sectionBytes]

/-- The hypotheses of `C77_roundtrip_partial` hold for two sections; the last rank writes first. -/
example : ∃ file, (∃ c, writeFile 2 [50] [104, 105] 2 true 2 id (fun _ => [1, 0]) exampleSections = .done (file, c)) ∧
    fileInfo 2 file 2 = .done (padRight 46 [104, 105], exampleSections.map sectionInfo) := by
  obtain ⟨file, h1, -, -, -, h4⟩ := C77_roundtrip_partial (d := 2) (version := [50]) (str := [104, 105]) (by simp) (by decide) (by simp) (by decide)
    (by omega) exampleSections_ok exampleSections_pad
  exact ⟨file, h1 true 2 id _ example_partition (fun _ => by decide), h4⟩

/-- A rank without quadrants reads the file. -/
example : ∃ file c c', fileOpenRead 3 1 file 2 (fun r => if r ≤ 1 then 0 else r - 1) = .done (padRight 46 [104, 105], c) ∧
    ReadsBack true 3 1 file c exampleSections c' := by
  obtain ⟨file, -, -, h2, h3, -⟩ := C77_roundtrip_partial (d := 3) (version := [50]) (str := [104, 105]) (by simp) (by decide) (by simp) (by decide)
    (by omega) exampleSections_ok exampleSections_pad
  simp [exampleSections, sectionBytes] at h2
  obtain ⟨c, c', a, b, -⟩ := h3 (by omega) true 3 (fun r => if r ≤ 1 then 0 else r - 1) 1 ⟨by decide, rfl, rfl, fun r hr => by
    split_ifs <;> omega⟩ (by decide)
  exact ⟨file, c, c', a, b⟩

/-- A block of 31 bytes. -/
example : fileWriteBlock false [] ⟨1, id, 0⟩ (List.replicate 31 5) [] = .abort := (C77_size_aborts false _ _ (by simp) (by simp) (by simp)).1

/-- A string of 47 characters. -/
example : ∃ file c, fileOpenRead 2 0 file 1 id = .done ((List.replicate 47 (97 : Byte)).take 46, c) := by
  obtain ⟨file, c, -, -, h⟩ := C77_header_string_cut (d := 2) (version := [50]) (str := List.replicate 47 97) (gnq := 1) (by simp) (by decide)
    (by simp) (by decide) (by omega) 0 id
  exact ⟨file, c, h⟩

/-- Only the entry of the last rank and a part of the header have reached the file when the program stops. -/
example : ∃ (file c : _) (g : List Byte) (c₀ c₁ : FileCtx), writeFile 2 [50] [] 2 true 2 id (fun _ => [1, 0]) [.block [1, 2, 3] [97]] = .done (file, c) ∧
    g = putAll (sizeFor true file c.accessed 2) [(c.accessed + 177, [8]), (c.accessed + 112, [70, 32])] ∧
    ReadsBack false 1 0 g c₀ [.block [1, 2, 3] [97]] c₁ ∧ ∀ r, fileReadFieldExt false 1 0 g c₁ c₁.gfq 1 false ≠ .done r := by
  have hA := exampleSections_ok
  have hB := exampleSections_pad
  have ho : ∀ i : ℕ, ((fun _ => [1, 0] : ℕ → List ℕ) i).Perm (List.range 2) := fun _ => List.Perm.swap 0 1 []
  have hw := writeFile_eq (d := 2) (version := [50]) (str := []) (gnq := 2) (order := fun _ => [1, 0]) (ss := [.block [1, 2, 3] [97]]) (by simp) (by simp) (by omega) true
    example_partition ho (fun x hx => hA x (by simp [exampleSections] at hx ⊢; tauto)) (fun x hx => hB x (by simp [exampleSections] at hx ⊢; tauto))
  have hl := length_fileHeader (d := 2) (version := [50]) (str := []) (gnq := 2) (by simp) (by simp) (by omega)
  have hcl : (sectionsCode 2 [.block [1, 2, 3] [97]]).length = 80 := by decide +kernel
  have hw' := writeSection_eq true (A := fileHeader 2 [50] [] 2 ++ sectionsCode 2 [.block [1, 2, 3] [97]]) (c := ⟨2, id, 80⟩)
    (s := .field 1 [[7], [8]] [98]) (order := [1, 0]) (by rw [List.length_append, hl, hcl]) rfl example_partition (by decide)
    (hA _ (by simp [exampleSections])) (hB _ (by simp [exampleSections]))
  rw [hcl] at hw
  have hcl' : (sectionCode 2 (.field 1 [[7], [8]] [98])).length = 80 := by decide +kernel
  have hfl : (fileHeader 2 [50] [] 2 ++ sectionsCode 2 [.block [1, 2, 3] [97]] ++ sectionCode 2 (.field 1 [[7], [8]] [98])).length = 272 := by
    simp only [List.length_append, hl, hcl, hcl']
  obtain ⟨str', c₀, c₁, -, h2, h3⟩ := C78_interrupted_partial (pre := [.block [1, 2, 3] [97]]) (s := .field 1 [[7], [8]] [98]) (mpiio' := false) (rank := 0)
    (ws := [(80 + 177, [8]), (80 + 112, [70, 32])]) (k := 14) (gfq' := fun r => if r = 0 then 0 else 2) (Q := 1)
    (by simp) (by decide) (by simp) (by simp) (by omega) hA hB example_partition ho hw hw'
    (by rw [hfl]; omega) (by decide) (by
      intro w hw
      simp only [List.mem_cons, List.not_mem_nil, or_false] at hw
      rcases hw with rfl | rfl
      · exact ⟨(257, [8]), by decide +kernel, 0, 1, rfl⟩
      · exact ⟨(192, sectionHeader 70 1 [98]), by decide +kernel, 0, 2, by decide +kernel⟩) (by
      rw [hfl]
      intro w hw
      simp only [List.mem_cons, List.not_mem_nil, or_false] at hw
      rcases hw with rfl | rfl <;> simp) rfl ⟨by decide, rfl, rfl, by simp⟩ (by decide)
  exact ⟨_, _, _, c₀, c₁, hw, rfl, h2, h3 false⟩

/-- A file without its last ten bytes, on rank 1. -/
example : ∃ (file : List Byte) (c c₁ : FileCtx), writeFile 2 [50] [] 2 true 2 id (fun _ => [1, 0]) exampleSections = .done (file, c) ∧
    fileReadFieldExt false 2 1 (file.take 262) c₁ c₁.gfq 1 false = .fail .format ∧
    ∃ str', fileInfo 2 (file.take 262) 2 = .done (str', [sectionInfo (.block [1, 2, 3] [97])]) := by
  have hA := exampleSections_ok
  have hB := exampleSections_pad
  have ho : ∀ i : ℕ, ((fun _ => [1, 0] : ℕ → List ℕ) i).Perm (List.range 2) := fun _ => List.Perm.swap 0 1 []
  have hw := fun ss hss hp => writeFile_eq (d := 2) (version := [50]) (str := []) (gnq := 2) (order := fun _ => [1, 0]) (ss := ss) (by simp) (by simp) (by omega) true
    example_partition ho hss hp
  have hw1 := hw [.block [1, 2, 3] [97]] (fun x hx => hA x (by simp [exampleSections] at hx ⊢; tauto)) (fun x hx => hB x (by simp [exampleSections] at hx ⊢; tauto))
  have hw2 := hw exampleSections hA hB
  have hl := length_fileHeader (d := 2) (version := [50]) (str := []) (gnq := 2) (by simp) (by simp) (by omega)
  have hcl : (sectionsCode 2 [.block [1, 2, 3] [97]]).length = 80 := by decide +kernel
  have hcl' : (sectionsCode 2 exampleSections).length = 160 := by decide +kernel
  obtain ⟨⟨str', c₀, c₁, -, -, -, h4⟩, h5⟩ := C78_cut_partial (pre := [.block [1, 2, 3] [97]]) (s := .field 1 [[7], [8]] [98]) (suf := []) (n := 262)
    (by simp) (by decide) (by simp) (by simp) (by omega) hA hB example_partition ho hw2 hw1 hw2 (by rw [List.length_append, hl, hcl]; omega)
    (by rw [List.length_append, hl, hcl']; omega) (by omega) (Q := 2) (rank := 1) example_partition (by omega)
  refine ⟨_, _, c₁, hw2, ?_, h5⟩
  have := h4 false
  rw [List.length_append, hl, hcl] at this
  simpa [tryRead] using this

/-- Two bytes are missing in the header. -/
example : fileOpenRead 2 0 ((fileHeader 2 [50] [] 2).take 94) 2 id = .fail .count := by
  simpa using (C78_header_cut (d := 2) (file := fileHeader 2 [50] [] 2) (rank := 0) (gnq := 2) (gfq := id) (show 94 < 96 by omega)).1

/-- A block of five bytes and a field of one byte are read from the example, which starts with a block of three bytes. -/
example : ∃ (file : List Byte) (c c₁ : FileCtx), writeFile 2 [50] [] 2 true 2 id (fun _ => [1, 0]) exampleSections = .done (file, c) ∧
    fileReadBlock false 1 file c₁ 5 false = .fail .format := by
  have hl := length_fileHeader (d := 2) (version := [50]) (str := []) (gnq := 2) (by simp) (by simp) (by omega)
  have hcl' : (sectionsCode 2 exampleSections).length = 160 := by decide +kernel
  have ho : ∀ i : ℕ, ((fun _ => [1, 0] : ℕ → List ℕ) i).Perm (List.range 2) := fun _ => List.Perm.swap 0 1 []
  have hw := writeFile_eq (d := 2) (version := [50]) (str := []) (gnq := 2) (order := fun _ => [1, 0]) (ss := exampleSections) (by simp) (by simp) (by omega) true
    example_partition ho exampleSections_ok exampleSections_pad
  obtain ⟨str', c₀, c₁, -, -, -, h4, -⟩ := C79_wrong_request_partial (pre := []) (s := .block [1, 2, 3] [97]) (suf := [.field 1 [[7], [8]] [98]])
    (req := .block 5) (by simp) (by decide) (by simp) (by simp) (by omega) exampleSections_ok exampleSections_pad example_partition ho hw
    (by rw [List.length_append, hl, hcl']; omega) (Q := 2) (rank := 1) example_partition (by omega) (by simp [RequestOk]) (by simp [requestFor])
  exact ⟨_, _, c₁, hw, by simpa [tryRequest, DataRequest.isBlock, requestFor] using h4 false⟩

/-- A file of two quadrants is opened with three. -/
example : ∃ (file : List Byte) (c : FileCtx), writeFile 2 [50] [] 2 true 2 id (fun _ => [1, 0]) exampleSections = .done (file, c) ∧
    fileOpenRead 2 1 file 3 id = .fail .success ∧ fileOpenRead 3 1 file 2 id = .fail .format := by
  have ho : ∀ i : ℕ, ((fun _ => [1, 0] : ℕ → List ℕ) i).Perm (List.range 2) := fun _ => List.Perm.swap 0 1 []
  have hw := writeFile_eq (d := 2) (version := [50]) (str := []) (gnq := 2) (order := fun _ => [1, 0]) (ss := exampleSections) (by simp) (by simp) (by omega) true
    example_partition ho exampleSections_ok exampleSections_pad
  exact ⟨_, _, hw, C79_other_count_reports_success (by simp) (by decide) (by simp) (by simp) (by omega) exampleSections_ok exampleSections_pad
    example_partition ho hw (by omega) 1, (C79_other_dimension (by simp) (by decide) (by simp) (by omega) exampleSections_ok exampleSections_pad
    example_partition ho hw (Or.inl ⟨rfl, rfl⟩) 1).1⟩

end P4est
