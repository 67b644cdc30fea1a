import Verif.Lemmas.PartitionFamilySpan

/-! # The correction of one rank in `p4est_partition_for_coarsening` -/

namespace P4est
open Spec Classical

variable {d : ℕ}

/-- The number of siblings in the window of `cut` before position `x`. -/
noncomputable def sibCount (L : List (ℕ × Quad d)) (t : ℕ) (p : Quad d) (C cut x : ℕ) : ℕ :=
  ((Finset.range x).filter fun j => Sib L t p j ∧ cut < j + C ∧ j + 2 ≤ cut + C).card

theorem sibCount_mono (L : List (ℕ × Quad d)) (t : ℕ) (p : Quad d) (C cut : ℕ) : Monotone (sibCount L t p C cut) := by
  intro x y hxy
  apply Finset.card_le_card
  intro j hj
  simp only [Finset.mem_filter, Finset.mem_range] at hj ⊢
  exact ⟨by omega, hj.2⟩

/-- A run of siblings is counted. -/
theorem sibCount_run {L : List (ℕ × Quad d)} {t : ℕ} {p : Quad d} {C cut x y mn mx : ℕ} (h1 : x ≤ mn) (h2 : mx ≤ y)
    (h3 : mn ≤ mx) (hr : ∀ j, mn ≤ j → j < mx → Sib L t p j ∧ cut < j + C ∧ j + 2 ≤ cut + C) :
    sibCount L t p C cut x + (mx - mn) ≤ sibCount L t p C cut y := by
  unfold sibCount
  have hd : Disjoint ((Finset.range x).filter fun j => Sib L t p j ∧ cut < j + C ∧ j + 2 ≤ cut + C) (Finset.Ico mn mx) := by
    rw [Finset.disjoint_left]
    intro j hj hj'
    simp only [Finset.mem_filter, Finset.mem_range] at hj
    rw [Finset.mem_Ico] at hj'
    omega
  have e : (Finset.Ico mn mx).card = mx - mn := by simp
  rw [← e, ← Finset.card_union_of_disjoint hd]
  apply Finset.card_le_card
  intro j hj
  simp only [Finset.mem_union, Finset.mem_filter, Finset.mem_range, Finset.mem_Ico] at hj ⊢
  rcases hj with hj | hj
  · exact ⟨by omega, hj.2⟩
  · exact ⟨by omega, hr j hj.1 hj.2⟩

/-- No siblings in the window between `x` and `y`. -/
theorem sibCount_none {L : List (ℕ × Quad d)} {t : ℕ} {p : Quad d} {C cut x y : ℕ} (h : x ≤ y)
    (hr : ∀ j, x ≤ j → j < y → ¬ (Sib L t p j ∧ cut < j + C ∧ j + 2 ≤ cut + C)) :
    sibCount L t p C cut y = sibCount L t p C cut x := by
  unfold sibCount
  congr 1
  ext j
  simp only [Finset.mem_filter, Finset.mem_range]
  constructor
  · rintro ⟨h1, h2⟩
    refine ⟨?_, h2⟩
    by_contra h3
    exact hr j (by omega) h1 h2
  · rintro ⟨h1, h2⟩
    exact ⟨by omega, h2⟩

theorem sibCount_fam {L : List (ℕ × Quad d)} (h : GSeq L) {m t : ℕ} {p : Quad d} (hv : Valid p) (hf : Fam L m t p)
    {C cut : ℕ} (hC : C = 2 ^ d) (h1 : m < cut) (h2 : cut < m + C) (x : ℕ) :
    sibCount L t p C cut x = min x (m + C) - m := by
  unfold sibCount
  have : ((Finset.range x).filter fun j => Sib L t p j ∧ cut < j + C ∧ j + 2 ≤ cut + C) = Finset.Ico m (min x (m + C)) := by
    ext j
    simp only [Finset.mem_filter, Finset.mem_range, Finset.mem_Ico, hf.sib_iff h hv, ← hC]
    omega
  rw [this]; simp

/-- The situation of a rank `r` that receives the messages `msg i` of the ranks `i` close to its new cut; rank
`c` has the leaf behind the cut. -/
structure Recv (L : List (ℕ × Quad d)) (P N C : ℕ) (o n : ℕ → ℕ) (r c : ℕ) (msg : ℕ → Near d) (k t : ℕ → ℕ)
    (q : ℕ → Quad d) : Prop where
  seq : GSeq L
  omono : Monotone o
  o0 : o 0 = 0
  hC : C = 2 ^ d
  three : 3 ≤ C
  r1 : 1 ≤ r
  rP : r < P
  ne : n r < n (r + 1)
  cP : c < P
  c1 : o c ≤ n r
  c2 : n r < o (c + 1)
  msgs : ∀ i, NearRel P C o n i r → NearMsg L C (o i) (o (i + 1)) (n r) (k i) (t i) (q i) (msg i)

/-- What the message of rank `i` adds. -/
noncomputable def contrib (msg : ℕ → Near d) (c i : ℕ) : ℤ :=
  if (msg i).tree = (msg c).tree ∧ (msg i).quad = (msg c).quad then (msg i).localNum else 0

section

variable {L : List (ℕ × Quad d)} {P N C r c : ℕ} {o n : ℕ → ℕ} {msg : ℕ → Near d} {k t : ℕ → ℕ} {q : ℕ → Quad d}

theorem Recv.cut_not (h : Recv L P N C o n r c msg k t q) {i : ℕ} (hi : i ≠ c) : ¬ (o i ≤ n r ∧ n r < o (i + 1)) := by
  rintro ⟨h1, h2⟩
  have := h.c1
  have := h.c2
  rcases Nat.lt_or_gt_of_ne hi with h3 | h3
  · have := h.omono (show i + 1 ≤ c by omega); omega
  · have := h.omono (show c + 1 ≤ i by omega); omega

theorem Recv.near_c (h : Recv L P N C o n r c msg k t q) : NearRel P C o n c r := by
  have := h.r1
  have := h.rP
  have := h.cP
  have := h.c1
  have := h.c2
  have := h.three
  have := h.ne
  unfold NearRel
  omega

theorem Recv.k_c (h : Recv L P N C o n r c msg k t q) : k c = n r := (h.msgs c h.near_c).owner h.c1 h.c2

/-- The message of another rank counts only if its leaf is a sibling. -/
theorem Recv.match_iff (h : Recv L P N C o n r c msg k t q) (hl : 0 < (q c).level) {i : ℕ} (hi : NearRel P C o n i r)
    (hic : i ≠ c) :
    ((msg i).tree = (msg c).tree ∧ (msg i).quad = (msg c).quad) ↔ Sib L (t c) (parent (q c)) (k i) := by
  have mi := h.msgs i hi
  have mc := h.msgs c h.near_c
  have hvc := h.seq.valid _ (List.mem_of_getElem? mc.leaf)
  have hvi := h.seq.valid _ (List.mem_of_getElem? mi.leaf)
  simp only at hvc hvi
  have ec := (mc.run hl).1
  have et : ((msg i).tree = (msg c).tree) ↔ t i = t c := by rw [mi.tree, mc.tree]; omega
  have hkne : k i ≠ k c := by
    intro e
    have := h.k_c
    exact h.cut_not hic ⟨by have := mi.ak; omega, by have := mi.kb; omega⟩
  rw [et, ec]
  constructor
  · rintro ⟨e1, e2⟩
    rcases Nat.eq_zero_or_pos (q i).level with h0 | h0
    · exfalso
      have := (mi.root h0).1
      rw [this] at e2
      have h3 := mi.leaf
      rw [e1, e2] at h3
      obtain ⟨s1, s2⟩ := start_childId hvc.aligned hvc.int32 hl
      have hlt := childId_lt (q c)
      refine hkne (h.seq.disjoint h3 mc.leaf ?_ ?_)
      · omega
      · rw [stop_eq, stop_eq, s1, s2]
        have := Nat.mul_le_mul_right (volume (q c)) (show childId (q c) + 1 ≤ 2 ^ d by omega)
        rw [Nat.add_one_mul] at this
        omega
    · rw [(mi.run h0).1] at e2
      exact ⟨q i, by rw [← e1]; exact mi.leaf, isParent_iff.mpr ⟨h0, e2.symm⟩⟩
  · rintro ⟨x, hx, hp⟩
    rw [mi.leaf] at hx
    injection hx with hx
    injection hx with e1 e2
    subst e2
    obtain ⟨h0, h1⟩ := isParent_iff.mp hp
    exact ⟨e1, by rw [(mi.run h0).1, h1]⟩

theorem Recv.contrib_le (h : Recv L P N C o n r c msg k t q) (hl : 0 < (q c).level) {i : ℕ} (hi : NearRel P C o n i r)
    (hic : i ≠ c) :
    0 ≤ contrib msg c i ∧ (sibCount L (t c) (parent (q c)) C (n r) (o i) : ℤ) + contrib msg c i ≤
      sibCount L (t c) (parent (q c)) C (n r) (o (i + 1)) := by
  unfold contrib
  split
  · rename_i hm
    have mi := h.msgs i hi
    have hs := (h.match_iff hl hi hic).mp hm
    have h0 : 0 < (q i).level := by
      obtain ⟨x, hx, hp⟩ := hs
      rw [mi.leaf] at hx
      injection hx with hx
      injection hx with e1 e2
      subst e2
      exact (isParent_iff.mp hp).1
    obtain ⟨e0, mn, mx, r1, r2, r3, r4, r5, r6, r7, -, -, r10⟩ := mi.run h0
    obtain ⟨x, hx, hp⟩ := hs
    rw [mi.leaf] at hx
    injection hx with hx
    injection hx with e1 e2
    subst e2
    have e2 := (isParent_iff.mp hp).2
    rw [r10, if_neg (h.cut_not hic)]
    refine ⟨by omega, ?_⟩
    have := sibCount_run (L := L) (t := t c) (p := parent (q c)) (C := C) (cut := n r) (x := o i) (y := o (i + 1)) (mn := mn)
      (mx := mx + 1) r1 (by omega) (by omega) (fun j h1 h2 => ⟨by rw [e2, ← e1]; exact r7 j h1 (by omega), by omega, by omega⟩)
    omega
  · refine ⟨le_rfl, ?_⟩
    have := sibCount_mono L (t c) (parent (q c)) C (n r) (h.omono (show i ≤ i + 1 by omega))
    omega

theorem Recv.contrib_fam (h : Recv L P N C o n r c msg k t q) (hl : 0 < (q c).level) {m : ℕ} (hv : Valid (parent (q c)))
    (hf : Fam L m (t c) (parent (q c))) (h1 : m < n r) (h2 : n r < m + C) {i : ℕ} (hi : NearRel P C o n i r) (hic : i ≠ c) :
    (sibCount L (t c) (parent (q c)) C (n r) (o i) : ℤ) + contrib msg c i =
      sibCount L (t c) (parent (q c)) C (n r) (o (i + 1)) := by
  rw [sibCount_fam h.seq hv hf h.hC h1 h2, sibCount_fam h.seq hv hf h.hC h1 h2]
  have mi := h.msgs i hi
  have hsib := hf.sib_iff h.seq hv
  rw [← h.hC] at hsib
  have hcut := h.cut_not hic
  have hkw : (o (i + 1) ≤ n r ∧ k i + 1 = o (i + 1)) ∨ (n r < o i ∧ k i = o i) := by
    rcases Nat.lt_or_ge (n r) (o i) with h3 | h3
    · exact Or.inr ⟨h3, mi.after h3⟩
    · exact Or.inl ⟨by omega, mi.before (by omega)⟩
  have hak := mi.ak
  have hkb := mi.kb
  unfold contrib
  split
  · rename_i hm
    have hs := (h.match_iff hl hi hic).mp hm
    have hin := (hsib (k i)).mp hs
    obtain ⟨x, hx, hp⟩ := hs
    rw [mi.leaf] at hx
    injection hx with hx
    injection hx with e1 e2
    subst e2
    obtain ⟨h0, e2⟩ := isParent_iff.mp hp
    obtain ⟨e0, mn, mx, r1, r2, r3, r4, r5, r6, r7, r8, r9, r10⟩ := mi.run h0
    rw [r10, if_neg hcut]
    rw [← e2, e1] at r7 r8 r9
    simp only [hsib] at r7 r8 r9
    have e3 := r7 mn le_rfl (by omega)
    have e4 := r7 mx (by omega) le_rfl
    have e5 : mn = max (o i) m := by omega
    have e6 : mx + 1 = min (o (i + 1)) (m + C) := by omega
    omega
  · rename_i hm
    have hs : ¬ Sib L (t c) (parent (q c)) (k i) := fun hs => hm ((h.match_iff hl hi hic).mpr hs)
    rw [hsib] at hs
    omega

/-- A rank that is not close to the cut has no siblings in the window. -/
theorem Recv.far (h : Recv L P N C o n r c msg k t q) {i : ℕ} (hiP : i < P) (hi : ¬ NearRel P C o n i r) (tt : ℕ) (p : Quad d) :
    sibCount L tt p C (n r) (o (i + 1)) = sibCount L tt p C (n r) (o i) := by
  apply sibCount_none (h.omono (by omega))
  rintro j h1 h2 ⟨-, h3, h4⟩
  apply hi
  have := h.r1
  have := h.rP
  have := h.ne
  unfold NearRel
  omega

/-- The messages of the ranks in `[a, a + l)`. -/
theorem Recv.sum (h : Recv L P N C o n r c msg k t q) (hl : 0 < (q c).level) (a l : ℕ) (hP : a + l ≤ P)
    (hc : c < a ∨ a + l ≤ c) :
    let S := (((List.range' a l).filter fun i => decide (NearRel P C o n i r)).map (contrib msg c)).sum
    0 ≤ S ∧ (sibCount L (t c) (parent (q c)) C (n r) (o a) : ℤ) + S ≤ sibCount L (t c) (parent (q c)) C (n r) (o (a + l)) ∧
      (∀ m, Valid (parent (q c)) → Fam L m (t c) (parent (q c)) → m < n r → n r < m + C →
        (sibCount L (t c) (parent (q c)) C (n r) (o a) : ℤ) + S = sibCount L (t c) (parent (q c)) C (n r) (o (a + l))) := by
  induction l with
  | zero => simp
  | succ l ih =>
    obtain ⟨i1, i2, i3⟩ := ih (by omega) (by omega)
    intro S
    have eS : S = (((List.range' a l).filter fun i => decide (NearRel P C o n i r)).map (contrib msg c)).sum +
        if NearRel P C o n (a + l) r then contrib msg c (a + l) else 0 := by
      change (((List.range' a (l + 1)).filter fun i => decide (NearRel P C o n i r)).map (contrib msg c)).sum = _
      rw [List.range'_concat, List.filter_append, List.map_append, List.sum_append, Nat.one_mul]
      congr 1
      by_cases hn : NearRel P C o n (a + l) r
      · rw [if_pos hn, List.filter_cons_of_pos (by simpa using hn)]; simp
      · rw [if_neg hn, List.filter_cons_of_neg (by simpa using hn)]; simp
    rw [eS]
    by_cases hn : NearRel P C o n (a + l) r
    · rw [if_pos hn]
      obtain ⟨j1, j2⟩ := h.contrib_le hl hn (by omega)
      refine ⟨by omega, by rw [← Nat.add_assoc]; omega, fun m hv hf h1 h2 => ?_⟩
      have := h.contrib_fam hl hv hf h1 h2 hn (by omega)
      have := i3 m hv hf h1 h2
      rw [← Nat.add_assoc]; omega
    · rw [if_neg hn, ← Nat.add_assoc, h.far (by omega) hn]
      refine ⟨by omega, by omega, fun m hv hf h1 h2 => ?_⟩
      have := i3 m hv hf h1 h2
      omega

/-! ### The span -/

theorem spanLoop_before (C' : ℤ) (l : List ℕ) (hl : ∀ i ∈ l, i < c) (rest : List (ℤ × Near d)) (s : ℤ × ℤ) :
    spanLoop C' (msg c) c ((l.map fun (i : ℕ) => ((i : ℤ), msg i)) ++ rest) s =
      spanLoop C' (msg c) c rest (s.1 - (l.map (contrib msg c)).sum, s.2) := by
  induction l generalizing s with
  | nil => simp
  | cons i l ih =>
    have hi := hl i (by simp)
    rw [List.map_cons, List.cons_append, spanLoop, ih fun j hj => hl j (by simp [hj])]
    congr 1
    rw [List.map_cons, List.sum_cons]
    unfold contrib
    split
    · rw [if_pos (by exact_mod_cast hi)]
      ext
      · simp only; ring
      · rfl
    · ext
      · simp only; ring
      · rfl

theorem spanLoop_after (C' : ℤ) (l : List ℕ) (hl : ∀ i ∈ l, c < i) (s : ℤ × ℤ) :
    spanLoop C' (msg c) c (l.map fun (i : ℕ) => ((i : ℤ), msg i)) s = (s.1, s.2 + (l.map (contrib msg c)).sum) := by
  induction l generalizing s with
  | nil => simp [spanLoop]
  | cons i l ih =>
    have hi := hl i (by simp)
    rw [List.map_cons, spanLoop, ih fun j hj => hl j (by simp [hj])]
    rw [List.map_cons, List.sum_cons]
    unfold contrib
    split
    · rw [if_neg (by omega), if_pos (by omega)]
      ext
      · rfl
      · simp only; ring
    · ext
      · rfl
      · simp only; ring

theorem spanLoop_spec (C' : ℤ) (l1 l2 : List ℕ) (h1 : ∀ i ∈ l1, i < c) (h2 : ∀ i ∈ l2, c < i) (cut : ℤ) :
    spanLoop C' (msg c) c ((l1 ++ c :: l2).map fun (i : ℕ) => ((i : ℤ), msg i)) (cut, cut) =
      (cut - (l1.map (contrib msg c)).sum - (msg c).localNum.tdiv C',
        cut + (msg c).localNum.tmod C' + (l2.map (contrib msg c)).sum) := by
  rw [List.map_append, spanLoop_before C' l1 h1, List.map_cons, spanLoop, if_pos ⟨rfl, rfl⟩, if_neg (by omega),
    if_neg (by omega), spanLoop_after C' l2 h2]

/-- The lists of the ranks before and behind `c`. -/
theorem near_split {l1 l2 : List ℕ} (hs : (List.range P).filter (fun i => decide (NearRel P C o n i r)) = l1 ++ c :: l2) :
    (∀ i ∈ l1, i < c) ∧ (∀ i ∈ l2, c < i) ∧ c < P ∧
    l1 = (List.range' 0 c).filter (fun i => decide (NearRel P C o n i r)) ∧
    l2 = (List.range' (c + 1) (P - (c + 1))).filter (fun i => decide (NearRel P C o n i r)) := by
  have hp : (l1 ++ c :: l2).Pairwise (· < ·) := hs ▸ (List.pairwise_lt_range ..).filter _
  obtain ⟨p1, p2, p3⟩ := List.pairwise_append.mp hp
  obtain ⟨p4, p5⟩ := List.pairwise_cons.mp p2
  have h1 : ∀ i ∈ l1, i < c := fun i hi => p3 i hi c (by simp)
  have hmem : ∀ i, i ∈ l1 ++ c :: l2 ↔ i < P ∧ NearRel P C o n i r := by
    intro i; rw [← hs, List.mem_filter, List.mem_range, decide_eq_true_eq]
  have hcP : c < P := ((hmem c).mp (by simp)).1
  refine ⟨h1, p4, hcP, ?_, ?_⟩
  · apply pairwise_eq_of_mem_iff p1 ((List.pairwise_lt_range' ..).filter _)
    intro x
    rw [List.mem_filter, List.mem_range'_1, decide_eq_true_eq]
    have := hmem x
    rw [List.mem_append, List.mem_cons] at this
    constructor
    · intro hx
      have := this.mp (Or.inl hx)
      have := h1 x hx
      exact ⟨by omega, by tauto⟩
    · rintro ⟨hx, hn⟩
      rcases this.mpr ⟨by omega, hn⟩ with h | h | h
      · exact h
      · omega
      · have := p4 x h; omega
  · apply pairwise_eq_of_mem_iff p5 ((List.pairwise_lt_range' ..).filter _)
    intro x
    rw [List.mem_filter, List.mem_range'_1, decide_eq_true_eq]
    have := hmem x
    rw [List.mem_append, List.mem_cons] at this
    constructor
    · intro hx
      have := this.mp (Or.inr (Or.inr hx))
      have := p4 x hx
      exact ⟨by omega, by tauto⟩
    · rintro ⟨hx, hn⟩
      rcases this.mpr ⟨by omega, hn⟩ with h | h | h
      · have := h1 x h; omega
      · omega
      · exact h

/-- The family at position `m`. -/
def FamAt (L : List (ℕ × Quad d)) (m : ℕ) : Prop := ∃ t p, Valid p ∧ Fam L m t p

theorem Recv.fam (h : Recv L P N C o n r c msg k t q) {m : ℕ} (hf : FamAt L m) (h1 : m < n r) (h2 : n r < m + C) :
    0 < (q c).level ∧ Valid (parent (q c)) ∧ Fam L m (t c) (parent (q c)) := by
  obtain ⟨t', p, hv, hf⟩ := hf
  have := (hf.sib_iff h.seq hv (n r)).mpr ⟨h1.le, by rw [← h.hC]; exact h2⟩
  obtain ⟨x, hx, hp⟩ := this
  have hl := (h.msgs c h.near_c).leaf
  rw [h.k_c, hx] at hl
  injection hl with hl
  injection hl with e1 e2
  subst e1 e2
  obtain ⟨h0, e⟩ := isParent_iff.mp hp
  rw [← e]
  exact ⟨h0, hv, hf⟩

/-- With a leaf of level zero behind the cut, no other message counts. -/
theorem Recv.root_contrib (hd : 0 < d) (h : Recv L P N C o n r c msg k t q) (hl : (q c).level = 0) {i : ℕ}
    (hi : NearRel P C o n i r) (hic : i ≠ c) : contrib msg c i = 0 := by
  unfold contrib
  rw [if_neg]
  rintro ⟨e1, -⟩
  have mi := h.msgs i hi
  have mc := h.msgs c h.near_c
  rw [mi.tree, mc.tree] at e1
  have et : t i = t c := by omega
  have hvc := h.seq.valid _ (List.mem_of_getElem? mc.leaf)
  have hvi := h.seq.valid _ (List.mem_of_getElem? mi.leaf)
  simp only at hvc hvi
  have s1 : stop (q c) = start (q c) + 2 ^ (d * 30) := by
    rw [stop_eq]; unfold volume; rw [hl]
  have s2 := valid_stop_le hd hvc
  have s3 := valid_stop_le hd hvi
  have h3 := mi.leaf
  rw [et] at h3
  have := h.seq.disjoint mc.leaf h3 (by omega) (by omega)
  have := h.k_c
  exact h.cut_not hic ⟨by have := mi.ak; omega, by have := mi.kb; omega⟩

theorem span_arith {oc oc1 oP m C cut mn mx : ℕ} {S1 S2 : ℤ} (u : ((min 0 (m + C) - m : ℕ) : ℤ) + S1 = ((min oc (m + C) - m : ℕ) : ℤ))
    (v : ((min oc1 (m + C) - m : ℕ) : ℤ) + S2 = ((min oP (m + C) - m : ℕ) : ℤ)) (e5 : mn = max oc m)
    (e6 : mx + 1 = min oc1 (m + C)) (hL : m + C ≤ oP) (c1 : oc ≤ cut) (c2 : cut < oc1) (h1 : m < cut) (h2 : cut < m + C) :
    (cut : ℤ) - S1 - ((cut - mn : ℕ) : ℤ) = m ∧ (cut : ℤ) + ((mx - cut : ℕ) : ℤ) + S2 = (m : ℤ) + C - 1 := by
  have a1 : S1 = ((oc - m : ℕ) : ℤ) := by omega
  have a2 : S2 = (m : ℤ) + C - (mx + 1) := by omega
  omega

theorem run_fam {a b m C cut mn mx : ℕ} (r1 : a ≤ mn) (r2 : mn ≤ cut) (r3 : cut ≤ mx) (r4 : mx < b)
    (h1 : m < cut) (h2 : cut < m + C)
    (e3 : m ≤ mn ∧ mn < m + C) (e4 : m ≤ mx ∧ mx < m + C)
    (r8 : mn = a ∨ mn + C = cut + 1 ∨ ¬ (m ≤ mn - 1 ∧ mn - 1 < m + C))
    (r9 : mx + 1 = b ∨ mx + 2 = cut + C ∨ ¬ (m ≤ mx + 1 ∧ mx + 1 < m + C)) :
    mn = max a m ∧ mx + 1 = min b (m + C) := by
  omega

theorem Recv.span (hd : 0 < d) (h : Recv L P N C o n r c msg k t q) (hN : L.length = o P) {l1 l2 : List ℕ}
    (hs : (List.range P).filter (fun i => decide (NearRel P C o n i r)) = l1 ++ c :: l2) :
    ∃ mn mx : ℤ, spanLoop C (msg c) c ((l1 ++ c :: l2).map fun (i : ℕ) => ((i : ℤ), msg i)) ((n r : ℤ), (n r : ℤ)) = (mn, mx) ∧
      (∀ m, FamAt L m → m < n r → n r < m + C → mn = m ∧ mx = (m : ℤ) + C - 1) ∧
      ((∀ m, FamAt L m → ¬ (m < n r ∧ n r < m + C)) → mx - mn + 1 ≠ C) := by
  obtain ⟨b1, b2, b3, b4, b5⟩ := near_split hs
  have h3 := h.three
  rw [spanLoop_spec C l1 l2 b1 b2]
  refine ⟨_, _, rfl, ?_⟩
  have mc := h.msgs c h.near_c
  rcases Nat.eq_zero_or_pos (q c).level with hl | hl
  · have z1 : (l1.map (contrib msg c)).sum = 0 := by
      apply List.sum_eq_zero
      intro x hx
      obtain ⟨i, hi, rfl⟩ := List.mem_map.mp hx
      have hi' := hi
      rw [b4, List.mem_filter, decide_eq_true_eq] at hi'
      exact h.root_contrib hd hl hi'.2 (b1 i hi).ne
    have z2 : (l2.map (contrib msg c)).sum = 0 := by
      apply List.sum_eq_zero
      intro x hx
      obtain ⟨i, hi, rfl⟩ := List.mem_map.mp hx
      have hi' := hi
      rw [b5, List.mem_filter, decide_eq_true_eq] at hi'
      exact h.root_contrib hd hl hi'.2 (b2 i hi).ne'
    rw [z1, z2, (mc.root hl).2, Int.tdiv_eq_ediv_of_nonneg (by omega), Int.tmod_eq_emod_of_nonneg (by omega),
      Int.ediv_eq_zero_of_lt (by omega) (by omega), Int.emod_eq_of_lt (by omega) (by omega)]
    refine ⟨fun m hf h1 h2 => ?_, fun _ => by omega⟩
    have := (h.fam hf h1 h2).1
    omega
  · obtain ⟨e0, mn, mx, r1, r2, r3, r4, r5, r6, r7, r8, r9, r10⟩ := mc.run hl
    have hkc := h.k_c
    rw [hkc] at r2 r3
    rw [if_pos ⟨h.c1, h.c2⟩] at r10
    obtain ⟨u1, u2, u3⟩ := h.sum hl 0 c (by omega) (Or.inr (by omega))
    obtain ⟨v1, v2, v3⟩ := h.sum hl (c + 1) (P - (c + 1)) (by omega) (Or.inl (by omega))
    rw [← b4] at u1 u2 u3
    rw [← b5] at v1 v2 v3
    rw [show c + 1 + (P - (c + 1)) = P by omega] at v2 v3
    rw [Nat.zero_add] at u2 u3
    have td : ((msg c).localNum.tdiv C) = ((n r - mn : ℕ) : ℤ) := by
      rw [r10, Int.tdiv_eq_ediv_of_nonneg (by omega), ← Int.natCast_div, Nat.add_comm, Nat.add_mul_div_right _ _ (by omega),
        Nat.div_eq_of_lt (by omega), Nat.zero_add]
    have tm : ((msg c).localNum.tmod C) = ((mx - n r : ℕ) : ℤ) := by
      rw [r10, Int.tmod_eq_emod_of_nonneg (by omega), ← Int.natCast_emod, Nat.add_comm, Nat.add_mul_mod_self_right,
        Nat.mod_eq_of_lt (by omega)]
    rw [td, tm]
    obtain ⟨S1, hS1⟩ : ∃ S, S = (l1.map (contrib msg c)).sum := ⟨_, rfl⟩
    obtain ⟨S2, hS2⟩ : ∃ S, S = (l2.map (contrib msg c)).sum := ⟨_, rfl⟩
    rw [← hS1] at u1 u2 u3 ⊢
    rw [← hS2] at v1 v2 v3 ⊢
    obtain ⟨F, hF⟩ : ∃ F, F = sibCount L (t c) (parent (q c)) C (n r) := ⟨_, rfl⟩
    have hvp : Valid (parent (q c)) := parent_valid (h.seq.valid _ (List.mem_of_getElem? mc.leaf)) hl
    rw [← hF] at u2 u3 v2 v3
    have hoc : o 0 ≤ o c := h.omono (by omega)
    constructor
    · intro m hf h1 h2
      obtain ⟨-, hv, hf⟩ := h.fam hf h1 h2
      have hsib := hf.sib_iff h.seq hv
      rw [← h.hC] at hsib
      have hFm := sibCount_fam h.seq hv hf h.hC h1 h2
      rw [← hF] at hFm
      have u3 := u3 m hv hf h1 h2
      have v3 := v3 m hv hf h1 h2
      rw [hFm, hFm] at u3 v3
      simp only [hsib] at r7 r8 r9
      have e3 := r7 mn le_rfl (by omega)
      have e4 := r7 mx (by omega) le_rfl
      obtain ⟨e5, e6⟩ := run_fam r1 r2 r3 r4 h1 h2 e3 e4 r8 r9
      have hmL : m + C ≤ o P := by
        have := hf (2 ^ d - 1) (by have := h.hC; omega)
        have := (List.getElem?_eq_some_iff.mp this).1
        have := h.hC
        omega
      rw [h.o0] at u3
      exact span_arith u3 v3 e5 e6 hmL h.c1 h.c2 h1 h2
    · intro hno hspan
      -- all counted siblings
      have w1 := sibCount_run (L := L) (t := t c) (p := parent (q c)) (C := C) (cut := n r) (x := o c) (y := n r) (mn := mn)
        (mx := n r) r1 le_rfl r2 (fun j h1 h2 => ⟨r7 j h1 (by omega), by omega, by omega⟩)
      have w2 := sibCount_run (L := L) (t := t c) (p := parent (q c)) (C := C) (cut := n r) (x := n r) (y := o (c + 1)) (mn := n r)
        (mx := mx + 1) le_rfl (by omega) (by omega) (fun j h1 h2 => ⟨r7 j (by omega) (by omega), by omega, by omega⟩)
      rw [← hF] at w1 w2
      have hcard : C ≤ F (o P) := by omega
      have hle := sib_card h.seq (t := t c) (p := parent (q c))
        (W := (Finset.range (o P)).filter fun j => Sib L (t c) (parent (q c)) j ∧ n r < j + C ∧ j + 2 ≤ n r + C)
        (fun j hj => (Finset.mem_filter.mp hj).2.1)
      have hFe : F (o P) = ((Finset.range (o P)).filter fun j => Sib L (t c) (parent (q c)) j ∧ n r < j + C ∧ j + 2 ≤ n r + C).card := by
        rw [hF]; rfl
      rw [← hFe, ← h.hC] at hle
      obtain ⟨m, hfam, hW⟩ := sib_full h.seq (t := t c) (p := parent (q c))
        (W := (Finset.range (o P)).filter fun j => Sib L (t c) (parent (q c)) j ∧ n r < j + C ∧ j + 2 ≤ n r + C)
        (fun j hj => (Finset.mem_filter.mp hj).2.1) (by rw [← hFe, ← h.hC]; omega)
      refine hno m ⟨_, _, hvp, hfam⟩ ?_
      have m1 : m ∈ Finset.Ico m (m + 2 ^ d) := by rw [Finset.mem_Ico]; have := h.hC; omega
      have m2 : m + 2 ^ d - 1 ∈ Finset.Ico m (m + 2 ^ d) := by rw [Finset.mem_Ico]; have := h.hC; omega
      rw [← hW, Finset.mem_filter] at m1 m2
      have := m1.2.2.1
      have := m2.2.2.2
      have := h.hC
      omega

end

end P4est
