import Verif.Lemmas.WrapMarks

/-! # The result of the adaptation -/

namespace P4est
open Spec

variable {d : ℕ}

theorem gapless_nodup {L : List (Quad d)} (hg : Gapless L) : L.Nodup := by
  have hp := (pairwise_stop_iff_chain _).mpr (hg.chain_le)
  refine hp.imp ?_
  intro a b h e
  subst e
  have := start_lt_stop a
  omega

/-- The flag of a leaf as a function of the quadrant. -/
def markOf (trees : List (Tree d Unit)) (calls : List MarkCall) (i : ℕ) (q : Quad d) : WrapFlag :=
  match trees[i]? with
  | none => WrapFlag.zero
  | some t => if q ∈ quadsOf t then flagOf (lastMark calls i ((quadsOf t).idxOf q)) else WrapFlag.zero

theorem markOf_excl (trees : List (Tree d Unit)) (calls : List MarkCall) (i : ℕ) (q : Quad d)
    (h : (markOf trees calls i q).refine = true) : (markOf trees calls i q).coarsen = false := by
  unfold markOf at *
  cases ht : trees[i]? with
  | none => rfl
  | some t =>
    rw [ht] at h
    simp only at h ⊢
    split_ifs at h ⊢
    · generalize lastMark calls i ((quadsOf t).idxOf q) = k at h ⊢
      rcases k with _ | _ | _ <;> simp_all [flagOf]
    · rfl

theorem idxOf_get {L : List (Quad d)} (hn : L.Nodup) {j : ℕ} {q : Quad d} (h : L[j]? = some q) : L.idxOf q = j := by
  obtain ⟨hj, rfl⟩ := List.getElem?_eq_some_iff.mp h
  exact List.Nodup.idxOf_getElem hn j hj

theorem markOf_refine {trees : List (Tree d Unit)} {calls : List MarkCall} {i : ℕ} {t : Tree d Unit} (ht : trees[i]? = some t)
    (hn : (quadsOf t).Nodup) (q : Quad d) :
    (markOf trees calls i q).refine = true ↔ IsMarked calls .refine i (quadsOf t) q := by
  unfold markOf IsMarked
  rw [ht]
  simp only
  constructor
  · intro h
    split_ifs at h with hq
    · refine ⟨(quadsOf t).idxOf q, ?_, ?_⟩
      · rw [List.getElem?_eq_getElem (List.idxOf_lt_length_of_mem hq), List.getElem_idxOf]
      · generalize lastMark calls i ((quadsOf t).idxOf q) = k at h ⊢
        rcases k with _ | _ | _ <;> simp_all [flagOf]
    · simp [WrapFlag.zero] at h
  · rintro ⟨j, hj, hl⟩
    rw [if_pos (List.mem_of_getElem? hj), idxOf_get hn hj, hl]
    rfl

theorem markOf_coarsen {trees : List (Tree d Unit)} {calls : List MarkCall} {i : ℕ} {t : Tree d Unit} (ht : trees[i]? = some t)
    (hn : (quadsOf t).Nodup) (q : Quad d) :
    (markOf trees calls i q).coarsen = true ↔ IsMarked calls .coarsen i (quadsOf t) q := by
  unfold markOf IsMarked
  rw [ht]
  simp only
  constructor
  · intro h
    split_ifs at h with hq
    · refine ⟨(quadsOf t).idxOf q, ?_, ?_⟩
      · rw [List.getElem?_eq_getElem (List.idxOf_lt_length_of_mem hq), List.getElem_idxOf]
      · generalize lastMark calls i ((quadsOf t).idxOf q) = k at h ⊢
        rcases k with _ | _ | _ <;> simp_all [flagOf]
    · simp [WrapFlag.zero] at h
  · rintro ⟨j, hj, hl⟩
    rw [if_pos (List.mem_of_getElem? hj), idxOf_get hn hj, hl]
    rfl

theorem rowTable_mapIdx {β : Type} (F : ℕ → ℕ → β) : ∀ (Ls : List (List (Quad d))) (G : ℕ → Quad d → β),
    (∀ i L, Ls[i]? = some L → ∀ j q, L[j]? = some q → F i j = G i q) →
    rowTable F (Ls.map List.length) = (Ls.mapIdx fun i L => L.map (G i)).flatten := by
  intro Ls
  induction Ls generalizing F with
  | nil => intro G _; rfl
  | cons L Ls ih =>
    intro G h
    simp only [List.map_cons, rowTable, List.mapIdx_cons, List.flatten_cons]
    rw [ih (fun i => F (i + 1)) (fun i => G (i + 1)) (fun i L' h1 j q h2 => h (i + 1) L' (by simpa using h1) j q h2)]
    congr 1
    apply List.ext_getElem?
    intro j
    rw [List.getElem?_map, List.getElem?_map]
    by_cases hj : j < L.length
    · rw [List.getElem?_range hj, List.getElem?_eq_getElem hj]
      simp only [Option.map_some, Option.some.injEq]
      exact h 0 L rfl j _ (List.getElem?_eq_getElem hj)
    · rw [List.getElem?_eq_none (by simpa using hj), List.getElem?_eq_none (by simpa using hj)]
      rfl

theorem flagTable_eq (trees : List (Tree d Unit)) (calls : List MarkCall) (hn : ∀ t ∈ trees, (quadsOf t).Nodup) :
    flagTable trees calls = ((trees.map quadsOf).mapIdx fun i L => L.map (markOf trees calls i)).flatten := by
  unfold flagTable
  have : trees.map (fun t => (quadsOf t).length) = (trees.map quadsOf).map List.length := by simp
  rw [this]
  apply rowTable_mapIdx
  intro i L hL j q hq
  rw [List.getElem?_map] at hL
  obtain ⟨t, ht, rfl⟩ := Option.map_eq_some_iff.mp hL
  unfold markOf
  rw [ht]
  simp only
  rw [if_pos (List.mem_of_getElem? hq), idxOf_get (hn t (List.mem_of_getElem? ht)) hq]

theorem flatten_countP (G : ℕ → Quad d → WrapFlag) : ∀ (Ls : List (List (Quad d))),
    ((Ls.mapIdx fun i L => L.map (G i)).flatten).countP WrapFlag.refine =
      (Ls.mapIdx fun i L => L.countP fun q => (G i q).refine).sum := by
  intro Ls
  induction Ls generalizing G with
  | nil => rfl
  | cons L Ls ih =>
    simp only [List.mapIdx_cons, List.flatten_cons, List.countP_append, List.sum_cons]
    rw [ih (fun i => G (i + 1)), List.countP_map]
    rfl

theorem flatten_length (G : ℕ → Quad d → WrapFlag) : ∀ (Ls : List (List (Quad d))),
    ((Ls.mapIdx fun i L => L.map (G i)).flatten).length = (Ls.map List.length).sum := by
  intro Ls
  induction Ls generalizing G with
  | nil => rfl
  | cons L Ls ih =>
    simp only [List.mapIdx_cons, List.flatten_cons, List.length_append, List.map_cons, List.sum_cons, List.length_map]
    rw [ih (fun i => G (i + 1))]

theorem kids_length_sum (m : ℕ → Quad d → WrapFlag) : ∀ (Ls : List (List (Quad d))),
    ((Ls.mapIdx fun i L => L.flatMap (wrapKids (m i))).map List.length).sum =
      (Ls.map List.length).sum + (2 ^ d - 1) * (Ls.mapIdx fun i L => L.countP (wrapSplits (m i))).sum := by
  intro Ls
  induction Ls generalizing m with
  | nil => rfl
  | cons L Ls ih =>
    simp only [List.mapIdx_cons, List.map_cons, List.sum_cons]
    rw [ih (fun i => m (i + 1)), wrapKids_length]
    ring

theorem leafCount_eq (ts : List (Tree d Unit)) : leafCount ts = (((ts.map quadsOf).map List.length).sum : ℕ) := by
  unfold leafCount
  induction ts with
  | nil => rfl
  | cons t ts ih => simp only [List.map_cons, List.sum_cons]; rw [ih]; push_cast; rfl

/-- The members of a refined quadrant are not leaves themselves. -/
theorem kid_not_leaf (hd : 0 < d) {L : List (Quad d)} (hv : ∀ q ∈ L, Valid q) (hg : Gapless L) {q r : Quad d} (hq : q ∈ L)
    (hr : r ∈ kids q) : r ∉ L := by
  intro hrL
  obtain ⟨k, hk, rfl⟩ := mem_kids.mp hr
  obtain ⟨a, b, hp⟩ := hg.path
  have hG : Good a b (L.map fun q => (⟨q, ()⟩ : Leaf d Unit)) := by
    refine ⟨?_, by simpa [Function.comp_def] using hp⟩
    intro x hx
    obtain ⟨y, hy, rfl⟩ := List.mem_map.mp hx
    exact hv y hy
  have hs := kid_ssubset hd (hv q hq) k
  have := hG.unique hd (q := kid q k) (r := q) (by simpa [Function.comp_def] using hrL) (by simpa [Function.comp_def] using hq) hs.1
  rw [this] at hs
  exact hs.2 Set.Subset.rfl

/-- Mark of a leaf after refinement. -/
def midMark (trees : List (Tree d Unit)) (calls : List MarkCall) (i : ℕ) (q : Quad d) : Bool :=
  (markOf trees calls i q).coarsen

theorem temp_marks (hd : 0 < d) (trees : List (Tree d Unit)) (calls : List MarkCall) {i : ℕ} {t : Tree d Unit}
    (ht : trees[i]? = some t) (hv : ∀ q ∈ quadsOf t, Valid q) (hg : Gapless (quadsOf t)) :
    ((quadsOf t).flatMap (wrapTemp (markOf trees calls i))).map WrapFlag.coarsen =
      ((quadsOf t).flatMap (wrapKids (markOf trees calls i))).map (midMark trees calls i) := by
  rw [List.map_flatMap, List.map_flatMap]
  have key : ∀ ls : List (Quad d), (∀ q ∈ ls, q ∈ quadsOf t) →
      ls.flatMap (fun q => (wrapTemp (markOf trees calls i) q).map WrapFlag.coarsen) =
      ls.flatMap (fun q => (wrapKids (markOf trees calls i) q).map (midMark trees calls i)) := by
    intro ls
    induction ls with
    | nil => intro _; rfl
    | cons q ls ih =>
      intro hls
      rw [List.flatMap_cons, List.flatMap_cons, ih (fun x hx => hls x (by simp [hx]))]
      congr 1
      unfold wrapTemp wrapKids
      have hq := hls q (by simp)
      split_ifs with hs
      · rw [List.map_replicate, ← kids_eq (hv q hq)]
        symm
        rw [List.eq_replicate_iff]
        refine ⟨by simp [kids], ?_⟩
        intro b hb
        obtain ⟨r, hr, rfl⟩ := List.mem_map.mp hb
        have := kid_not_leaf hd hv hg hq hr
        unfold midMark markOf
        rw [ht]
        simp only
        rw [if_neg this]
      · simp [midMark]
  exact key _ (fun q hq => hq)

theorem mem_mid (m : Quad d → WrapFlag) {L : List (Quad d)} (hv : ∀ q ∈ L, Valid q) (r : Quad d) :
    r ∈ L.flatMap (wrapKids m) ↔ (∃ q ∈ L, (m q).refine = true ∧ q.level < 29 ∧ r ∈ kids q) ∨
      (r ∈ L ∧ ¬ ((m r).refine = true ∧ r.level < 29)) := by
  rw [List.mem_flatMap]
  constructor
  · rintro ⟨q, hq, hr⟩
    unfold wrapKids wrapSplits at hr
    split_ifs at hr with h
    · simp only [Bool.and_eq_true, decide_eq_true_eq] at h
      exact Or.inl ⟨q, hq, h.1, h.2, by rwa [kids_eq (hv q hq)]⟩
    · simp only [List.mem_singleton] at hr
      subst hr
      simp only [Bool.and_eq_true, decide_eq_true_eq] at h
      exact Or.inr ⟨hq, h⟩
  · rintro (⟨q, hq, h1, h2, h3⟩ | ⟨hr, h⟩)
    · refine ⟨q, hq, ?_⟩
      unfold wrapKids wrapSplits
      rw [if_pos (by simp [h1, h2]), ← kids_eq (hv q hq)]
      exact h3
    · refine ⟨r, hr, ?_⟩
      unfold wrapKids wrapSplits
      rw [if_neg (by simpa using h)]
      simp

/-- The legal states of the local trees. -/
structure Spec.LegalTrees (trees : List (Tree d Unit)) : Prop where
  valid : ∀ t ∈ trees, ∀ q ∈ quadsOf t, Valid q
  gapless : ∀ t ∈ trees, Gapless (quadsOf t)
  counters : ∀ t ∈ trees, CountersOk t
  offsets : OffsetsOk 0 trees

/-- All facts on the adaptation of one process. -/
theorem wrapAdapt_main (hd : 0 < d) (trees : List (Tree d Unit)) (hT : LegalTrees trees) (calls : List MarkCall) :
    ∃ r, wrapAdaptLocal trees ⟨flagTable trees calls, (flagTable trees calls).countP WrapFlag.refine⟩ = some r ∧
      r.trees.length = trees.length ∧ LegalTrees r.trees ∧
      r.flags = List.replicate ((trees.map quadsOf).map List.length).sum WrapFlag.zero ∧
      r.num0 = leafCount trees ∧ r.num2 = leafCount r.trees ∧ r.num0 ≤ r.num1 ∧ r.num2 ≤ r.num1 ∧
      (r.num0 = r.num1 → r.num1 = r.num2 → r.trees.map quadsOf = trees.map quadsOf) ∧
      (r.num0 ≠ r.num1 → ∃ i t q, trees[i]? = some t ∧ q ∈ quadsOf t ∧ q.level < 29 ∧ IsMarked calls .refine i (quadsOf t) q) ∧
      ∀ i t t', trees[i]? = some t → r.trees[i]? = some t' →
        Cover (quadsOf t') = Cover (quadsOf t) ∧
        ∀ q, q ∈ quadsOf t' ↔ AdaptedLeaf (quadsOf t) (IsMarked calls .refine i (quadsOf t))
          (IsMarked calls .coarsen i (quadsOf t)) q := by
  have hD : 0 < 2 ^ d := by positivity
  have hn : ∀ t ∈ trees, (quadsOf t).Nodup := fun t ht => gapless_nodup (hT.gapless t ht)
  set Ls := trees.map quadsOf with hLs
  set m := markOf trees calls with hm
  set N := (Ls.map List.length).sum with hN
  set cnt := (Ls.mapIdx fun i L => L.countP fun q => (m i q).refine).sum with hcnt
  have hflags : flagTable trees calls = (Ls.mapIdx fun i L => L.map (m i)).flatten := flagTable_eq trees calls hn
  have hflen : (flagTable trees calls).length = N := by rw [hflags, flatten_length]
  have hcount : (flagTable trees calls).countP WrapFlag.refine = cnt := by rw [hflags, flatten_countP]
  have hcle : cnt ≤ N := by rw [← hcount, ← hflen]; exact List.countP_le_length
  have htemp : ((N : ℤ) + (2 ^ d - 1) * (cnt : ℤ)).toNat = N + (2 ^ d - 1) * cnt := by
    have : ((N : ℤ) + (2 ^ d - 1) * (cnt : ℤ)) = ((N + (2 ^ d - 1) * cnt : ℕ) : ℤ) := by
      push_cast [Nat.cast_sub hD]; ring
    rw [this, Int.toNat_natCast]
  obtain ⟨ts1, st1, Z1, e1, hq1, hv1, hg1, hcov1, hin1, hfl1, htp1, hrp1, -⟩ := wrap_refine_trees hd trees m
    (fun i q => markOf_excl trees calls i q) hT.valid hT.gapless 0
    ⟨flagTable trees calls, List.replicate (N + (2 ^ d - 1) * cnt) WrapFlag.zero, 0, 0, cnt⟩ [] [] []
    (List.replicate (N + (2 ^ d - 1) * cnt) WrapFlag.zero) rfl (by rw [hflags]; simp [hLs]) (by simp) (by simp)
    (by simp [← hLs, ← hN, ← hcnt]) (by simp only [Nat.zero_add]; rw [← hLs, ← hcnt])
  obtain ⟨ts1b, n1b, s1b, e1b, -, hcb, -, -⟩ := C21_refine_offsets hd (wrapRefineCb d) false 29 trees 0
    (some ⟨flagTable trees calls, List.replicate (N + (2 ^ d - 1) * cnt) WrapFlag.zero, 0, 0, cnt⟩) hT.counters
  rw [e1] at e1b
  simp only [Option.some.injEq, Prod.mk.injEq] at e1b
  obtain ⟨rfl, -, -⟩ := e1b
  rw [← hLs] at hq1 hin1 hfl1 htp1 hrp1
  simp only [Nat.zero_add, List.nil_append, List.append_nil] at hin1 hfl1 htp1 hrp1
  rw [← hN] at hin1 hfl1
  set rp := (Ls.mapIdx fun i L => L.countP (wrapSplits (m i))).sum with hrp
  have hl1 : leafCount ts1 = N + (2 ^ d - 1) * rp := by
    rw [leafCount_eq, hq1, kids_length_sum, ← hN, ← hrp]
    push_cast [Nat.cast_sub hD]; ring
  have hlen1 : ts1.length = trees.length := by
    have := congrArg List.length hq1
    simpa [hLs] using this
  -- the marks of the leaves after refinement
  have hS : ((Ls.mapIdx fun i L => L.flatMap (wrapTemp (m i))).flatten).map WrapFlag.coarsen =
      ((ts1.map quadsOf).mapIdx fun i L => L.map (midMark trees calls i)).flatten := by
    rw [List.map_flatten, hq1]
    congr 1
    apply List.ext_getElem?
    intro i
    simp only [List.getElem?_map, List.getElem?_mapIdx]
    rw [hLs, List.getElem?_map]
    cases ht : trees[i]? with
    | none => rfl
    | some t =>
      simp only [Option.map_some, Option.some.injEq]
      exact temp_marks hd trees calls ht (hT.valid t (List.mem_of_getElem? ht)) (hT.gapless t (List.mem_of_getElem? ht))
  obtain ⟨ts2, ch, off2, k, e2, hch, hlen2, hk0, hlc, hall⟩ := wrap_coarsen_trees hd ts1 (midMark trees calls) hv1 hg1 0
    { st1 with inside := 0, replaced := 0 } [] ((Ls.mapIdx fun i L => L.flatMap (wrapTemp (m i))).flatten) Z1
    (by simpa using htp1) rfl hS
  obtain ⟨ts2b, chb, n2b, s2b, e2b, -, hcb2, hob2, -, -⟩ := C21_coarsen_offsets hd (wrapCoarsenCb d) false true ts1 0
    (some { st1 with inside := 0, replaced := 0 }) hcb hv1 hg1
  rw [e2] at e2b
  simp only [Option.some.injEq, Prod.mk.injEq] at e2b
  obtain ⟨rfl, -, -, -⟩ := e2b
  have hin2 : ((ts1.map quadsOf).map List.length).sum = N + (2 ^ d - 1) * rp := by
    rw [hq1, kids_length_sum]
  have hkk : (0 : ℤ) ≤ (2 ^ d - 1) * (k : ℤ) := by
    have : (1 : ℤ) ≤ 2 ^ d := by exact_mod_cast hD
    have : (0 : ℤ) ≤ 2 ^ d - 1 := by omega
    positivity
  have hrr : (0 : ℤ) ≤ (2 ^ d - 1) * (rp : ℤ) := by
    have : (1 : ℤ) ≤ 2 ^ d := by exact_mod_cast hD
    have : (0 : ℤ) ≤ 2 ^ d - 1 := by omega
    positivity
  have hD2 : (1 : ℤ) ≤ 2 ^ d - 1 := by
    have : (2 : ℤ) ^ 1 ≤ 2 ^ d := pow_le_pow_right₀ (by norm_num) (by omega)
    omega
  have hposR : (2 ^ d - 1) * (rp : ℤ) = 0 → rp = 0 := by
    intro h
    rcases mul_eq_zero.mp h with h | h
    · omega
    · exact_mod_cast h
  have hposK : (2 ^ d - 1) * (k : ℤ) = 0 → k = 0 := by
    intro h
    rcases mul_eq_zero.mp h with h | h
    · omega
    · exact_mod_cast h
  have hsplit0 : rp = 0 → ts1.map quadsOf = Ls := by
    intro h
    rw [hq1]
    have hz : ∀ x ∈ Ls.mapIdx (fun i L => L.countP (wrapSplits (m i))), x = 0 := List.sum_eq_zero_iff.mp h
    apply List.ext_getElem?
    intro i
    rw [List.getElem?_mapIdx]
    cases hL : Ls[i]? with
    | none => rfl
    | some L =>
      simp only [Option.map_some, Option.some.injEq]
      have : L.countP (wrapSplits (m i)) = 0 := by
        apply hz
        rw [List.mem_iff_getElem?]
        exact ⟨i, by rw [List.getElem?_mapIdx, hL]; rfl⟩
      rw [List.countP_eq_zero] at this
      have hk : ∀ ls : List (Quad d), (∀ q ∈ ls, ¬ wrapSplits (m i) q = true) → ls.flatMap (wrapKids (m i)) = ls := by
        intro ls
        induction ls with
        | nil => intro _; rfl
        | cons q ls ih =>
          intro h
          rw [List.flatMap_cons, ih (fun x hx => h x (by simp [hx])), wrapKids, if_neg (h q (by simp))]
          rfl
      exact hk L this
  have hlc2 : leafCount trees = N := by rw [leafCount_eq]
  refine ⟨⟨ts2, st1.flags, N, leafCount ts1, leafCount ts1 + ch⟩, ?_, by rw [hlen2, hlen1], ⟨?_, ?_, hcb2, hob2⟩, hfl1, hlc2.symm,
    hlc.symm, ?_, ?_, ?_, ?_, ?_⟩
  · unfold wrapAdaptLocal
    simp only [hcount, hflen]
    rw [if_pos ⟨by omega, by omega⟩, htemp]
    simp only [QMAXLEVEL]
    rw [e1]
    simp only [Option.bind_eq_bind, Option.bind_some, zero_add]
    rw [if_pos ⟨by rw [hin1], by rw [hl1, hrp1]; ring⟩, e2]
    simp only [Option.bind_some, Nat.zero_add]
    rw [if_pos ⟨by rw [hin2, hl1]; push_cast [Nat.cast_sub hD]; ring, by rw [hch]; ring⟩]
  · intro t ht
    obtain ⟨i, hi⟩ := List.mem_iff_getElem?.mp ht
    have hlt : i < ts1.length := by rw [← hlen2]; exact (List.getElem?_eq_some_iff.mp hi).1
    exact (hall i ts1[i] t (List.getElem?_eq_getElem hlt) hi).1
  · intro t ht
    obtain ⟨i, hi⟩ := List.mem_iff_getElem?.mp ht
    have hlt : i < ts1.length := by rw [← hlen2]; exact (List.getElem?_eq_some_iff.mp hi).1
    exact (hall i ts1[i] t (List.getElem?_eq_getElem hlt) hi).2.1
  · dsimp only; rw [hl1]; omega
  · dsimp only; rw [hch]; omega
  · dsimp only
    intro h1 h2
    rw [hk0 (hposK (by omega)), hsplit0 (hposR (by omega))]
  · dsimp only
    intro h1
    have : rp ≠ 0 := by
      intro h; apply h1; rw [hl1, h]; simp
    rw [hrp] at this
    have hex : ∃ x ∈ Ls.mapIdx (fun i L => L.countP (wrapSplits (m i))), x ≠ 0 := by
      by_contra hc
      push_neg at hc
      exact this (List.sum_eq_zero_iff.mpr hc)
    obtain ⟨x, hx, hx0⟩ := hex
    obtain ⟨i, hi⟩ := List.mem_iff_getElem?.mp hx
    rw [List.getElem?_mapIdx] at hi
    obtain ⟨L, hL, rfl⟩ := Option.map_eq_some_iff.mp hi
    rw [hLs, List.getElem?_map] at hL
    obtain ⟨t, ht, rfl⟩ := Option.map_eq_some_iff.mp hL
    obtain ⟨q, hq, hs⟩ := List.countP_pos_iff.mp (Nat.pos_of_ne_zero hx0)
    unfold wrapSplits at hs
    simp only [Bool.and_eq_true, decide_eq_true_eq] at hs
    exact ⟨i, t, q, ht, hq, hs.2, (markOf_refine ht (hn t (List.mem_of_getElem? ht)) q).mp hs.1⟩
  · dsimp only
    intro i t t' ht ht'
    have hvt := hT.valid t (List.mem_of_getElem? ht)
    have hgt := hT.gapless t (List.mem_of_getElem? ht)
    have hnt := hn t (List.mem_of_getElem? ht)
    have hlt : i < ts1.length := by rw [hlen1]; exact (List.getElem?_eq_some_iff.mp ht).1
    obtain ⟨-, -, hc, hmem⟩ := hall i ts1[i] t' (List.getElem?_eq_getElem hlt) ht'
    have hmid : quadsOf ts1[i] = (quadsOf t).flatMap (wrapKids (m i)) := by
      have h := congrArg (fun l => l[i]?) hq1
      simp only [List.getElem?_map, List.getElem?_mapIdx, List.getElem?_eq_getElem hlt, Option.map_some] at h
      rw [hLs, List.getElem?_map, ht] at h
      simpa using h
    have hcov : Cover (quadsOf ts1[i]) = Cover (quadsOf t) := by
      have h := congrArg (fun l => l[i]?) hcov1
      simp only [List.getElem?_map, List.getElem?_eq_getElem hlt, Option.map_some, ht] at h
      simpa using h
    refine ⟨hc.trans hcov, ?_⟩
    -- a marked family is a family of old leaves
    have hcm : ∀ q, midMark trees calls i q = true ↔ IsMarked calls .coarsen i (quadsOf t) q :=
      fun q => markOf_coarsen ht hnt q
    have hrm : ∀ q, (m i q).refine = true ↔ IsMarked calls .refine i (quadsOf t) q := fun q => markOf_refine ht hnt q
    have hmarkmem : ∀ k q, IsMarked calls k i (quadsOf t) q → q ∈ quadsOf t := fun k q h => by
      obtain ⟨j, hj, -⟩ := h; exact List.mem_of_getElem? hj
    have hinmid : ∀ q, midMark trees calls i q = true → q ∈ quadsOf ts1[i] := by
      intro q hq
      rw [hmid, mem_mid _ hvt]
      refine Or.inr ⟨hmarkmem _ _ ((hcm q).mp hq), ?_⟩
      rintro ⟨h, -⟩
      have := markOf_excl trees calls i q h
      unfold midMark at hq
      rw [this] at hq
      exact absurd hq (by simp)
    have hfam : ∀ p, ((kids p).all (midMark trees calls i) = true ∧ HasFamily (quadsOf ts1[i]) p) ↔
        (Valid p ∧ ∀ k, k < 2 ^ d → IsMarked calls .coarsen i (quadsOf t) (kid p k)) := by
      intro p
      rw [List.all_eq_true]
      constructor
      · rintro ⟨h1, h2⟩
        exact ⟨h2.1, fun k hk => (hcm _).mp (h1 _ (mem_kids.mpr ⟨k, hk, rfl⟩))⟩
      · rintro ⟨h1, h2⟩
        refine ⟨?_, h1, fun k hk => hinmid _ ((hcm _).mpr (h2 k hk))⟩
        intro x hx
        obtain ⟨k, hk, rfl⟩ := mem_kids.mp hx
        exact (hcm _).mpr (h2 k hk)
    intro r
    rw [hmem r, hfam r]
    have hex : (∃ p, (kids p).all (midMark trees calls i) = true ∧ HasFamily (quadsOf ts1[i]) p ∧ r ∈ kids p) ↔
        ∃ p, Valid p ∧ (∀ k, k < 2 ^ d → IsMarked calls .coarsen i (quadsOf t) (kid p k)) ∧ r ∈ kids p := by
      constructor
      · rintro ⟨p, h1, h2, h3⟩
        exact ⟨p, ((hfam p).mp ⟨h1, h2⟩).1, ((hfam p).mp ⟨h1, h2⟩).2, h3⟩
      · rintro ⟨p, h1, h2, h3⟩
        exact ⟨p, ((hfam p).mpr ⟨h1, h2⟩).1, ((hfam p).mpr ⟨h1, h2⟩).2, h3⟩
    rw [hex, hmid, mem_mid _ hvt]
    unfold AdaptedLeaf
    constructor
    · rintro (h | ⟨⟨q, hq, h1, h2, h3⟩ | ⟨hr, h1⟩, h4⟩)
      · exact Or.inr (Or.inl h)
      · exact Or.inl ⟨q, (hrm q).mp h1, h2, h3⟩
      · exact Or.inr (Or.inr ⟨hr, by rw [← hrm]; exact h1, h4⟩)
    · rintro (⟨q, h1, h2, h3⟩ | h | ⟨hr, h1, h4⟩)
      · refine Or.inr ⟨Or.inl ⟨q, hmarkmem _ _ h1, (hrm q).mpr h1, h2, h3⟩, ?_⟩
        rintro ⟨p, hp, hk, hrp⟩
        obtain ⟨k, hk2, rfl⟩ := mem_kids.mp hrp
        exact kid_not_leaf hd hvt hgt (hmarkmem _ _ h1) h3 (hmarkmem _ _ (hk k hk2))
      · exact Or.inl h
      · exact Or.inr ⟨Or.inr ⟨hr, by rw [← hrm] at h1; exact h1⟩, h4⟩

end P4est
