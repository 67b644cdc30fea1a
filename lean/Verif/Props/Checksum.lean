import Verif.Model.Checksum
import Verif.Spec.Checksum
import Verif.Props.PartitionExt
import Mathlib.Data.Nat.ModEq

/-! # C34: the checksum is that of the leaves and does not depend on the partition -/

namespace P4est
open Spec

variable {d : ℕ} {α α' : Type}

/-! ### The local trees of a rank -/

theorem Spec.Holds.localTrees {β : Type} {T : ℕ} {L : List (ℕ × β)} {rt : RankTrees β} (h : Holds T L rt) :
    L = tagFrom rt.first.toNat ((List.range (P4est.localTrees rt)).map fun i => leavesIn L (rt.first.toNat + i)) ∧
    ∀ i, i < P4est.localTrees rt → rt.trees[rt.first.toNat + i]? = some (leavesIn L (rt.first.toNat + i)) := by
  by_cases hne : L = []
  · subst hne
    have := h.empty
    have e : P4est.localTrees rt = 0 := by unfold P4est.localTrees; omega
    rw [e]
    exact ⟨by simp [tagFrom], fun i hi => by omega⟩
  · have h0 := h.nonempty hne
    have hb : ∀ x ∈ L, rt.first.toNat ≤ x.1 ∧ x.1 < rt.first.toNat + P4est.localTrees rt := by
      intro x hx
      have h1 := h.bounds hx
      unfold P4est.localTrees; omega
    have e := h.sorted.eq_tagFrom rt.first.toNat (P4est.localTrees rt) hb
    refine ⟨e, fun i hi => h.get ?_⟩
    have h1 : rt.last < T := by
      rw [h.last, List.getLast?_eq_some_getLast hne]
      have h2 := h.lt (List.getLast_mem hne)
      simp only [Option.elim_some]
      exact_mod_cast h2
    unfold P4est.localTrees at hi; omega

/-! ### Adler-32 -/

theorem adlerSums_append (xs ys : List ℕ) (s : ℕ × ℕ) : adlerSums (xs ++ ys) s = adlerSums ys (adlerSums xs s) := by
  induction xs generalizing s with
  | nil => rfl
  | cons x xs ih => obtain ⟨a, b⟩ := s; simp [adlerSums, ih]

theorem adlerSums_lt (xs : List ℕ) (s : ℕ × ℕ) (h1 : s.1 < 65521) (h2 : s.2 < 65521) :
    (adlerSums xs s).1 < 65521 ∧ (adlerSums xs s).2 < 65521 := by
  induction xs generalizing s with
  | nil => exact ⟨h1, h2⟩
  | cons x xs ih =>
    obtain ⟨a, b⟩ := s
    rw [adlerSums]
    exact ih _ (Nat.mod_lt _ (by norm_num)) (Nat.mod_lt _ (by norm_num))

theorem zAdler32_fold (xs : List ℕ) (s : ℕ × ℕ) :
    xs.foldl (fun s x => ((s.1 + x) % 65521, (s.2 + (s.1 + x)) % 65521)) s = adlerSums xs s := by
  induction xs generalizing s with
  | nil => rfl
  | cons x xs ih => obtain ⟨a, b⟩ := s; rw [List.foldl_cons, ih, adlerSums, Nat.add_assoc]

/-- The sums starting from any state, without reduction. -/
def rawSums : List ℕ → ℕ × ℕ
  | [] => (0, 0)
  | x :: xs => (x + (rawSums xs).1, (xs.length + 1) * x + (rawSums xs).2)

theorem adlerSums_modEq (xs : List ℕ) (a b : ℕ) :
    (adlerSums xs (a, b)).1 ≡ a + (rawSums xs).1 [MOD 65521] ∧
    (adlerSums xs (a, b)).2 ≡ b + xs.length * a + (rawSums xs).2 [MOD 65521] := by
  induction xs generalizing a b with
  | nil => simp [adlerSums, rawSums, Nat.ModEq.refl]
  | cons x xs ih =>
    rw [adlerSums]
    obtain ⟨h1, h2⟩ := ih ((a + x) % 65521) ((b + a + x) % 65521)
    constructor
    · refine h1.trans ?_
      rw [rawSums]
      simp only [← Nat.add_assoc]
      exact (Nat.mod_modEq _ _).add_right _
    · refine h2.trans ?_
      rw [rawSums]
      simp only [List.length_cons]
      have e : b + (xs.length + 1) * a + ((xs.length + 1) * x + (rawSums xs).2) =
          b + a + x + xs.length * (a + x) + (rawSums xs).2 := by ring
      rw [e]
      exact (((Nat.mod_modEq _ _).add ((Nat.mod_modEq _ _).mul_left _))).add_right _

theorem combine_arith (x1 x2 y1 y2 n m : ℕ) (hx1 : x1 < 65521) (hx2 : x2 < 65521) (hy1 : y1 < 65521) (hy2 : y2 < 65521)
    (hm : m < 65521) (hn : n < 65521) :
    (let sum1 := x1 + y1 + 65521 - 1
     let sum2 := m + x2 + y2 + 65521 - n
     let sum1 := if sum1 ≥ 65521 then sum1 - 65521 else sum1
     let sum1 := if sum1 ≥ 65521 then sum1 - 65521 else sum1
     let sum2 := if sum2 ≥ 2 * 65521 then sum2 - 2 * 65521 else sum2
     let sum2 := if sum2 ≥ 65521 then sum2 - 65521 else sum2
     sum1 + sum2 * 65536) = (m + x2 + y2 + 65521 - n) % 65521 * 65536 + (x1 + y1 + 65521 - 1) % 65521 := by
  simp only
  split_ifs <;> omega

theorem zAdler32_one (bytes : List ℕ) : scArrayChecksum bytes = adler32 bytes := by
  unfold scArrayChecksum
  split
  · rename_i h
    rw [List.length_eq_zero_iff.mp h]; rfl
  · unfold zAdler32 adler32
    simp only [zAdler32_fold]
    norm_num
    rw [Nat.add_comm]

theorem combine_spec (xs ys : List ℕ) : zAdler32Combine (adler32 xs) (adler32 ys) ys.length = adler32 (xs ++ ys) := by
  obtain ⟨hx1, hx2⟩ := adlerSums_lt xs (1, 0) (by norm_num) (by norm_num)
  obtain ⟨hy1, hy2⟩ := adlerSums_lt ys (1, 0) (by norm_num) (by norm_num)
  have hz := adlerSums_lt (xs ++ ys) (1, 0) (by norm_num) (by norm_num)
  have hz' := adlerSums_append xs ys (1, 0)
  have ax : adler32 xs = (adlerSums xs (1, 0)).2 * 65536 + (adlerSums xs (1, 0)).1 := rfl
  have ay : adler32 ys = (adlerSums ys (1, 0)).2 * 65536 + (adlerSums ys (1, 0)).1 := rfl
  set x := adlerSums xs (1, 0)
  set y := adlerSums ys (1, 0) with hy
  obtain ⟨m1, m2⟩ := adlerSums_modEq ys x.1 x.2
  rw [← hz'] at m1 m2
  obtain ⟨k1, k2⟩ := adlerSums_modEq ys 1 0
  rw [← hy] at k1 k2
  set z := adlerSums (xs ++ ys) (1, 0)
  have ex1 : adler32 xs % 65536 = x.1 := by omega
  have ex2 : adler32 xs / 65536 % 65536 = x.2 := by omega
  have ey1 : adler32 ys % 65536 = y.1 := by omega
  have ey2 : adler32 ys / 65536 % 65536 = y.2 := by omega
  unfold zAdler32Combine
  rw [ex1, ex2, ey1, ey2, combine_arith _ _ _ _ _ _ hx1 hx2 hy1 hy2 (Nat.mod_lt _ (by norm_num)) (Nat.mod_lt _ (by norm_num))]
  have e1 : (x.1 + y.1 + 65521 - 1) % 65521 = z.1 := by
    rw [← Nat.mod_eq_of_lt hz.1]
    unfold Nat.ModEq at m1 k1
    omega
  have e2 : (ys.length % 65521 * x.1 % 65521 + x.2 + y.2 + 65521 - ys.length % 65521) % 65521 = z.2 := by
    rw [← Nat.mod_eq_of_lt hz.2]
    have h3 : ys.length % 65521 * x.1 % 65521 = ys.length * x.1 % 65521 := Nat.mod_mul_mod _ _ _
    rw [h3]
    unfold Nat.ModEq at m2 k2
    rw [Nat.mul_one] at k2
    generalize ys.length * x.1 = w at *
    omega
  rw [e1, e2]; rfl

/-! ### Records -/

theorem htonl_nat (n : ℕ) (h : n < 2 ^ 32) : htonl n = bigEndian n := by
  unfold htonl bigEndian
  have e : ((n : ℤ) % 2 ^ 32).toNat = n := by omega
  simp only [e]
  congr 1
  omega

theorem checkWords_eq (q : Quad d) (hq : Valid q) : checkWords q = leafRecord q := by
  unfold checkWords leafRecord
  congr 1
  · apply List.flatMap_congr
    intro i _
    obtain ⟨h1, h2⟩ := hq.2.2 i
    split
    · rw [oldCoord, if_neg (by omega), ← htonl_nat _ (by omega)]
      congr 1
      push_cast
      rw [Int.toNat_of_nonneg h1, Int.emod_eq_of_lt h1 (by omega)]
    · rw [Nat.div_one, ← htonl_nat _ (by omega), Int.toNat_of_nonneg h1]
  · exact htonl_nat _ (by have := hq.1; omega)

theorem checkWords_length (q : Quad d) : (checkWords q).length = 4 * (d + 1) := by
  unfold checkWords
  rw [List.length_append, List.length_flatMap]
  simp [htonl]; omega

/-! ### The loops -/

/-- The bytes of some leaves. -/
def leafBytes (L : List (ℕ × (Quad d × α))) : List ℕ := L.flatMap fun x => checkWords x.2.1

theorem leafBytes_length (L : List (ℕ × (Quad d × α))) : (leafBytes L).length = 4 * (L.length * (d + 1)) := by
  unfold leafBytes
  rw [List.length_flatMap, List.map_congr_left (g := fun _ => 4 * (d + 1)) fun x _ => checkWords_length _]
  simp; ring

theorem checksumTrees_spec (rt : RankTrees (Quad d × α)) (A : ℕ → List (Quad d × α)) (n t : ℕ)
    (hA : ∀ i, i < n → rt.trees[t + i]? = some (A (t + i))) (pre : List (ℕ × (Quad d × α))) :
    checksumTrees rt n t (adler32 (leafBytes pre), (leafBytes pre).length) =
      some (adler32 (leafBytes (pre ++ tagFrom t ((List.range n).map fun i => A (t + i)))),
        (leafBytes (pre ++ tagFrom t ((List.range n).map fun i => A (t + i)))).length) := by
  induction n generalizing t pre with
  | zero => simp [checksumTrees, tagFrom]
  | succ n ih =>
    have e : (List.range (n + 1)).map (fun i => A (t + i)) = A t :: (List.range n).map fun i => A (t + 1 + i) := by
      rw [List.range_succ_eq_map, List.map_cons, List.map_map]
      congr 1
      apply List.map_congr_left
      intro i _
      simp only [Function.comp]; congr 1; omega
    have h0 := hA 0 (by omega)
    simp only [Nat.add_zero] at h0
    rw [checksumTrees, h0, e, tagFrom]
    simp only [bind, Option.bind]
    have hb : (A t).flatMap (fun q => checkWords q.1) = leafBytes ((A t).map fun q => (t, q)) := by
      unfold leafBytes; rw [List.flatMap_map]
    have hl : 4 * ((A t).length * (d + 1)) = (leafBytes ((A t).map fun q => (t, q))).length := by
      rw [leafBytes_length, List.length_map]
    have hap : leafBytes pre ++ leafBytes ((A t).map fun q => (t, q)) = leafBytes (pre ++ (A t).map fun q => (t, q)) := by
      unfold leafBytes; rw [List.flatMap_append]
    unfold quadrantChecksum
    simp only
    rw [hb, zAdler32_one, hl, combine_spec, ← List.length_append, hap,
      ih (t + 1) (fun i hi => by have := hA (i + 1) (by omega); rwa [show t + (i + 1) = t + 1 + i by omega] at this),
      List.append_assoc]

theorem checksumLocal_spec {T : ℕ} {L : List (ℕ × (Quad d × α))} {rt : RankTrees (Quad d × α)} (h : Holds T L rt) :
    checksumLocal rt = some (adler32 (leafBytes L), (leafBytes L).length) := by
  obtain ⟨h1, h2⟩ := h.localTrees
  have := checksumTrees_spec rt (leavesIn L) (localTrees rt) rt.first.toNat h2 []
  rw [List.nil_append, ← h1] at this
  have e0 : adler32 (leafBytes ([] : List (ℕ × (Quad d × α)))) = 1 := by unfold adler32 leafBytes; simp [adlerSums]
  have e1 : (leafBytes ([] : List (ℕ × (Quad d × α)))).length = 0 := rfl
  rw [e0, e1] at this
  exact this

theorem combineRanks_spec (gather : ℕ → ℕ × ℕ) (bytes : ℕ → List ℕ) (n p : ℕ)
    (h : ∀ i, p ≤ i → i < p + n → gather i = (adler32 (bytes i), (bytes i).length)) (pre : List ℕ) :
    combineRanks gather n p (adler32 pre) = adler32 (pre ++ (List.range' p n).flatMap bytes) := by
  induction n generalizing p pre with
  | zero => simp [combineRanks]
  | succ n ih =>
    rw [combineRanks, h p le_rfl (by omega), combine_spec, ih (p + 1) (fun i h1 h2 => h i (by omega) (by omega)),
      List.range'_succ, List.flatMap_cons, List.append_assoc]

/-! ### C34 -/

/-- C34. The checksum of a forest that is distributed in any way is the Adler-32 checksum of the records of
all leaves, in order. -/
theorem C34_checksum (f : Forest d α) (trees : List (List (Quad d × α))) (P : ℕ) (hP : 0 < P)
    (leaves : ℕ → List (ℕ × (Quad d × α))) (hf : ForestHolds f trees P leaves) :
    checksum f P = some (adler32 ((trees.flatMap fun l => l.map Prod.fst).flatMap leafRecord)) := by
  unfold checksum
  rw [mapM_some (g := fun p => (adler32 (leafBytes (leaves p)), (leafBytes (leaves p)).length)) fun p hp =>
    checksumLocal_spec (hf.ranks p (List.mem_range.mp hp))]
  simp only [bind, Option.bind]
  have hg : ∀ i, i < P → ((((List.range P).map fun p => (adler32 (leafBytes (leaves p)), (leafBytes (leaves p)).length))[i]?).getD (0, 0)) =
      (adler32 (leafBytes (leaves i)), (leafBytes (leaves i)).length) := by
    intro i hi
    rw [List.getElem?_map, List.getElem?_range hi]; rfl
  congr 1
  rw [hg 0 hP, combineRanks_spec _ (fun i => leafBytes (leaves i)) _ _ (fun i _ hi => hg i (by omega))]
  congr 1
  have e : leafBytes (leaves 0) ++ (List.range' 1 (P - 1)).flatMap (fun i => leafBytes (leaves i)) =
      (List.range P).flatMap fun i => leafBytes (leaves i) := by
    rw [List.range_eq_range']
    obtain ⟨n, rfl⟩ : ∃ n, P = n + 1 := ⟨P - 1, by omega⟩
    rw [List.range'_succ, List.flatMap_cons, Nat.add_sub_cancel]
  rw [e]
  have e2 : (List.range P).flatMap (fun i => leafBytes (leaves i)) = leafBytes (forestLeaves trees) := by
    rw [← hf.forest.split]
    unfold leafBytes
    rw [List.flatMap_assoc]
  rw [e2]
  have e3 : ∀ n (l : List (List (Quad d × α))), leafBytes (tagFrom n l) = (l.flatMap fun l => l.map Prod.fst).flatMap checkWords := by
    intro n l
    induction l generalizing n with
    | nil => rfl
    | cons a l ih =>
      rw [tagFrom, List.flatMap_cons, List.flatMap_append, ← ih (n + 1)]
      unfold leafBytes
      rw [List.flatMap_append, List.flatMap_map, List.flatMap_map]
  rw [forestLeaves, e3]
  apply List.flatMap_congr
  intro q hq
  apply checkWords_eq
  rw [List.mem_flatMap] at hq
  obtain ⟨l, hl, hq⟩ := hq
  have := (hf.forest.complete l hl)
  exact this.valid q hq

/-- C34. Two forests with the same leaves have the same checksum, for any numbers of ranks, any partitions
and any user data. -/
theorem C34_partition_independent (f : Forest d α) (g : Forest d α') (trees : List (List (Quad d × α)))
    (trees' : List (List (Quad d × α'))) (P P' : ℕ) (hP : 0 < P) (hP' : 0 < P')
    (leaves : ℕ → List (ℕ × (Quad d × α))) (leaves' : ℕ → List (ℕ × (Quad d × α')))
    (hf : ForestHolds f trees P leaves) (hg : ForestHolds g trees' P' leaves')
    (hsame : trees.map (·.map Prod.fst) = trees'.map (·.map Prod.fst)) :
    checksum f P = checksum g P' ∧ (checksum f P).isSome := by
  rw [C34_checksum f trees P hP leaves hf, C34_checksum g trees' P' hP' leaves' hg]
  refine ⟨?_, rfl⟩
  have e : (trees.flatMap fun l => l.map Prod.fst) = trees'.flatMap fun l => l.map Prod.fst := by
    rw [List.flatMap_def, hsame, ← List.flatMap_def]
  rw [e]

theorem flatMap_inj_of_length {γ δ : Type} {f g : γ → List δ} {n : ℕ} {l : List γ} (hf : ∀ x ∈ l, (f x).length = n)
    (hg : ∀ x ∈ l, (g x).length = n) (h : l.flatMap f = l.flatMap g) : ∀ x ∈ l, f x = g x := by
  induction l with
  | nil => simp
  | cons a l ih =>
    rw [List.flatMap_cons, List.flatMap_cons] at h
    obtain ⟨h1, h2⟩ := List.append_inj h (by rw [hf a (by simp), hg a (by simp)])
    intro x hx
    rcases List.mem_cons.mp hx with rfl | hx
    · exact h1
    · exact ih (fun x hx => hf x (by simp [hx])) (fun x hx => hg x (by simp [hx])) h2 x hx

theorem bigEndian_inj {m n : ℕ} (h : bigEndian m = bigEndian n) : m = n := by
  unfold bigEndian at h
  simp only [List.cons.injEq, and_true] at h
  omega

theorem leafRecord_length (q : Quad d) : (leafRecord q).length = 4 * (d + 1) := by
  unfold leafRecord
  rw [List.length_append, List.length_flatMap]
  simp [bigEndian]; omega

theorem leafRecord_inj {q r : Quad d} (hq : Valid q) (hr : Valid r) (h : leafRecord q = leafRecord r) : q = r := by
  unfold leafRecord at h
  obtain ⟨h1, h2⟩ := List.append_inj h (by rw [List.length_flatMap, List.length_flatMap]; simp [bigEndian])
  have hl : q.level = r.level := bigEndian_inj h2
  have hc : q.c = r.c := by
    funext i
    have h3 := bigEndian_inj (flatMap_inj_of_length (n := 4) (fun _ _ => rfl) (fun _ _ => rfl) h1 i (List.mem_finRange i))
    have a1 := hq.2.2 i
    have a2 := hr.2.2 i
    rw [hl] at h3
    split at h3
    · rename_i h4
      have hdvd : ∀ s : Quad d, Valid s → s.level = r.level → (2 ^ 11 : ℤ) ∣ s.c i := by
        intro s hs hsl
        refine dvd_trans ?_ (hs.2.1.2 i)
        unfold side
        exact pow_dvd_pow 2 (by omega)
      have b1 := hdvd q hq hl
      have b2 := hdvd r hr rfl
      omega
    · omega
  obtain ⟨qc, ql⟩ := q
  obtain ⟨rc, rl⟩ := r
  simp only at hl hc
  rw [hl, hc]

/-- C34. Nothing is lost before the checksum is taken: the records determine the sequence of the leaves. -/
theorem C34_records_determine_leaves (ls ms : List (Quad d)) (hl : ∀ q ∈ ls, Valid q) (hm : ∀ q ∈ ms, Valid q)
    (h : ls.flatMap leafRecord = ms.flatMap leafRecord) : ls = ms := by
  induction ls generalizing ms with
  | nil =>
    cases ms with
    | nil => rfl
    | cons r ms =>
      have := congrArg List.length h
      rw [List.flatMap_cons, List.length_append, leafRecord_length] at this
      simp at this; omega
  | cons q ls ih =>
    cases ms with
    | nil =>
      have := congrArg List.length h
      rw [List.flatMap_cons, List.length_append, leafRecord_length] at this
      simp at this
    | cons r ms =>
      rw [List.flatMap_cons, List.flatMap_cons] at h
      obtain ⟨h1, h2⟩ := List.append_inj h (by rw [leafRecord_length, leafRecord_length])
      rw [leafRecord_inj (hl q (by simp)) (hm r (by simp)) h1,
        ih ms (fun x hx => hl x (by simp [hx])) (fun x hx => hm x (by simp [hx])) h2]

/-! ### Examples -/

/-- The Adler-32 checksum of "Wikipedia". -/
example : adler32 [87, 105, 107, 105, 112, 101, 100, 105, 97] = 0x11E60398 := by decide +kernel

/-- The forest of five leaves on four ranks, before and after a partition, has the same checksum. -/
example : checksum dataForest 4 = some 272105605 := by decide +kernel

example : (partitionExt id 4 none dataForest false (some (countCalls, fun _ => 1))).bind (fun r => checksum r.1 4) =
    checksum dataForest 4 := by
  obtain ⟨first, -, -, -, -, f', shipped, h2, h3, -⟩ := C31_weighted_partition (by norm_num) id 63
    ⟨fun _ _ h => h, fun _ _ _ => rfl⟩ dataForest dataTrees 4 (by norm_num) dataLeaves dataForest_holds none
    countCalls (fun _ => 1) (fun _ _ _ => Int.natCast_nonneg _) [1, 2, 3, 1, 2] countCalls_weights.symm (by norm_num) (by norm_num)
  rw [h2]
  exact (C34_partition_independent f' dataForest dataTrees dataTrees 4 4 (by norm_num) (by norm_num) _ _ h3 dataForest_holds rfl).1

/-- In 3D both formats of the record are in use. -/
example : leafRecord (⟨![2 ^ 29, 0, 0], 1⟩ : Quad 3) = [0, 4, 0, 0, 0, 0, 0, 0, 0, 0, 0, 0, 0, 0, 0, 1] ∧
    leafRecord (⟨![2 ^ 11, 0, 0], 19⟩ : Quad 3) = [0, 0, 8, 0, 0, 0, 0, 0, 0, 0, 0, 0, 0, 0, 0, 19] := by decide +kernel

end P4est
