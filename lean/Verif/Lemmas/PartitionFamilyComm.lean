import Mathlib.Data.List.Sort
import Verif.Lemmas.PartitionFamily
import Verif.Props.Search

/-! # The communication windows of partition_for_coarsening -/

namespace P4est
open Spec

variable {d : ℕ}

theorem pairwise_eq_of_mem_iff {l₁ l₂ : List ℕ} (h1 : l₁.Pairwise (· < ·)) (h2 : l₂.Pairwise (· < ·))
    (h : ∀ x, x ∈ l₁ ↔ x ∈ l₂) : l₁ = l₂ :=
  List.Pairwise.eq_of_mem_iff h1 h2 (fun x => h x)

theorem filter_range' {q q' : ℕ → Bool} {a k P : ℕ} (h : ∀ i, (a ≤ i ∧ i < a + k ∧ q i = true) ↔ (i < P ∧ q' i = true)) :
    (List.range' a k).filter q = (List.range P).filter q' := by
  apply pairwise_eq_of_mem_iff
  · exact (List.pairwise_lt_range' ..).filter _
  · exact (List.pairwise_lt_range ..).filter _
  · intro x
    rw [List.mem_filter, List.mem_filter, List.mem_range'_1, List.mem_range, ← h x]
    tauto

/-- The two partitions, old and new. -/
structure Cuts (P N C : ℕ) (o n : ℕ → ℕ) (now new : ℕ → ℤ) : Prop where
  omono : Monotone o
  nmono : Monotone n
  o0 : o 0 = 0
  n0 : n 0 = 0
  oP : o P = N
  nP : n P = N
  now : ∀ i, i ≤ P → now i = o i
  new : ∀ i, i ≤ P → new i = n i
  three : 3 ≤ C
  pos : 0 < P

/-- Rank `src` has leaves close to the new cut of rank `dst`. -/
def NearRel (P C : ℕ) (o n : ℕ → ℕ) (src dst : ℕ) : Prop :=
  1 ≤ dst ∧ dst < P ∧ src < P ∧ o src < o (src + 1) ∧ n dst < n (dst + 1) ∧ o src + 2 ≤ n dst + C ∧
    n dst + 1 < o (src + 1) + C

instance (P C : ℕ) (o n : ℕ → ℕ) (src dst : ℕ) : Decidable (NearRel P C o n src dst) := by
  unfold NearRel; infer_instance

theorem nearRelevant_iff {P N C : ℕ} {o n : ℕ → ℕ} {now new : ℕ → ℤ} (h : Cuts P N C o n now new) {src dst : ℕ}
    (hs : src < P) (hd : dst < P) (hne : o src < o (src + 1)) (h1 : 1 ≤ dst) :
    nearRelevant C now new src dst = true ↔ NearRel P C o n src dst := by
  unfold nearRelevant NearRel
  rw [h.new dst hd.le, h.new (dst + 1) hd, h.now src hs.le, h.now (src + 1) hs]
  simp only [Bool.and_eq_true, decide_eq_true_eq]
  have := h.three
  constructor
  · intro h; omega
  · intro h; omega

theorem sendRange_spec {P N C : ℕ} {o n : ℕ → ℕ} {now new : ℕ → ℤ} (h : Cuts P N C o n now new) {r : ℕ}
    (hr : r < P) (hne : o r < o (r + 1)) :
    ∃ b e, sendRange C now new P N r = some (b, e) ∧ 1 ≤ b ∧ e < P ∧
      ∀ i, i < P → n i < n (i + 1) → (b ≤ i ∧ i ≤ e ↔ NearRel P C o n r i) := by
  have h2 := h.three
  have hP := h.pos
  unfold sendRange
  rw [h.now r hr.le, h.now (r + 1) hr]
  split
  · rename_i hc
    refine ⟨1, P - 1, rfl, le_rfl, by omega, fun i hi hni => ?_⟩
    have : n (i + 1) ≤ n P := h.nmono (by omega)
    rw [h.nP] at this
    unfold NearRel
    omega
  · have hs : ((List.range (P - 1)).map fun i => new (i + 1)).Pairwise (· ≤ ·) := by
      rw [List.pairwise_map]
      refine (List.pairwise_lt_range).imp_of_mem ?_
      intro a b ha hb hab
      rw [List.mem_range] at ha hb
      rw [h.new _ (by omega), h.new _ (by omega)]
      exact_mod_cast h.nmono (by omega)
    obtain ⟨i, j, hij, h3, h4, h5, h6⟩ := C25_find_partition_partial _ ((o r : ℤ) - C + 2) ((o (r + 1) : ℤ) - 1 + C) hs (by omega)
    refine ⟨i + 1, j, by simp only [bind, Option.bind]; rw [hij], by omega, ?_, fun k hk hnk => ?_⟩
    · rw [List.length_map, List.length_range] at h4; omega
    · rw [List.length_map, List.length_range] at h4
      rcases Nat.eq_zero_or_pos k with rfl | hpos
      · unfold NearRel; omega
      · have e5 := h5 (k - 1) (by rw [List.length_map, List.length_range]; omega)
        have e6 := h6 (k - 1) (by rw [List.length_map, List.length_range]; omega)
        rw [List.getElem_map, List.getElem_range, Nat.sub_add_cancel hpos, h.new k hk.le] at e5 e6
        unfold NearRel
        constructor
        · rintro ⟨a1, a2⟩
          have := mt e5.mpr (by omega)
          have := e6.mp (by omega)
          omega
        · rintro ⟨a1, a2, a3, a4, a5, a6, a7⟩
          have : ¬ (k - 1 < i) := fun hc => by have := e5.mp hc; omega
          have : k - 1 < j := e6.mpr (by omega)
          omega

theorem sendWindowLoop_spec {P : ℕ} {new : ℕ → ℤ} (k i : ℕ) (hi : i + k ≤ P) (w : NearWindow) :
    ∃ w', sendWindowLoop new P k i w = some w' ∧
      w'.count = w.count + ((List.range' i k).filter fun j => decide (new j < new (j + 1))).length ∧
      min w.lowest i ≤ w'.lowest ∧ w'.lowest ≤ w.lowest ∧ w.highest ≤ w'.highest ∧ w'.highest ≤ max w.highest (i + k - 1) ∧
      ∀ j, i ≤ j → j < i + k → new j < new (j + 1) → w'.lowest ≤ j ∧ (j : ℤ) ≤ w'.highest := by
  induction k generalizing i w with
  | zero =>
    refine ⟨w, rfl, by simp, by omega, le_rfl, le_rfl, by omega, fun j h1 h2 => by omega⟩
  | succ k ih =>
    unfold sendWindowLoop
    rw [if_pos (by omega)]
    by_cases hc : new i < new (i + 1)
    · rw [if_pos hc]
      obtain ⟨w', a1, a2, a3, a4, a5, a6, a7⟩ := ih (i + 1) (by omega) ⟨w.count + 1, min w.lowest i, max w.highest i⟩
      simp only at a2 a3 a4 a5 a6
      refine ⟨w', a1, ?_, by omega, by omega, by omega, by omega, fun j h1 h2 h3 => ?_⟩
      · rw [List.range'_succ, List.filter_cons_of_pos (by simpa using hc), a2, List.length_cons]; push_cast; ring
      · rcases Nat.eq_or_lt_of_le h1 with rfl | hlt
        · omega
        · exact a7 j hlt (by omega) h3
    · rw [if_neg hc]
      obtain ⟨w', a1, a2, a3, a4, a5, a6, a7⟩ := ih (i + 1) (by omega) w
      refine ⟨w', a1, ?_, by omega, by omega, by omega, by omega, fun j h1 h2 h3 => ?_⟩
      · rw [List.range'_succ, List.filter_cons_of_neg (by simpa using hc), a2]
      · rcases Nat.eq_or_lt_of_le h1 with rfl | hlt
        · exact absurd h3 hc
        · exact a7 j hlt (by omega) h3

theorem sendLoop_spec {C : ℤ} {now new : ℕ → ℤ} {rt : RankTrees (Quad d)} {r : ℕ} {count : ℤ} {msg : ℕ → Near d}
    (k i : ℕ) (acc : List (ℕ × Near d))
    (hmsg : ∀ j, i ≤ j → j < i + k → nearRelevant C now new r j = true →
      nearMessage C rt (now r) (now (r + 1)) (new j) = some (msg j))
    (hroom : acc.length + ((List.range' i k).filter (nearRelevant C now new r)).length ≤ count) :
    sendLoop C now new rt r count k i acc =
      some (acc ++ ((List.range' i k).filter (nearRelevant C now new r)).map fun j => (j, msg j)) := by
  induction k generalizing i acc with
  | zero => simp [sendLoop]
  | succ k ih =>
    unfold sendLoop
    rw [List.range'_succ] at hroom ⊢
    by_cases hc : nearRelevant C now new r i = true
    · rw [List.filter_cons_of_pos hc, List.length_cons] at hroom
      rw [if_pos hc, if_pos (by push_cast at hroom; omega)]
      simp only [bind, Option.bind]
      rw [hmsg i le_rfl (by omega) hc]
      simp only
      rw [ih (i + 1) _ (fun j h1 h2 => hmsg j (by omega) (by omega)) (by rw [List.length_append, List.length_singleton]; push_cast at hroom ⊢; omega),
        List.filter_cons_of_pos hc]
      simp
    · rw [List.filter_cons_of_neg hc] at hroom
      rw [if_neg hc, ih (i + 1) _ (fun j h1 h2 => hmsg j (by omega) (by omega)) hroom, List.filter_cons_of_neg hc]

/-- The messages that a rank sends. -/
theorem nearSends_spec {P N C : ℕ} {o n : ℕ → ℕ} {now new : ℕ → ℤ} (h : Cuts P N C o n now new) {r : ℕ} (hr : r < P)
    {rt : RankTrees (Quad d)} {msg : ℕ → Near d}
    (hmsg : ∀ j, NearRel P C o n r j → nearMessage C rt (o r) (o (r + 1)) (n j) = some (msg j)) :
    nearSends C now new P N rt r =
      some (((List.range P).filter fun j => decide (NearRel P C o n r j)).map fun j => (j, msg j)) := by
  have hP := h.pos
  unfold nearSends sendWindow
  rw [h.now r hr.le, h.now (r + 1) hr]
  by_cases hne : o r < o (r + 1)
  · rw [if_pos (by exact_mod_cast hne)]
    obtain ⟨b, e, s1, s2, s3, s4⟩ := sendRange_spec h hr hne
    simp only [bind, Option.bind]
    rw [s1]
    simp only
    rcases Nat.lt_or_ge e b with heb | heb
    · rw [show e + 1 - b = 0 by omega]
      simp only [sendWindowLoop]
      rw [if_neg (by simp)]
      rw [List.filter_eq_nil_iff.mpr]
      · rfl
      · intro i hi
        rw [List.mem_range] at hi
        simp only [decide_eq_true_eq]
        intro hc
        have := (s4 i hi hc.2.2.2.2.1).mpr hc
        omega
    · obtain ⟨w, a1, a2, a3, a4, a5, a6, a7⟩ := sendWindowLoop_spec (new := new) (e + 1 - b) b (show b + (e + 1 - b) ≤ P by omega) ⟨0, P, 0⟩
      rw [a1]
      simp only at a2 a3 a4 a5 a6 ⊢
      have hnewlt : ∀ i, i < P → (new i < new (i + 1) ↔ n i < n (i + 1)) := by
        intro i hi
        rw [h.new i hi.le, h.new (i + 1) hi]; omega
      have hfil : (List.range' b (e + 1 - b)).filter (fun j => decide (new j < new (j + 1))) =
          (List.range P).filter fun j => decide (NearRel P C o n r j) := by
        apply filter_range'
        intro i
        simp only [decide_eq_true_eq]
        constructor
        · rintro ⟨h1, h2, h3⟩
          have hi : i < P := by omega
          rw [hnewlt i hi] at h3
          exact ⟨hi, (s4 i hi h3).mp ⟨h1, by omega⟩⟩
        · rintro ⟨hi, h1⟩
          have h3 := h1.2.2.2.2.1
          have := (s4 i hi h3).mpr h1
          exact ⟨this.1, by omega, (hnewlt i hi).mpr h3⟩
      rw [hfil, zero_add] at a2
      by_cases hcnt : w.count > 0
      · rw [if_pos hcnt]
        have hlow : 1 ≤ w.lowest := by omega
        have hhigh : w.highest < P := by omega
        have hhigh0 : 0 ≤ w.highest := by omega
        have hmem : ∀ i, NearRel P C o n r i → w.lowest ≤ i ∧ (i : ℤ) ≤ w.highest := by
          intro i hi
          have hiP := hi.2.1
          have h3 := hi.2.2.2.2.1
          have := (s4 i hiP h3).mpr hi
          exact a7 i this.1 (by omega) ((hnewlt i hiP).mpr h3)
        have hfil2 : (List.range' w.lowest.toNat (w.highest + 1 - w.lowest).toNat).filter (nearRelevant C now new r) =
            (List.range P).filter fun j => decide (NearRel P C o n r j) := by
          apply filter_range'
          intro i
          simp only [decide_eq_true_eq]
          constructor
          · rintro ⟨h1, h2, h3⟩
            have hi : i < P := by omega
            exact ⟨hi, (nearRelevant_iff h hr hi hne (by omega)).mp h3⟩
          · rintro ⟨hi, h1⟩
            have := hmem i h1
            exact ⟨by omega, by omega, (nearRelevant_iff h hr hi hne (by omega)).mpr h1⟩
        rw [sendLoop_spec (msg := msg)]
        · simp only
          rw [hfil2, List.nil_append, if_pos (by rw [List.length_map, a2])]
        · intro j h1 h2 h3
          have hj : j < P := by omega
          have hrel := (nearRelevant_iff h hr hj hne (by omega)).mp h3
          rw [h.now r hr.le, h.now (r + 1) hr, h.new j hj.le]
          exact hmsg j hrel
        · rw [hfil2, a2]; simp
      · rw [if_neg hcnt]
        have : ((List.range P).filter fun j => decide (NearRel P C o n r j)) = [] := by
          rw [← List.length_eq_zero_iff]; omega
        rw [this]; rfl
  · rw [if_neg (by exact_mod_cast hne)]
    simp only [bind, Option.bind]
    rw [if_neg (by simp), List.filter_eq_nil_iff.mpr]
    · rfl
    · intro i hi
      simp only [decide_eq_true_eq]
      intro hc
      exact hne hc.2.2.2.1

/-! ### Receiving -/

/-- The read in front of the array does no harm: either the memory there holds a nonnegative number or
it is not read. -/
def UnderOk (under : Option ℤ) (N C cut : ℕ) : Prop :=
  (∃ u, under = some u ∧ 0 ≤ u) ∨ C ≤ cut + 1 ∨ N + 2 ≤ cut + C

theorem recvRange_spec {P N C : ℕ} {o n : ℕ → ℕ} {now new : ℕ → ℤ} (h : Cuts P N C o n now new) {r : ℕ}
    (hr : r < P) (hne : n r < n (r + 1)) :
    ∃ b e : ℤ, recvRange C now new P N r = some (b, e) ∧ -1 ≤ b ∧ b ≤ P ∧ 0 ≤ e ∧
      (b = -1 → n r + 1 < C ∧ n r + C < N + 2) ∧
      (∀ i : ℕ, i < P → o i < o (i + 1) → (b ≤ i ↔ n r + 1 < o (i + 1) + C)) ∧
      (∀ j : ℕ, j < P → (j : ℤ) ≤ e → o j + 2 ≤ n r + C) ∧
      ((∀ j : ℕ, j < P → e < j → n r + C < o j + 2) ∨
        (b ≤ e ∧ ∃ y : ℕ, e = y ∧ y < P ∧ o y + 2 = n r + C)) := by
  have h3 := h.three
  have hP := h.pos
  have hnN : n (r + 1) ≤ N := h.nP ▸ h.nmono (show r + 1 ≤ P by omega)
  unfold recvRange
  rw [h.new r hr.le]
  split
  · rename_i hc
    refine ⟨0, (P : ℤ) - 1, rfl, by omega, by omega, by omega, by omega, fun i hi hoi => ?_, fun j hj hje => ?_, Or.inl fun j hj hje => by omega⟩
    · constructor
      · intro _; omega
      · intro _; omega
    · have : o j ≤ N := h.oP ▸ h.omono hj.le
      omega
  · rename_i hnc
    have hs : ((List.range P).map now).Pairwise (· ≤ ·) := by
      rw [List.pairwise_map]
      refine (List.pairwise_lt_range).imp_of_mem ?_
      intro a b ha hb hab
      rw [List.mem_range] at ha hb
      rw [h.now _ (by omega), h.now _ (by omega)]
      exact_mod_cast h.omono (by omega)
    obtain ⟨x, y, hxy, h4, h5, h6, h7⟩ := C25_find_partition_partial _ ((n r : ℤ) - C + 1) ((n r : ℤ) + C - 2) hs (by omega)
    rw [List.length_map, List.length_range] at h5
    have hx : ∀ k, k < P → (k < x ↔ (o k : ℤ) < (n r : ℤ) - C + 1) := by
      intro k hk
      have := h6 k (by rw [List.length_map, List.length_range]; exact hk)
      rwa [List.getElem_map, List.getElem_range, h.now k hk.le] at this
    have hy : ∀ k, k < P → (k < y ↔ (o k : ℤ) < (n r : ℤ) + C - 2) := by
      intro k hk
      have := h7 k (by rw [List.length_map, List.length_range]; exact hk)
      rwa [List.getElem_map, List.getElem_range, h.now k hk.le] at this
    have hy1 : 1 ≤ y := (hy 0 hP).mpr (by rw [h.o0]; omega)
    have hxP : x ≤ P := by omega
    simp only [bind, Option.bind]
    rw [hxy]
    simp only
    rw [if_pos ⟨hxP, h5⟩, h.now x hxP, h.now y h5]
    have hoxP : x = P → o x = N := fun e => by rw [e, h.oP]
    have hoyP : y = P → o y = N := fun e => by rw [e, h.oP]
    refine ⟨_, _, rfl, ?_, ?_, ?_, ?_, ?_, ?_, ?_⟩
    · split <;> omega
    · split <;> omega
    · split <;> omega
    · intro hb
      split at hb
      · omega
      · rename_i hc
        have hx0 : x = 0 := by omega
        rw [hx0, h.o0] at hc
        have := (hx 0 hP).not.mp (by omega)
        rw [h.o0] at this
        omega
    · intro i hi hoi
      have hle1 : i + 1 ≤ x → o (i + 1) ≤ o x := fun h' => h.omono h'
      have hle2 : x ≤ i + 1 → o x ≤ o (i + 1) := fun h' => h.omono h'
      have hle3 : x ≤ i → o x ≤ o i := fun h' => h.omono h'
      have hxi := hx i hi
      have hxi1 : i + 1 < P → (i + 1 < x ↔ (o (i + 1) : ℤ) < (n r : ℤ) - C + 1) := hx (i + 1)
      have hi1P : i + 1 = P → o (i + 1) = N := fun e => by rw [e, h.oP]
      have hxx : x < P → ¬ ((o x : ℤ) < (n r : ℤ) - C + 1) := fun hlt => (hx x hlt).not.mp (by omega)
      split
      · rename_i hc
        constructor
        · intro hle
          have := hle3 (by omega)
          omega
        · intro hlt
          by_contra hcon
          have := hle1 (by omega)
          omega
      · rename_i hc
        constructor
        · intro hle
          have := hle2 (by omega)
          rcases Nat.lt_or_ge x P with hxlt | hxge
          · have := hxx hxlt; omega
          · have := hoxP (by omega); omega
        · intro hlt
          by_contra hcon
          rcases Nat.lt_or_ge (i + 1) P with h8 | h8
          · have := (hxi1 h8).mp (by omega); omega
          · omega
    · intro j hj hje
      have := hy j hj
      split at hje
      · omega
      · rename_i hc
        push Not at hc
        rcases Nat.lt_or_ge j y with hlt | hge
        · omega
        · have : j = y := by omega
          subst this; omega
    · split
      · rename_i hc
        left
        intro j hj hje
        have h8 : o y ≤ o j := h.omono (by omega)
        have := (hy j hj).not.mp (by omega)
        have h9 := (hy y (by omega)).not.mp (by omega)
        omega
      · rename_i hc
        push Not at hc
        rcases Nat.lt_or_ge y P with hlt | hge
        · right
          refine ⟨?_, y, rfl, hlt, by omega⟩
          split <;> omega
        · left
          intro j hj hje; omega

theorem readNow_eq {P N C : ℕ} {o n : ℕ → ℕ} {now new : ℕ → ℤ} (h : Cuts P N C o n now new) (under : Option ℤ) {i : ℕ}
    (hi : i ≤ P) : readNow now under P (i : ℤ) = some (o i : ℤ) := by
  unfold readNow
  rw [if_neg (by omega), if_pos (by omega), Int.toNat_natCast, h.now i hi]

/-- Counting the ranks of a list. -/
def recvFold (o : ℕ → ℕ) (cut : ℤ) (l : List ℕ) (s : RecvWindow) : RecvWindow :=
  l.foldl (fun s (j : ℕ) => recvCount cut j (o j) (o (j + 1)) s) s

theorem recvLoop_spec {P N C : ℕ} {o n : ℕ → ℕ} {now new : ℕ → ℤ} (h : Cuts P N C o n now new) (under : Option ℤ)
    (cut : ℤ) (hi k i : ℕ) (hik : i + k = P) (e : ℤ) (s : RecvWindow)
    (hE1 : ∀ j : ℕ, j < P → (j : ℤ) ≤ e → o j ≤ hi)
    (hE2 : (∀ j : ℕ, j < P → e < j → hi < o j) ∨ ((i : ℤ) ≤ e ∧ ∃ y : ℕ, e = y ∧ y < P ∧ o y = hi)) :
    recvLoop now under P cut k i e s =
      some (recvFold o cut ((List.range' i k).filter fun j => decide (o j < o (j + 1) ∧ o j ≤ hi)) s) := by
  induction k generalizing i e s with
  | zero => simp [recvLoop, recvFold]
  | succ k ih =>
    have hii : o i ≤ o (i + 1) := h.omono (by omega)
    have hnext : ∀ j, i + 1 ≤ j → o (i + 1) ≤ o j := fun j hj => h.omono hj
    unfold recvLoop
    by_cases hle : (i : ℤ) ≤ min e ((P : ℤ) - 1)
    · rw [if_pos hle]
      simp only [bind, Option.bind]
      rw [readNow_eq h under (show i ≤ P by omega)]
      simp only
      rw [show (i : ℤ) + 1 = ((i + 1 : ℕ) : ℤ) by push_cast; ring, readNow_eq h under (show i + 1 ≤ P by omega)]
      simp only
      rw [List.range'_succ]
      have hoi := hE1 i (by omega) (by omega)
      by_cases hlt : o i < o (i + 1)
      · rw [if_pos (by exact_mod_cast hlt), ih (i + 1) (by omega) e _ hE1, List.filter_cons_of_pos (by simp [hlt, hoi])]
        · rfl
        · rcases hE2 with h1 | ⟨h1, y, h2, h4, h5⟩
          · exact Or.inl h1
          · rcases lt_or_eq_of_le h1 with h6 | h6
            · exact Or.inr ⟨by push_cast; omega, y, h2, h4, h5⟩
            · left
              intro j hj hje
              have : y = i := by omega
              subst this
              have := hnext j (by omega)
              omega
      · rw [if_neg (by exact_mod_cast hlt), List.filter_cons_of_neg (by simp; omega)]
        have heq : o (i + 1) = o i := by omega
        by_cases hie : (i : ℤ) = e
        · rw [if_pos ⟨hie, by rw [heq]⟩, ih (i + 1) (by omega)]
          · intro j hj hje
            rcases Nat.lt_or_ge i j with h1 | h1
            · have : j = i + 1 := by omega
              rw [this, heq]; exact hoi
            · exact hE1 j hj (by omega)
          · rcases hE2 with h1 | ⟨h1, y, h2, h4, h5⟩
            · exact Or.inl fun j hj hje => h1 j hj (by omega)
            · have : y = i := by omega
              subst this
              rcases Nat.lt_or_ge (y + 1) P with h6 | h6
              · exact Or.inr ⟨by push_cast; omega, y + 1, by push_cast; omega, h6, by rw [heq, h5]⟩
              · exact Or.inl fun j hj hje => by omega
        · rw [if_neg (by tauto), ih (i + 1) (by omega) e _ hE1]
          rcases hE2 with h1 | ⟨h1, y, h2, h4, h5⟩
          · exact Or.inl h1
          · exact Or.inr ⟨by push_cast; omega, y, h2, h4, h5⟩
    · rw [if_neg hle, List.filter_eq_nil_iff.mpr]
      · rfl
      · intro j hj
        rw [List.mem_range'_1] at hj
        simp only [decide_eq_true_eq]
        rcases hE2 with h1 | ⟨h1, y, h2, h4, h5⟩
        · have := h1 j (by omega) (by omega)
          omega
        · omega

theorem recvFold_bounds (o : ℕ → ℕ) (cut : ℤ) (l : List ℕ) (s : RecvWindow) (P : ℕ) (hl : ∀ j ∈ l, j < P) (hs : 0 ≤ s.lowest)
    (hs' : s.highest < P) :
    (recvFold o cut l s).count = s.count + l.length ∧ 0 ≤ (recvFold o cut l s).lowest ∧
      (recvFold o cut l s).lowest ≤ s.lowest ∧ s.highest ≤ (recvFold o cut l s).highest ∧
      (recvFold o cut l s).highest < P ∧
      ∀ j ∈ l, (recvFold o cut l s).lowest ≤ j ∧ (j : ℤ) ≤ (recvFold o cut l s).highest := by
  induction l generalizing s with
  | nil => exact ⟨by simp [recvFold], hs, le_rfl, le_rfl, hs', fun j hj => by simp at hj⟩
  | cons j l ih =>
    have hj := hl j (by simp)
    have e : recvFold o cut (j :: l) s = recvFold o cut l (recvCount cut j (o j) (o (j + 1)) s) := rfl
    have c1 : (recvCount cut j (o j) (o (j + 1)) s).count = s.count + 1 := rfl
    have c2 : (recvCount cut j (o j) (o (j + 1)) s).lowest = min s.lowest j := rfl
    have c3 : (recvCount cut j (o j) (o (j + 1)) s).highest = max s.highest j := rfl
    rw [e]
    generalize recvCount cut j (o j) (o (j + 1)) s = s1 at c1 c2 c3
    obtain ⟨h1, h2, h3, h4, h5, h6⟩ := ih s1 (fun k hk => hl k (by simp [hk])) (by omega) (by omega)
    refine ⟨by rw [List.length_cons]; push_cast; linarith, h2, by omega, by omega, h5, ?_⟩
    intro k hk
    rcases List.mem_cons.mp hk with rfl | hk
    · omega
    · exact h6 k hk

theorem recvFold_nocut (o : ℕ → ℕ) (cut : ℤ) (l : List ℕ) (s : RecvWindow)
    (hl : ∀ j ∈ l, ¬ ((o j : ℤ) ≤ cut ∧ cut < (o (j + 1) : ℤ))) :
    (recvFold o cut l s).cutProc = s.cutProc ∧ (recvFold o cut l s).cutId = s.cutId := by
  induction l generalizing s with
  | nil => exact ⟨rfl, rfl⟩
  | cons j l ih =>
    have e : recvFold o cut (j :: l) s = recvFold o cut l (recvCount cut j (o j) (o (j + 1)) s) := rfl
    obtain ⟨h1, h2⟩ := ih (recvCount cut j (o j) (o (j + 1)) s) (fun k hk => hl k (by simp [hk]))
    have := hl j (by simp)
    rw [e, h1, h2]
    simp only [recvCount]
    rw [if_neg this, if_neg this]
    exact ⟨rfl, rfl⟩

theorem postLoop_spec {P N C : ℕ} {o n : ℕ → ℕ} {now new : ℕ → ℤ} (h : Cuts P N C o n now new) (under : Option ℤ)
    (cut count : ℤ) (k i : ℕ) (hik : i + k ≤ P) (acc : List ℤ)
    (hroom : acc.length + ((List.range' i k).filter fun j => recvRelevant C cut (o j) (o (j + 1))).length ≤ count) :
    postLoop C now under P cut count k i acc =
      some (acc ++ ((List.range' i k).filter fun j => recvRelevant C cut (o j) (o (j + 1))).map fun (j : ℕ) => (j : ℤ)) := by
  induction k generalizing i acc with
  | zero => simp [postLoop]
  | succ k ih =>
    unfold postLoop
    simp only [bind, Option.bind]
    rw [readNow_eq h under (show i ≤ P by omega)]
    simp only
    rw [show (i : ℤ) + 1 = ((i + 1 : ℕ) : ℤ) by push_cast; ring, readNow_eq h under (show i + 1 ≤ P by omega)]
    simp only
    rw [List.range'_succ] at hroom ⊢
    set f : ℕ → Bool := fun j => recvRelevant C cut (o j) (o (j + 1)) with hf
    by_cases hc : f i = true
    · rw [List.filter_cons_of_pos hc, List.length_cons] at hroom
      rw [if_pos (show recvRelevant C cut (o i) (o (i + 1)) = true from hc), if_pos (by push_cast at hroom; omega),
        ih (i + 1) (by omega) _ (by rw [List.length_append, List.length_singleton]; push_cast at hroom ⊢; omega),
        List.filter_cons_of_pos hc]
      simp
    · rw [List.filter_cons_of_neg hc] at hroom
      rw [if_neg (show ¬ recvRelevant C cut (o i) (o (i + 1)) = true from hc), ih (i + 1) (by omega) _ hroom, List.filter_cons_of_neg hc]

/-- What a rank receives. -/
theorem recv_spec {P N C : ℕ} {o n : ℕ → ℕ} {now new : ℕ → ℤ} (h : Cuts P N C o n now new) {under : Option ℤ} {r : ℕ}
    (hr : r < P) (hr1 : 1 ≤ r) (hne : n r < n (r + 1)) (hu : UnderOk under N C (n r)) :
    ∃ (w : RecvWindow) (c : ℕ) (l1 l2 : List ℕ), recvWindow C now new under P N r = some w ∧
      (List.range P).filter (fun j => decide (NearRel P C o n j r)) = l1 ++ c :: l2 ∧ c < P ∧
      o c ≤ n r ∧ n r < o (c + 1) ∧ w.cutProc = c ∧ w.cutId = l1.length ∧ 0 < w.count ∧
      posted C now new under P r w = some ((l1 ++ c :: l2).map fun (j : ℕ) => (j : ℤ)) := by
  have h3 := h.three
  have hP := h.pos
  have hnN : n (r + 1) ≤ N := h.nP ▸ h.nmono (show r + 1 ≤ P by omega)
  obtain ⟨b, e, s1, s2, s3, s4, s5, s6, s7, s8⟩ := recvRange_spec h hr hne
  -- the rank with the cut
  obtain ⟨c, hcP, hc1, hc2⟩ : ∃ c, c < P ∧ o c ≤ n r ∧ n r < o (c + 1) := by
    have hex : ∃ c, n r < o (c + 1) := ⟨P - 1, by rw [Nat.sub_add_cancel hP, h.oP]; omega⟩
    classical
    refine ⟨Nat.find hex, ?_, ?_, Nat.find_spec hex⟩
    · have := Nat.find_min' hex (m := P - 1) (by rw [Nat.sub_add_cancel hP, h.oP]; omega)
      omega
    · rcases Nat.eq_zero_or_pos (Nat.find hex) with h0 | h0
      · rw [h0, h.o0]; omega
      · have := Nat.find_min hex (m := Nat.find hex - 1) (by omega)
        rw [Nat.sub_add_cancel h0] at this
        omega
  have hwin : ∃ b' : ℕ, recvWindow C now new under P N r = some (recvFold o (n r)
      ((List.range' b' (P - b')).filter fun j => decide (o j < o (j + 1) ∧ o j ≤ n r + C - 2)) ⟨0, P, 0, -1, -1⟩) ∧ b' ≤ P ∧
      ∀ i : ℕ, i < P → o i < o (i + 1) → (b' ≤ i ↔ n r + 1 < o (i + 1) + C) := by
    have hE1 : ∀ j : ℕ, j < P → (j : ℤ) ≤ e → o j ≤ n r + C - 2 := fun j hj hje => by have := s7 j hj hje; omega
    have hloop : ∀ b' : ℕ, (b' : ℤ) = max b 0 → recvLoop now under P (n r) (P - b') b' e ⟨0, P, 0, -1, -1⟩ = some (recvFold o (n r)
      ((List.range' b' (P - b')).filter fun j => decide (o j < o (j + 1) ∧ o j ≤ n r + C - 2)) ⟨0, P, 0, -1, -1⟩) := by
      intro b' hb'
      apply recvLoop_spec h under (n r) (n r + C - 2) (P - b') b' (by omega) e _ hE1
      rcases s8 with h1 | ⟨h1, y, h2, h4, h5⟩
      · exact Or.inl fun j hj hje => by have := h1 j hj hje; omega
      · exact Or.inr ⟨by omega, y, h2, h4, by omega⟩
    unfold recvWindow
    rw [if_pos ⟨by omega, by rw [h.new r hr.le, h.new (r + 1) hr]; exact_mod_cast hne⟩]
    simp only [bind, Option.bind]
    rw [s1]
    simp only
    rw [h.new r hr.le]
    rcases lt_or_eq_of_le s2 with hb | hb
    · refine ⟨b.toNat, ?_, by omega, fun i hi hoi => ?_⟩
      · have := hloop b.toNat (by omega)
        rw [show ((P : ℤ) - b).toNat = P - b.toNat by omega, show b = ((b.toNat : ℕ) : ℤ) by omega]
        exact this
      · rw [← s6 i hi hoi]; omega
    · refine ⟨0, ?_, by omega, fun i hi hoi => ?_⟩
      · have hx := s5 hb.symm
        rcases hu with ⟨u, hu1, hu2⟩ | hu | hu
        · rw [show ((P : ℤ) - b).toNat = P + 1 by omega, ← hb]
          unfold recvLoop
          rw [if_pos (by omega)]
          simp only [bind, Option.bind]
          have e1 : readNow now under P (-1) = some u := by unfold readNow; rw [if_pos rfl, hu1]
          have e2 : readNow now under P (-1 + 1) = some 0 := by
            have := readNow_eq h under (Nat.zero_le P)
            rw [h.o0] at this
            exact this
          rw [e1]
          simp only
          rw [e2]
          simp only
          rw [if_neg (by omega), if_neg (by omega)]
          exact hloop 0 (by omega)
        · omega
        · omega
      · rw [← s6 i hi hoi]; omega
  obtain ⟨b', w1, w2, w3⟩ := hwin
  have hfil : (List.range' b' (P - b')).filter (fun j => decide (o j < o (j + 1) ∧ o j ≤ n r + C - 2)) =
      (List.range P).filter fun j => decide (NearRel P C o n j r) := by
    apply filter_range'
    intro i
    simp only [decide_eq_true_eq]
    constructor
    · rintro ⟨h1, h2, h4, h5⟩
      have hi : i < P := by omega
      have := (w3 i hi h4).mp h1
      exact ⟨hi, hr1, hr, hi, h4, hne, by omega, this⟩
    · rintro ⟨hi, -, -, -, h4, -, h5, h6⟩
      have := (w3 i hi h4).mpr h6
      exact ⟨this, by omega, h4, by omega⟩
  rw [hfil] at w1
  set l := (List.range P).filter fun j => decide (NearRel P C o n j r) with hl
  have hcl : c ∈ l := by
    rw [hl, List.mem_filter, List.mem_range]
    simp only [decide_eq_true_eq]
    exact ⟨hcP, hr1, hr, hcP, by omega, hne, by omega, by omega⟩
  obtain ⟨l1, l2, hsplit⟩ := List.append_of_mem hcl
  have hnd : l.Nodup := (List.nodup_range).filter _
  have huniq : ∀ j ∈ l, j ≠ c → ¬ ((o j : ℤ) ≤ n r ∧ (n r : ℤ) < (o (j + 1) : ℤ)) := by
    intro j hj hjc hcon
    rcases Nat.lt_or_gt_of_ne hjc with hlt | hlt
    · have : o (j + 1) ≤ o c := h.omono hlt; omega
    · have : o (c + 1) ≤ o j := h.omono hlt; omega
  rw [hsplit, List.nodup_append] at hnd
  have hnd2 := (List.nodup_cons.mp hnd.2.1).1
  obtain ⟨f1, f2, f3, f4, f5, f6⟩ := recvFold_bounds o (n r) l ⟨0, P, 0, -1, -1⟩ P
    (fun j hj => by rw [hl, List.mem_filter, List.mem_range] at hj; exact hj.1) (by simp) (by simp only; omega)
  simp only [zero_add] at f1 f3 f4
  have hcut : (recvFold o (n r) l ⟨0, P, 0, -1, -1⟩).cutProc = c ∧ (recvFold o (n r) l ⟨0, P, 0, -1, -1⟩).cutId = l1.length := by
    have e1 : recvFold o (n r) l ⟨0, P, 0, -1, -1⟩ = recvFold o (n r) l2 (recvCount (n r) c (o c) (o (c + 1)) (recvFold o (n r) l1 ⟨0, P, 0, -1, -1⟩)) := by
      rw [hsplit]; unfold recvFold; rw [List.foldl_append]; rfl
    obtain ⟨g1, g2⟩ := recvFold_nocut o (n r) l2 (recvCount (n r) c (o c) (o (c + 1)) (recvFold o (n r) l1 ⟨0, P, 0, -1, -1⟩))
      (fun j hj => huniq j (by rw [hsplit]; simp [hj]) (fun hc => hnd2 (hc ▸ hj)))
    rw [e1, g1, g2]
    simp only [recvCount]
    rw [if_pos (by omega), if_pos (by omega)]
    refine ⟨rfl, ?_⟩
    have := (recvFold_bounds o (n r) l1 ⟨0, P, 0, -1, -1⟩ P
      (fun j hj => by
        have : j ∈ l := by rw [hsplit]; simp [hj]
        rw [hl, List.mem_filter, List.mem_range] at this; exact this.1) (by simp) (by simp only; omega)).1
    simpa using this
  refine ⟨_, c, l1, l2, w1, hsplit, hcP, hc1, hc2, hcut.1, hcut.2, ?_, ?_⟩
  · rw [f1, hsplit]; simp; omega
  · unfold posted
    have hpos : (recvFold o (n r) l ⟨0, P, 0, -1, -1⟩).count > 0 := by rw [f1, hsplit]; simp; omega
    rw [if_pos hpos, h.new r hr.le]
    set w := recvFold o (n r) l ⟨0, P, 0, -1, -1⟩ with hw
    have hfil2 : (List.range' w.lowest.toNat (w.highest + 1 - w.lowest).toNat).filter (fun j => recvRelevant C (n r) (o j) (o (j + 1))) = l := by
      rw [hl]
      apply filter_range'
      intro i
      unfold recvRelevant
      simp only [decide_eq_true_eq, Bool.and_eq_true]
      constructor
      · rintro ⟨h1, h2, h4⟩
        exact ⟨by omega, hr1, hr, by omega, by omega, hne, by omega, by omega⟩
      · rintro ⟨hi, h1⟩
        have := f6 i (by rw [hl, List.mem_filter, List.mem_range]; simp only [decide_eq_true_eq]; exact ⟨hi, h1⟩)
        obtain ⟨-, -, -, h4, -, h5, h6⟩ := h1
        exact ⟨by omega, by omega, by omega⟩
    have hpl := postLoop_spec h under (n r) w.count (w.highest + 1 - w.lowest).toNat w.lowest.toNat (by omega) []
      (by rw [hfil2, f1]; simp)
    rw [hfil2, List.nil_append] at hpl
    rw [show ((w.lowest.toNat : ℕ) : ℤ) = w.lowest by omega] at hpl
    simp only [bind, Option.bind]
    rw [hpl]
    simp only
    rw [if_pos (by rw [List.length_map, f1]), ← hsplit]

end P4est
