import Mathlib.Order.Interval.Finset.Nat
import Verif.Lemmas.RepartitionFill
import Verif.Props.Partition

/-! # C30: moving leaves to a given partition -/

namespace P4est
open Spec

variable {d : ℕ} {α : Type}

/-- A forest of complete trees whose leaves carry user data, distributed among the ranks. -/
structure Spec.DataForest (trees : List (List (Quad d × α))) (numProcs : ℕ)
    (leaves : ℕ → List (ℕ × (Quad d × α))) : Prop where
  complete : ∀ l ∈ trees, TreeComplete (l.map Prod.fst)
  someTree : trees ≠ []
  split : (List.range numProcs).flatMap leaves = forestLeaves trees

/-- Forget the user data. -/
def Spec.bare (L : List (ℕ × (Quad d × α))) : List (ℕ × Quad d) := L.map fun x => (x.1, x.2.1)

theorem tagFrom_map {γ δ : Type} (f : γ → δ) (n : ℕ) (ls : List (List γ)) :
    tagFrom n (ls.map (·.map f)) = (tagFrom n ls).map fun x => (x.1, f x.2) := by
  induction ls generalizing n with
  | nil => rfl
  | cons l ls ih => simp [tagFrom, ih, Function.comp_def]

theorem Spec.DataForest.distributed {trees : List (List (Quad d × α))} {P : ℕ} {leaves : ℕ → List (ℕ × (Quad d × α))}
    (h : DataForest trees P leaves) :
    Distributed (trees.map (·.map Prod.fst)) P (fun p => bare (leaves p)) where
  complete l hl := by
    obtain ⟨l', h1, rfl⟩ := List.mem_map.mp hl
    exact h.complete l' h1
  someTree := by simpa using h.someTree
  split := by
    rw [forestLeaves, tagFrom_map, ← forestLeaves, ← h.split, List.map_flatMap]; rfl

/-- The trees of `global_first_position` are those of the first leaves. -/
theorem gfpTree_spec (hd : 0 < d) {trees : List (List (Quad d))} {P : ℕ} {leaves : ℕ → List (ℕ × Quad d)}
    (h : Distributed trees P leaves) :
    ∃ F : ℕ → ℕ, (∀ p, p ≤ P → ((globalPartition leaves P trees.length).map GPos.tree)[p]? = some (F p : ℤ)) ∧
      (∀ p, p < P → F p ≤ F (p + 1)) ∧ (∀ p, p < P → ∀ x ∈ leaves p, F p ≤ x.1 ∧ x.1 ≤ F (p + 1)) ∧
      (∀ p, p < P → ∀ x rest, leaves p = x :: rest → F p = x.1) := by
  obtain ⟨s, hs⟩ := h.segments hd
  have hdiv : ∀ t c, c < 2 ^ (d * 30) → (t * 2 ^ (d * 30) + c) / 2 ^ (d * 30) = t := by
    intro t c hc
    rw [Nat.mul_comm, Nat.mul_add_div (by positivity), Nat.div_eq_of_lt hc, Nat.add_zero]
  have hF : ∀ p, p ≤ P → ((globalPartition leaves P trees.length).map GPos.tree)[p]? = some ((s p / 2 ^ (d * 30) : ℕ) : ℤ) := by
    intro p hp
    obtain ⟨g, h1, t, h2, h3, h4⟩ := globalPartition_at hd hs p hp
    rw [List.getElem?_map, h1, Option.map_some, h2, ← h4, hdiv _ _ (curve_lt_of_inTree h3)]
  have hleaf : ∀ p, p < P → ∀ x ∈ leaves p, Valid x.2 := fun p hp x hx => (hs.leaf p hp x hx).2
  have hgs : ∀ p, p < P → ∀ x ∈ leaves p, gstart x / 2 ^ (d * 30) = x.1 := by
    intro p hp x hx
    have h1 := valid_stop_le hd (hleaf p hp x hx)
    have h2 := start_lt_stop x.2
    exact hdiv _ _ (by omega)
  refine ⟨fun p => s p / 2 ^ (d * 30), hF, fun p hp => Nat.div_le_div_right (hs.mono (by omega) (by omega)), ?_, ?_⟩
  · intro p hp x hx
    have h1 := (hs.path p hp).mem hx
    have h2 := gstart_lt_gstop x
    rw [← hgs p hp x hx]
    exact ⟨Nat.div_le_div_right h1.1, Nat.div_le_div_right (by omega)⟩
  · intro p hp x rest hx
    have h1 := hs.path p hp
    rw [hx] at h1
    rw [← hgs p hp x (by rw [hx]; simp)]
    simp only
    rw [← h1.1]

/-- Leaves of rank `p` that belong to rank `r` in the new partition. -/
def moved {γ : Type} (leaves : ℕ → List γ) (num : ℕ → ℕ) (r p : ℕ) : List γ :=
  slice ((∑ i ∈ Finset.range r, num i) - ∑ i ∈ Finset.range p, (leaves i).length)
    ((∑ i ∈ Finset.range (r + 1), num i) - ∑ i ∈ Finset.range p, (leaves i).length) (leaves p)

theorem newLast_eq (num : ℕ → ℕ) (p : ℕ) :
    newLast (fun p => (num p : ℤ)) p = ((∑ i ∈ Finset.range (p + 1), num i : ℕ) : ℤ) - 1 := by
  induction p with
  | zero => simp [newLast]
  | succ p ih => rw [newLast, ih, Finset.sum_range_succ _ (p + 1)]; push_cast; ring

theorem prefix_mono (f : ℕ → ℕ) : Monotone fun p => ∑ i ∈ Finset.range p, f i := fun _ _ h =>
  Finset.sum_le_sum_of_subset (Finset.range_mono h)

theorem oldLast_eq {gfq : ℕ → ℤ} {loc : ℕ → ℕ} {P : ℕ}
    (hgfq : ∀ p, p ≤ P → gfq p = ((∑ i ∈ Finset.range p, loc i : ℕ) : ℤ)) {p : ℕ} (hp : p < P) :
    oldLast gfq p = ((∑ i ∈ Finset.range (p + 1), loc i : ℕ) : ℤ) - 1 := by
  unfold oldLast
  rw [hgfq (p + 1) (by omega)]

/-- The work of one rank. -/
theorem partitionRank_spec (hd : 0 < d) {trees : List (List (Quad d × α))} {P : ℕ}
    {leaves : ℕ → List (ℕ × (Quad d × α))} (hF : DataForest trees P leaves) (hT : (trees.length : ℤ) ≤ topidxMax)
    (num : ℕ → ℕ) (hnum : ∑ p ∈ Finset.range P, num p = (forestLeaves trees).length)
    (st : ℕ → RankTrees (Quad d × α)) (hst : ∀ p, p < P → Holds trees.length (leaves p) (st p))
    (gfq : ℕ → ℤ) (hgfq : ∀ p, p ≤ P → gfq p = ((∑ i ∈ Finset.range p, (leaves i).length : ℕ) : ℤ))
    (r : ℕ) (hr : r < P) :
    ∃ rt, partitionRank P gfq
      ((globalPartition (fun p => bare (leaves p)) P trees.length).map GPos.tree) (fun p => (num p : ℤ)) st r = some rt ∧
      Holds trees.length ((List.range P).flatMap (moved leaves num r)) rt := by
  obtain ⟨F, hF1, hF2, hF3, hF4⟩ := gfpTree_spec hd hF.distributed
  rw [List.length_map] at hF1
  set gfpTree := (globalPartition (fun p => bare (leaves p)) P trees.length).map GPos.tree with hgfp
  set last := oldLast gfq with hlast
  set o : ℕ → ℕ := fun p => ∑ i ∈ Finset.range p, (leaves i).length with ho
  set n : ℕ → ℕ := fun p => ∑ i ∈ Finset.range p, num i with hn
  have hNP : n P = o P := by
    show ∑ p ∈ Finset.range P, num p = _
    rw [hnum, ← hF.split, List.length_flatMap]; rfl
  have ho0 : o 0 = 0 := by simp [ho]
  have hn0 : n 0 = 0 := by simp [hn]
  have homono : Monotone o := prefix_mono _
  have hnmono : Monotone n := prefix_mono _
  have hosucc : ∀ p, o (p + 1) = o p + (leaves p).length := fun p => Finset.sum_range_succ _ _
  have hlo : ∀ p, p < P → last p = (o (p + 1) : ℤ) - 1 := fun p hp => oldLast_eq hgfq hp
  have hln : ∀ p, p < P → newLast (fun p => (num p : ℤ)) p = (n (p + 1) : ℤ) - 1 := fun p _ => newLast_eq num p
  have hmv : ∀ r p, (moved leaves num r p).length = min (n (r + 1) - o p) (leaves p).length - (n r - o p) :=
    fun r p => slice_length _ _ _
  have hmem : ∀ r p, ∀ x ∈ moved leaves num r p, x ∈ leaves p := fun r p x hx => (slice_sublist _ _ _).subset hx
  have hne' : ∀ r p, 0 < (moved leaves num r p).length → leaves p ≠ [] := by
    intro r p hpos hc
    unfold moved at hpos
    rw [hc, slice_nil] at hpos
    simp at hpos
  -- windows
  have hrecv : ∀ r, r < P → ∃ ov, recvOverlap last (newLast (fun p => (num p : ℤ))) P r = some ov ∧ ov.lo ≤ ov.hi ∧ ov.hi < P ∧
      (∀ p, p < P → ov.num p = (moved leaves num r p).length) ∧ (∀ p, ¬ (ov.lo ≤ p ∧ p ≤ ov.hi) → ov.num p = 0) := by
    intro r hr
    obtain ⟨ov, h1, h2, h3, h4, h5, -, -⟩ := overlapWindow_spec ho0 homono P hlo r (n r) (n (r + 1)) hr
      (by rw [← hNP]; exact hnmono (by omega))
    refine ⟨ov, ?_, h2, h3, fun p hp => ?_, h5⟩
    · unfold recvOverlap
      rw [lowerBound_eq hn0 hln r (by omega), hln r hr]; exact h1
    · have := hosucc p
      rw [h4 p hp, hmv]; omega
  have hsend : ∀ p, p < P → ∃ ov, sendOverlap last (newLast (fun p => (num p : ℤ))) P p = some ov ∧
      (∀ r, r < P → ov.num r = (moved leaves num r p).length) ∧ (∀ r, ¬ (ov.lo ≤ r ∧ r ≤ ov.hi) → ov.num r = 0) ∧
      (leaves p ≠ [] → ∀ r, ov.lo ≤ r → r ≤ ov.hi → ov.begins r = some ((max (o p) (n r) : ℕ) : ℤ)) ∧
      (leaves p = [] → ∀ r, ov.num r = 0 ∧ ov.begins r = some (-1)) := by
    intro p hp
    obtain ⟨ov, h1, -, -, h4, h5, h6, h7⟩ := overlapWindow_spec hn0 hnmono P hln p (o p) (o (p + 1)) hp
      (by rw [hNP]; exact homono (by omega))
    refine ⟨ov, ?_, fun r hr => ?_, h5, fun hne => h6 ?_, fun he => h7 ?_⟩
    · unfold sendOverlap
      rw [lowerBound_eq ho0 hlo p (by omega), hlo p hp]; exact h1
    · have := hosucc p
      rw [h4 r hr, hmv]; omega
    · have := List.length_pos_iff.mpr hne
      rw [hosucc]; omega
    · rw [hosucc, he]; simp
  have hnT : ∀ p, p < P → numTreesOf gfpTree p = some (F (p + 1) - F p + 1) := by
    intro p hp
    unfold numTreesOf
    rw [hF1 p (by omega), hF1 (p + 1) (by omega)]
    simp only [bind, Option.bind]
    have := hF2 p hp
    rw [if_neg (by omega)]
    congr 1; omega
  have hfirst : ∀ p, p < P → leaves p ≠ [] → (st p).first = F p ∧ (st p).last ≤ F (p + 1) := by
    intro p hp hne
    constructor
    · obtain ⟨x, rest, hx⟩ := List.exists_cons_of_ne_nil hne
      rw [(hst p hp).first, hx, hF4 p hp (x.1, x.2.1) (bare rest) (by show bare (leaves p) = _; rw [hx]; rfl)]
      rfl
    · rw [(hst p hp).last, List.getLast?_eq_some_getLast hne]
      simp only [Option.elim_some]
      exact_mod_cast (hF3 p hp _ (List.mem_map_of_mem (List.getLast_mem hne))).2
  have hlocal : ∀ p, p < P → leaves p ≠ [] → localTrees (st p) ≤ F (p + 1) - F p + 1 := by
    intro p hp hne
    have h1 := hfirst p hp hne
    have h2 := hF2 p hp
    unfold localTrees; omega
  have hbd : ∀ r p, p < P → ∀ x ∈ moved leaves num r p, F p ≤ x.1 ∧ x.1 < F p + (F (p + 1) - F p + 1) ∧ x.1 < trees.length := by
    intro r p hp x hx
    have h1 := hmem r p x hx
    have h2 := hF3 p hp _ (List.mem_map_of_mem h1)
    simp only at h2
    exact ⟨h2.1, by omega, (hst p hp).lt h1⟩
  -- slices with exact ends
  have htrim : ∀ r p, moved leaves num r p =
      slice (n r - o p) (n r - o p + (moved leaves num r p).length) (leaves p) := fun r p => (slice_trim _ _ _).symm
  -- messages
  have hmsg : ∀ p, p < P → ∀ r, r < P → p ≠ r → 0 < (moved leaves num r p).length →
      ∃ m, sendTo last (newLast (fun p => (num p : ℤ))) gfpTree P (st p) p r = some (some m) ∧
        m.counts = countsOf (moved leaves num r p) (F p) (F (p + 1) - F p + 1) ∧
        m.leaves = (moved leaves num r p).map Prod.snd := by
    intro p hp r hr hpr hpos
    obtain ⟨ov, h1, h2, h3, h4, -⟩ := hsend p hp
    have hne : leaves p ≠ [] := hne' r p (by omega)
    have hwin : ov.lo ≤ r ∧ r ≤ ov.hi := by
      by_contra hc
      have h5 := h3 r hc
      rw [h2 r hr] at h5; omega
    have hfp := hfirst p hp hne
    obtain ⟨m, g1, g2, g3⟩ := packMessage_spec (hst p hp) hne (F (p + 1) - F p + 1) (n r - o p)
      (n r - o p + (moved leaves num r p).length) (by omega) (by rw [← htrim]; omega) (hlocal p hp hne)
      (ov.num r) ((max (o p) (n r) : ℕ) : ℤ) (lowerBound last p)
      (by rw [lowerBound_eq ho0 hlo p (by omega)]; omega) (by rw [h2 r hr]; omega)
    rw [← htrim, show (st p).first.toNat = F p by omega] at g2
    rw [← htrim] at g3
    refine ⟨m, ?_, g2, g3⟩
    unfold sendTo
    rw [h1]
    simp only [bind, Option.bind]
    rw [if_pos ⟨hwin.1, hwin.2, fun hc => hpr hc.symm, by rw [h2 r hr]; omega⟩, hnT p hp]
    simp only
    rw [h4 hne r hwin.1 hwin.2]
    simp only
    rw [g1]
  have hnomsg : ∀ p, p < P → ∀ r, r < P → (p = r ∨ moved leaves num r p = []) →
      sendTo last (newLast (fun p => (num p : ℤ))) gfpTree P (st p) p r = some none ∧
      recvPosted last (newLast (fun p => (num p : ℤ))) gfpTree P r p = some none := by
    intro p hp r hr hc
    obtain ⟨ov, h1, h2, -⟩ := hsend p hp
    obtain ⟨ov', h1', -, -, h2', -⟩ := hrecv r hr
    constructor
    · unfold sendTo
      rw [h1]
      simp only [bind, Option.bind]
      rw [if_neg]
      rintro ⟨-, -, h5, h6⟩
      rcases hc with hc | hc
      · exact h5 hc.symm
      · rw [h2 r hr, hc] at h6; simp at h6
    · unfold recvPosted
      rw [h1']
      simp only [bind, Option.bind]
      rw [if_neg]
      rintro ⟨-, -, h5, h6⟩
      rcases hc with hc | hc
      · exact h5 hc
      · rw [h2' p hp, hc] at h6; simp at h6
  -- what arrives at rank r
  have htrans : ∃ msgs : ℕ → Option (Message (Quad d × α)),
      ((List.range P).mapM fun p => do
        let posted ← recvPosted last (newLast (fun p => (num p : ℤ))) gfpTree P r p
        let m ← sendTo last (newLast (fun p => (num p : ℤ))) gfpTree P (st p) p r
        transmit posted m) = some ((List.range P).map msgs) ∧
      ∀ p, p < P → p ≠ r → 0 < (moved leaves num r p).length → ∃ m, msgs p = some m ∧
        m.counts = countsOf (moved leaves num r p) (F p) (F (p + 1) - F p + 1) ∧
        m.leaves = (moved leaves num r p).map Prod.snd := by
    have key : ∀ p, ∃ o : Option (Message (Quad d × α)), p < P →
        (do
          let posted ← recvPosted last (newLast (fun p => (num p : ℤ))) gfpTree P r p
          let m ← sendTo last (newLast (fun p => (num p : ℤ))) gfpTree P (st p) p r
          transmit posted m) = some o ∧
        (p ≠ r → 0 < (moved leaves num r p).length → ∃ m, o = some m ∧
          m.counts = countsOf (moved leaves num r p) (F p) (F (p + 1) - F p + 1) ∧
          m.leaves = (moved leaves num r p).map Prod.snd) := by
      intro p
      by_cases hp : p < P
      · by_cases hc : p = r ∨ moved leaves num r p = []
        · refine ⟨none, fun _ => ⟨?_, fun h1 h2 => ?_⟩⟩
          · rw [(hnomsg p hp r hr hc).1, (hnomsg p hp r hr hc).2]; rfl
          · rcases hc with hc | hc
            · exact absurd hc h1
            · rw [hc] at h2; simp at h2
        · push Not at hc
          have hpos := List.length_pos_iff.mpr hc.2
          obtain ⟨m, h1, h2, h3⟩ := hmsg p hp r hr hc.1 hpos
          refine ⟨some m, fun _ => ⟨?_, fun _ _ => ⟨m, rfl, h2, h3⟩⟩⟩
          obtain ⟨ov, k1, -, -, k2, k3⟩ := hrecv r hr
          have hwin : ov.lo ≤ p ∧ p ≤ ov.hi := by
            by_contra hcc
            have h5 := k3 p hcc
            rw [k2 p hp] at h5; omega
          have hpost : recvPosted last (newLast (fun p => (num p : ℤ))) gfpTree P r p =
              some (some (F (p + 1) - F p + 1, ((moved leaves num r p).length : ℤ))) := by
            unfold recvPosted
            rw [k1]
            simp only [bind, Option.bind]
            rw [if_pos ⟨hwin.1, hwin.2, hc.1, by rw [k2 p hp]; omega⟩, hnT p hp]
            simp only
            rw [k2 p hp]
          rw [hpost, h1]
          simp only [bind, Option.bind, transmit]
          rw [if_pos]
          rw [h2, h3]
          simp [countsOf]
      · exact ⟨none, fun hc => absurd hc hp⟩
    choose msgs hmsgs using key
    refine ⟨msgs, mapM_some fun p hp => (hmsgs p (List.mem_range.mp hp)).1, fun p hp => (hmsgs p hp).2⟩
  obtain ⟨msgs, hms1, hms2⟩ := htrans
  -- assemble
  obtain ⟨recv, r1, r2, r3, r4, r5⟩ := hrecv r hr
  obtain ⟨send, s1, s2, s3, s4, s5⟩ := hsend r hr
  have hown : ∃ start, ownStart send r = some start ∧
      ((start - lowerBound last r = (n r - o r : ℕ) ∧ start + send.num r - 1 - lowerBound last r =
        ((n r - o r + (moved leaves num r r).length : ℕ) : ℤ) - 1) ∨
       (moved leaves num r r = [] ∧ start + send.num r - 1 - lowerBound last r < 0)) := by
    rw [lowerBound_eq ho0 hlo r (by omega), s2 r hr]
    unfold ownStart
    by_cases hne : leaves r = []
    · have hz : moved leaves num r r = [] := by
        unfold moved; rw [hne, slice_nil]
      split
      · rw [(s5 hne r).2]
        exact ⟨_, rfl, Or.inr ⟨hz, by rw [hz]; simp; omega⟩⟩
      · exact ⟨_, rfl, Or.inr ⟨hz, by rw [hz]; simp; omega⟩⟩
    · split
      · rename_i hw
        rw [s4 hne r hw.1 hw.2]
        exact ⟨_, rfl, Or.inl ⟨by omega, by omega⟩⟩
      · rename_i hw
        have h5 := s3 r (by omega)
        rw [s2 r hr] at h5
        exact ⟨_, rfl, Or.inr ⟨List.length_eq_zero_iff.mp (by omega), by omega⟩⟩
  obtain ⟨start, hst1, hst2⟩ := hown
  have hloc : localCounts (st r) (F (r + 1) - F r + 1) r send (lowerBound last r) =
      some (countsOf (moved leaves num r r) (st r).first.toNat (F (r + 1) - F r + 1)) := by
    have := localCounts_spec (hst r hr) (F (r + 1) - F r + 1) (n r - o r)
      (n r - o r + (moved leaves num r r).length) r (by omega) (by rw [← htrim]; omega) (hlocal r hr) send
      (lowerBound last r) ((max (o r) (n r) : ℕ) : ℤ) (fun hpos => by
        have hne : leaves r ≠ [] := hne' r r (by omega)
        have hwin : send.lo ≤ r ∧ r ≤ send.hi := by
          by_contra hc
          have h5 := s3 r hc
          rw [s2 r hr] at h5; omega
        refine ⟨s4 hne r hwin.1 hwin.2, ?_⟩
        rw [lowerBound_eq ho0 hlo r (by omega)]; omega) (by rw [s2 r hr]; omega)
    rw [← htrim] at this
    exact this
  have hbef : slice (n r) (n (r + 1)) (forestLeaves trees) = (List.range P).flatMap (moved leaves num r) := by
    rw [← hF.split, slice_flatMap]; rfl
  have hN : TreeSorted ((List.range P).flatMap (moved leaves num r)) := by
    rw [← hbef]; exact (treeSorted_tagFrom 0 trees).slice _ _
  have hNT : ∀ x ∈ (List.range P).flatMap (moved leaves num r), x.1 < trees.length := by
    intro x hx
    obtain ⟨p, hp, hx⟩ := List.mem_flatMap.mp hx
    exact (hbd r p (List.mem_range.mp hp) x hx).2.2
  obtain ⟨rt, f1, f2⟩ := fillIn_spec (gfpTree := gfpTree) (M := moved leaves num r) (hst r hr) hr (n r - o r)
    (n r - o r + (moved leaves num r r).length) (by omega) (htrim r r) recv send (lowerBound last r) start
    (countsOf (moved leaves num r r) (st r).first.toNat (F (r + 1) - F r + 1))
    (fun p => (((List.range P).map msgs)[p]?).join) F (fun p => F (p + 1) - F p + 1) r2 r3
    (fun p hp hc => List.length_eq_zero_iff.mp (by have := r5 p hc; rw [r4 p hp] at this; omega))
    (fun q hq1 hq2 => by
      refine ⟨r4 q (by omega), fun _ => hF1 q (by omega), fun hpos => ?_, hbd r q (by omega)⟩
      by_cases hqr : q = r
      · simp only [if_pos hqr]
        subst hqr
        have hne : leaves q ≠ [] := hne' q q (by omega)
        have := (hfirst q hr hne).1
        rw [show (st q).first.toNat = F q by omega]
      · simp only [if_neg hqr]
        obtain ⟨m, m1, m2, m3⟩ := hms2 q (by omega) hqr hpos
        rw [List.getElem?_map, List.getElem?_range (by omega)]
        simp only [Option.map_some, Option.join_some, m1, Option.elim_some]
        exact m2)
    (fun q hq1 hq2 hpos hqr => by
      obtain ⟨m, m1, m2, m3⟩ := hms2 q (by omega) hqr hpos
      rw [List.getElem?_map, List.getElem?_range (by omega)]
      simp only [Option.map_some, Option.join_some, m1, Option.elim_some]
      exact m3)
    hst1 hst2 hN hNT hT
  refine ⟨rt, ?_, f2⟩
  unfold partitionRank
  simp only [bind, Option.bind] at hms1 ⊢
  rw [r1]
  simp only
  rw [s1]
  simp only
  rw [hnT r hr]
  simp only
  rw [hloc]
  simp only
  rw [hms1]
  exact f1

/-! ### The number of leaves that change their rank -/

/-- Leaf number `k` is on rank `p`, where the ranks begin at `first 0`, `first 1`, ... -/
def Spec.OnRank (first : ℕ → ℕ) (p k : ℕ) : Prop := first p ≤ k ∧ k < first (p + 1)

instance (first : ℕ → ℕ) (p k : ℕ) : Decidable (OnRank first p k) := inferInstanceAs (Decidable (_ ∧ _))

/-- The number of the `n` leaves of the forest that are not on the same rank in two partitions. -/
def Spec.changed (n numProcs : ℕ) (old new : ℕ → ℕ) : ℕ :=
  ((Finset.range n).filter fun k => ¬ ∃ p ∈ Finset.range numProcs, OnRank old p k ∧ OnRank new p k).card

theorem shippedLoop_eq {o n num : ℕ → ℕ} {last new : ℕ → ℤ} {P : ℕ} (hl : ∀ p, p < P → last p = (o (p + 1) : ℤ) - 1)
    (hn : ∀ p, new p = (n (p + 1) : ℤ) - 1) (k : ℕ) (hk : k ≤ P) :
    shippedLoop last new (fun p => (num p : ℤ)) k = ((∑ i ∈ Finset.range k,
      (min (o (i + 1) - n (i + 1)) (num (i + 1)) + min (n (i + 1) - o (i + 1)) (num i)) : ℕ) : ℤ) := by
  induction k with
  | zero => rfl
  | succ k ih =>
    rw [shippedLoop, ih (by omega), hl k (by omega), hn k, Finset.sum_range_succ]
    split <;> push_cast <;> omega

theorem changed_eq {o n num : ℕ → ℕ} (ho : Monotone o) (hn : Monotone n) (ho0 : o 0 = 0) (hn0 : n 0 = 0)
    (hnum : ∀ p, n (p + 1) = n p + num p) (P : ℕ) (hP : o P = n P) :
    changed (n P) P o n = ∑ i ∈ Finset.range (P - 1),
      (min (o (i + 1) - n (i + 1)) (num (i + 1)) + min (n (i + 1) - o (i + 1)) (num i)) := by
  -- the leaves that stay
  have hstay : ((Finset.range (n P)).filter fun k => ∃ p ∈ Finset.range P, OnRank o p k ∧ OnRank n p k) =
      (Finset.range P).biUnion fun p => Finset.Ico (max (o p) (n p)) (min (o (p + 1)) (n (p + 1))) := by
    ext k
    simp only [Finset.mem_filter, Finset.mem_range, Finset.mem_biUnion, Finset.mem_Ico, OnRank]
    constructor
    · rintro ⟨-, p, hp, h⟩; exact ⟨p, hp, by omega⟩
    · rintro ⟨p, hp, h⟩
      have := hn (show p + 1 ≤ P by omega)
      exact ⟨by omega, p, hp, by omega⟩
  have hdis : ((Finset.range P : Finset ℕ) : Set ℕ).PairwiseDisjoint fun p =>
      Finset.Ico (max (o p) (n p)) (min (o (p + 1)) (n (p + 1))) := by
    intro p _ q _ hpq
    rw [Function.onFun, Finset.disjoint_left]
    intro k h1 h2
    rw [Finset.mem_Ico] at h1 h2
    rcases Nat.lt_or_ge p q with h | h
    · have := ho (show p + 1 ≤ q by omega); omega
    · have := ho (show q + 1 ≤ p by omega); omega
  have hcard := Finset.card_filter_add_card_filter_not (s := Finset.range (n P))
    (fun k => ∃ p ∈ Finset.range P, OnRank o p k ∧ OnRank n p k)
  rw [hstay, Finset.card_biUnion hdis, Finset.card_range] at hcard
  simp only [Nat.card_Ico] at hcard
  have hsum : ∀ k, k ≤ P → (∑ p ∈ Finset.range k, (min (o (p + 1)) (n (p + 1)) - max (o p) (n p))) +
      ∑ p ∈ Finset.range k, (min (o p - n p) (num p) + min (n (p + 1) - o (p + 1)) (num p)) = n k := by
    intro k hk
    induction k with
    | zero => simp [hn0]
    | succ k ih =>
      rw [Finset.sum_range_succ, Finset.sum_range_succ, hnum k]
      have h1 := ih (by omega)
      have h2 := ho (show k ≤ k + 1 by omega)
      have h3 := hnum k
      omega
  have hshift : ∀ k, ∑ p ∈ Finset.range (k + 1), (min (o p - n p) (num p) + min (n (p + 1) - o (p + 1)) (num p)) =
      (∑ i ∈ Finset.range k, (min (o (i + 1) - n (i + 1)) (num (i + 1)) + min (n (i + 1) - o (i + 1)) (num i))) +
        min (n (k + 1) - o (k + 1)) (num k) := by
    intro k
    induction k with
    | zero => simp [ho0, hn0]
    | succ k ih => rw [Finset.sum_range_succ, ih, Finset.sum_range_succ _ k]; omega
  unfold changed
  cases P with
  | zero => simp [hn0]
  | succ P =>
    have h1 := hsum (P + 1) le_rfl
    rw [hshift, hP] at h1
    simp only [Nat.add_sub_cancel]
    omega

/-- C30. `p4est_partition_given` on a forest distributed in any way among the ranks (empty ranks
and ranks with parts of trees included), with any requested numbers of leaves that add up to the
global number: every posted receive finds its message, with the right size, and conversely; no
access is out of bounds and no uninitialised leaf remains.  Afterwards rank `r` holds exactly the
`num r` leaves that follow those of the ranks before it in the global sequence, with their user data,
in the arrays of their trees, and `global_first_quadrant` describes the new partition.  The
returned number is that of leaves whose rank has changed. -/
theorem C30_partition_given (hd : 0 < d) (trees : List (List (Quad d × α))) (P : ℕ)
    (leaves : ℕ → List (ℕ × (Quad d × α))) (hF : DataForest trees P leaves) (hT : (trees.length : ℤ) ≤ topidxMax)
    (num : ℕ → ℕ) (hnum : ∑ p ∈ Finset.range P, num p = (forestLeaves trees).length)
    (st : ℕ → RankTrees (Quad d × α)) (hst : ∀ p, p < P → Holds trees.length (leaves p) (st p))
    (gfq : ℕ → ℤ) (hgfq : ∀ p, p ≤ P → gfq p = ((∑ i ∈ Finset.range p, (leaves i).length : ℕ) : ℤ)) :
    ∃ out, partitionGiven P gfq
        ((globalPartition (fun p => bare (leaves p)) P trees.length).map GPos.tree) (fun p => (num p : ℤ)) st = some out ∧
      out.ranks.length = P ∧
      (∀ r, r < P → ∃ rt, out.ranks[r]? = some rt ∧
        Holds trees.length (((forestLeaves trees).drop (∑ p ∈ Finset.range r, num p)).take (num r)) rt) ∧
      out.gfq = (List.range (P + 1)).map (fun p => ((∑ r ∈ Finset.range p, num r : ℕ) : ℤ)) ∧
      out.shipped = changed (forestLeaves trees).length P (fun p => ∑ r ∈ Finset.range p, (leaves r).length)
        (fun p => ∑ r ∈ Finset.range p, num r) := by
  have key : ∀ r, ∃ rt, r < P → partitionRank P gfq
      ((globalPartition (fun p => bare (leaves p)) P trees.length).map GPos.tree) (fun p => (num p : ℤ)) st r = some rt ∧
      Holds trees.length ((List.range P).flatMap (moved leaves num r)) rt := by
    intro r
    by_cases hr : r < P
    · obtain ⟨rt, h⟩ := partitionRank_spec hd hF hT num hnum st hst gfq hgfq r hr
      exact ⟨rt, fun _ => h⟩
    · exact ⟨st 0, fun h => absurd h hr⟩
  choose rts hrts using key
  have hN : ∑ p ∈ Finset.range P, (leaves p).length = (forestLeaves trees).length := by
    rw [← hF.split, List.length_flatMap]; rfl
  unfold partitionGiven
  rw [mapM_some (g := rts) fun r hr => (hrts r (List.mem_range.mp hr)).1]
  refine ⟨_, rfl, by simp, fun r hr => ⟨rts r, ?_, ?_⟩, ?_, ?_⟩
  · simp only
    rw [List.getElem?_map, List.getElem?_range hr]; rfl
  · have h1 := (hrts r hr).2
    have h2 : slice (∑ i ∈ Finset.range r, num i) (∑ i ∈ Finset.range (r + 1), num i) (forestLeaves trees) =
        (List.range P).flatMap (moved leaves num r) := by
      rw [← hF.split, slice_flatMap]; rfl
    rw [← h2] at h1
    unfold slice at h1
    rw [List.drop_take, Finset.sum_range_succ, Nat.add_sub_cancel_left] at h1
    exact h1
  · simp only
    rw [hgfq 0 (Nat.zero_le _), List.range_succ_eq_map, List.map_cons, List.map_map]
    congr 1
    apply List.map_congr_left
    intro i _
    rw [newLast_eq]; simp
  · simp only
    rw [shippedLoop_eq (o := fun p => ∑ r ∈ Finset.range p, (leaves r).length) (n := fun p => ∑ r ∈ Finset.range p, num r)
      (fun p hp => oldLast_eq hgfq hp) (newLast_eq num) (P - 1) (by omega)]
    rw [← hnum, changed_eq (num := num) (prefix_mono _) (prefix_mono _) (by simp) (by simp)
      (fun p => Finset.sum_range_succ _ _) P (by rw [hN, hnum])]

/-- C30. After the function, the leaves are distributed again as a forest with the same trees, so
that its global sequence is unchanged, and rank `p` has the requested number of leaves. -/
theorem C30_partition_conserves (trees : List (List (Quad d × α))) (P : ℕ)
    (leaves : ℕ → List (ℕ × (Quad d × α))) (hF : DataForest trees P leaves)
    (num : ℕ → ℕ) (hnum : ∑ p ∈ Finset.range P, num p = (forestLeaves trees).length) :
    DataForest trees P (fun r => ((forestLeaves trees).drop (∑ p ∈ Finset.range r, num p)).take (num r)) ∧
    ∀ r, r < P → (((forestLeaves trees).drop (∑ p ∈ Finset.range r, num p)).take (num r)).length = num r := by
  refine ⟨⟨hF.complete, hF.someTree, ?_⟩, fun r hr => ?_⟩
  · have : ∀ k, (List.range k).flatMap (fun r => ((forestLeaves trees).drop (∑ p ∈ Finset.range r, num p)).take (num r)) =
        (forestLeaves trees).take (∑ p ∈ Finset.range k, num p) := by
      intro k
      induction k with
      | zero => simp
      | succ k ih =>
        rw [List.range_succ, List.flatMap_append, ih, Finset.sum_range_succ, List.take_add]
        simp
    rw [this, hnum, List.take_length]
  · have h1 := prefix_mono num (show r + 1 ≤ P by omega)
    simp only [Finset.sum_range_succ] at h1
    rw [List.length_take, List.length_drop, ← hnum]
    omega

/-- C30. The returned number is zero exactly if the requested partition is the present one. -/
theorem C30_shipped_zero (P N : ℕ) (num num' : ℕ → ℕ) (h1 : ∑ p ∈ Finset.range P, num p = N)
    (h2 : ∑ p ∈ Finset.range P, num' p = N) :
    changed N P (fun p => ∑ r ∈ Finset.range p, num r) (fun p => ∑ r ∈ Finset.range p, num' r) = 0 ↔
      ∀ p, p < P → num p = num' p := by
  have hm := prefix_mono num
  have hm' := prefix_mono num'
  have hs : ∀ p, ∑ r ∈ Finset.range (p + 1), num r = ∑ r ∈ Finset.range p, num r + num p := fun p => Finset.sum_range_succ _ _
  have hs' : ∀ p, ∑ r ∈ Finset.range (p + 1), num' r = ∑ r ∈ Finset.range p, num' r + num' p := fun p => Finset.sum_range_succ _ _
  unfold changed
  rw [Finset.card_eq_zero, Finset.filter_eq_empty_iff]
  simp only [Finset.mem_range, not_not, OnRank]
  constructor
  · intro h
    -- all ranks begin at the same leaf
    have hall : ∀ p, p ≤ P → ∑ r ∈ Finset.range p, num r = ∑ r ∈ Finset.range p, num' r := by
      intro p
      induction p with
      | zero => intro _; rfl
      | succ p ih =>
        intro hp
        have ih := ih (by omega)
        by_contra hne
        have hb := hm hp
        have hb' := hm' hp
        simp only at hb hb'
        -- the leaf just behind the smaller end
        have h3 := hs p
        have h4 := hs' p
        rcases Nat.lt_or_gt_of_ne hne with hlt | hgt
        · obtain ⟨q, hq, h5, h6⟩ := h (x := ∑ r ∈ Finset.range (p + 1), num r) (by omega)
          have hpq : p + 1 ≤ q := by
            by_contra hc
            have := hm (show q + 1 ≤ p + 1 by omega)
            simp only at this; omega
          have := hm' hpq
          simp only at this; omega
        · obtain ⟨q, hq, h5, h6⟩ := h (x := ∑ r ∈ Finset.range (p + 1), num' r) (by omega)
          have hpq : p + 1 ≤ q := by
            by_contra hc
            have := hm' (show q + 1 ≤ p + 1 by omega)
            simp only at this; omega
          have := hm hpq
          simp only at this; omega
    intro p hp
    have h3 := hall p (by omega)
    have h4 := hall (p + 1) (by omega)
    rw [hs, hs'] at h4; omega
  · intro h k hk
    have hall : ∀ p, p ≤ P → ∑ r ∈ Finset.range p, num r = ∑ r ∈ Finset.range p, num' r := fun p hp =>
      Finset.sum_congr rfl fun r hr => h r (by rw [Finset.mem_range] at hr; omega)
    have hex : ∀ q, q ≤ P → k < ∑ r ∈ Finset.range q, num r →
        ∃ p, p < q ∧ ∑ r ∈ Finset.range p, num r ≤ k ∧ k < ∑ r ∈ Finset.range (p + 1), num r := by
      intro q
      induction q with
      | zero => intro _ hc; simp at hc
      | succ q ih =>
        intro hq hc
        rcases Nat.lt_or_ge k (∑ r ∈ Finset.range q, num r) with hlt | hge
        · obtain ⟨p, h3, h4⟩ := ih (by omega) hlt
          exact ⟨p, by omega, h4⟩
        · exact ⟨q, by omega, hge, hc⟩
    obtain ⟨p, h3, h4, h5⟩ := hex P le_rfl (by omega)
    refine ⟨p, h3, ⟨h4, h5⟩, ?_⟩
    rw [← hall p (by omega), ← hall (p + 1) (by omega)]
    exact ⟨h4, h5⟩

theorem cum_eq_filter {β : Type} {T : ℕ} {L : List (ℕ × β)} {rt : RankTrees β} (h : Holds T L rt) (t : ℕ) :
    cum rt.trees t = (L.filter fun x => x.1 < t).length := by
  induction t with
  | zero => simp [cum]
  | succ t ih =>
    have hsplit : (L.filter fun x => x.1 < t + 1).length = (L.filter fun x => x.1 < t).length + (leavesIn L t).length := by
      unfold leavesIn
      rw [List.length_map]
      clear ih h
      induction L with
      | nil => rfl
      | cons x L ihL =>
        simp only [List.filter_cons, decide_eq_true_eq]
        rcases Nat.lt_trichotomy x.1 t with h1 | h1 | h1
        · rw [if_pos (by omega), if_pos h1, if_neg (by omega)]; simp only [List.length_cons]; omega
        · rw [if_pos (by omega), if_neg (by omega), if_pos h1]; simp only [List.length_cons]; omega
        · rw [if_neg (by omega), if_neg (by omega), if_neg (by omega)]; exact ihL
    rw [hsplit, ← ih]
    rcases Nat.lt_or_ge t T with ht | ht
    · exact cum_succ (h.get ht)
    · have e1 : leavesIn L t = [] := leavesIn_eq_nil.mpr fun x hx => by have := h.lt hx; omega
      rw [e1]
      unfold cum
      rw [List.take_of_length_le (by rw [h.trees]; omega), List.take_of_length_le (by rw [h.trees]; omega)]
      rfl

/-- C30. `quadrants_offset` of every tree is the number of local leaves in the trees before it. -/
theorem C30_tree_offsets {β : Type} (T : ℕ) (L : List (ℕ × β)) (rt : RankTrees β) (h : Holds T L rt) (t : ℕ) :
    treeOffset rt t = (L.filter fun x => x.1 < t).length := by
  unfold treeOffset
  split
  · rename_i hlt
    symm
    rw [List.length_eq_zero_iff, List.filter_eq_nil_iff]
    intro x hx
    have := (h.bounds hx).1
    simp only [decide_eq_true_eq]; omega
  · rename_i hge
    rcases List.eq_nil_or_concat L with rfl | ⟨_, _, hc⟩
    · have h1 := h.empty
      rw [h1.2]
      simp
    · have h0 := h.nonempty (by rw [hc]; simp)
      have e1 : cum rt.trees (min t (rt.last + 1).toNat) = cum rt.trees t := by
        rw [cum_eq_filter h, cum_eq_filter h]
        congr 1
        apply List.filter_congr
        intro x hx
        have := (h.bounds hx).2
        rw [decide_eq_decide]
        omega
      rw [← cum_eq_filter h, ← e1]
      have e2 : cum rt.trees rt.first.toNat = 0 := cum_first h (by omega)
      unfold cum at e2 ⊢
      have e3 : rt.trees.take (min t (rt.last + 1).toNat) =
          rt.trees.take rt.first.toNat ++ (rt.trees.take (min t (rt.last + 1).toNat)).drop rt.first.toNat := by
        conv_lhs => rw [← List.take_append_drop rt.first.toNat (rt.trees.take (min t (rt.last + 1).toNat))]
        rw [List.take_take, show min rt.first.toNat (min t (rt.last + 1).toNat) = rt.first.toNat by omega]
      conv_rhs => rw [e3]
      rw [List.map_append, List.sum_append, e2, Nat.zero_add]

/-- Two trees with data on four ranks, two of them empty. -/
def dataTrees : List (List (Quad 2 × ℕ)) := twoTrees.map (·.map fun q => (q, q.level))

def dataLeaves (p : ℕ) : List (ℕ × (Quad 2 × ℕ)) := (twoTreesLeaves p).map fun x => (x.1, (x.2, x.2.level))

theorem dataTrees_forest : DataForest dataTrees 4 dataLeaves where
  complete := by
    intro l hl
    obtain ⟨l', h1, rfl⟩ := List.mem_map.mp hl
    rw [List.map_map]
    have : (Prod.fst ∘ fun q : Quad 2 => (q, q.level)) = id := rfl
    rw [this, List.map_id]
    exact twoTrees_distributed.complete l' h1
  someTree := by simp [dataTrees, twoTrees]
  split := by
    rw [forestLeaves, dataTrees, tagFrom_map, ← forestLeaves, ← twoTrees_distributed.split, List.map_flatMap]; rfl

/-- The state of the ranks of this forest. -/
def dataState (p : ℕ) : RankTrees (Quad 2 × ℕ) :=
  ⟨(List.range 2).map (leavesIn (dataLeaves p)), match p with | 0 => 0 | 2 => 0 | _ => -1,
    match p with | 0 => 0 | 2 => 1 | _ => -2⟩

theorem dataState_holds : ∀ p, p < 4 → Holds dataTrees.length (dataLeaves p) (dataState p) := by
  intro p hp
  have : p = 0 ∨ p = 1 ∨ p = 2 ∨ p = 3 := by omega
  rcases this with rfl | rfl | rfl | rfl
  all_goals exact ⟨by decide, by decide +kernel, by decide, by decide⟩

example : ∃ out, partitionGiven 4 (countQuadrants (fun p => ((dataLeaves p).length : ℤ)) 4)
    ((globalPartition (fun p => bare (dataLeaves p)) 4 dataTrees.length).map GPos.tree)
    (fun p => ((if p = 1 then 4 else if p = 3 then 1 else 0 : ℕ) : ℤ)) dataState = some out ∧ out.shipped = 5 := by
  obtain ⟨out, h1, -, -, -, h2⟩ := C30_partition_given (by norm_num) dataTrees 4 dataLeaves dataTrees_forest
    (by decide) (fun p => if p = 1 then 4 else if p = 3 then 1 else 0) (by decide) dataState dataState_holds
    (countQuadrants (fun p => ((dataLeaves p).length : ℤ)) 4) (C28_count_quadrants _ 4).1
  exact ⟨out, h1, by rw [h2]; decide⟩

end P4est
