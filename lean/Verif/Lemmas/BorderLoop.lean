import Verif.Lemmas.BorderKernel
import Verif.Props.Balance
import Verif.Spec.Balanced

/-! # The loop over the border -/

namespace P4est
open Spec

variable {d : ℕ} {α σ : Type}

/-! ## Carrying the data over, piece by piece -/

theorem Merged.append {init : Quad d → σ → α × σ} {q1 q2 : List (Leaf d α)} {p1 p2 : List (Quad d)}
    {st st1 st2 : MergeSt d α σ} (h1 : Merged init q1 p1 st st1) (h2 : Merged init q2 p2 st1 st2)
    (n1 : ∀ p ∈ p1, p ∉ q2.map Leaf.q) (n2 : ∀ p ∈ p2, p ∉ q1.map Leaf.q) :
    Merged init (q1 ++ q2) (p1 ++ p2) st st2 := by
  have e1 : ∀ s, carried init (q1 ++ q2) p1 s = carried init q1 p1 s := fun s => carried_congr _ _ _ _ _ fun p hp => by
    have : q2.find? (fun x => x.q = p) = none := by
      rw [List.find?_eq_none]
      intro x hx hxp
      simp only [decide_eq_true_eq] at hxp
      exact n1 p hp (List.mem_map.mpr ⟨x, hx, hxp⟩)
    rw [List.find?_append, this, Option.or_none]
  have e2 : ∀ s, carried init (q1 ++ q2) p2 s = carried init q2 p2 s := fun s => carried_congr _ _ _ _ _ fun p hp => by
    have : q1.find? (fun x => x.q = p) = none := by
      rw [List.find?_eq_none]
      intro x hx hxp
      simp only [decide_eq_true_eq] at hxp
      exact n2 p hp (List.mem_map.mpr ⟨x, hx, hxp⟩)
    rw [List.find?_append, this, Option.none_or]
  refine ⟨?_, ?_, ?_, ?_, h1.maxle.trans h2.maxle, ?_, ?_⟩
  · rw [h2.leaves, h1.leaves, h1.state, carried_append, e1, e2, List.append_assoc]
  · rw [h2.state, h1.state, carried_append, e1, e2]
  · rw [h2.freed, h1.freed, List.append_assoc]
    congr 1
    unfold dropped
    rw [List.filter_append]
    congr 1
    · apply List.filter_congr
      intro x hx
      have : x.q ∉ p2 := fun h => n2 _ h (List.mem_map_of_mem hx)
      simp [this]
    · apply List.filter_congr
      intro x hx
      have : x.q ∉ p1 := fun h => n1 _ h (List.mem_map_of_mem hx)
      simp [this]
  · intro l
    have c1 := h1.count l
    have c2 := h2.count l
    rw [List.countP_append, List.countP_append]
    push_cast
    omega
  · intro p hp
    rcases List.mem_append.mp hp with hp | hp
    · rcases h1.top p hp with h | h
      · left; simp only [List.map_append, List.mem_append]; exact Or.inl h
      · right; exact h.trans h2.maxle
    · rcases h2.top p hp with h | h
      · left; simp only [List.map_append, List.mem_append]; exact Or.inr h
      · right; exact h
  · rcases h2.max with h | ⟨p, hp, h⟩
    · rcases h1.max with h' | ⟨p, hp, h'⟩
      · left; rw [h, h']
      · right; exact ⟨p, List.mem_append_left _ hp, by rw [h', h]⟩
    · right; exact ⟨p, List.mem_append_right _ hp, h⟩

/-- Leaves that stay. -/
theorem merged_keep (init : Quad d → σ → α × σ) (V : List (Leaf d α)) (hn : (V.map Leaf.q).Nodup)
    (st : MergeSt d α σ) : Merged init V (V.map Leaf.q) st { st with leaves := st.leaves ++ V } := by
  refine ⟨?_, ?_, ?_, ?_, le_rfl, fun p hp => Or.inl hp, Or.inl rfl⟩
  · rw [carried_self init V hn]
  · rw [carried_self init V hn]
  · have : dropped V (V.map Leaf.q) = [] := by
      unfold dropped
      rw [List.filter_eq_nil_iff]
      intro x hx
      simpa using ⟨x, hx, rfl⟩
    rw [this, List.append_nil]
  · intro l
    rw [List.countP_map]
    rfl

/-- A leaf that is replaced. -/
theorem merged_replace (init : Quad d → σ → α × σ) (x : Leaf d α) (out : List (Quad d)) (hx : x.q ∉ out)
    (st : MergeSt d α σ) : Merged init [x] out st (out.foldl (mergeNew init)
      { st with perLevel := bump st.perLevel x.q.level (-1), freed := st.freed ++ [x] }) := by
  have h := merged_new init out { st with perLevel := bump st.perLevel x.q.level (-1), freed := st.freed ++ [x] }
  generalize out.foldl (mergeNew init) _ = st' at h
  have e : ∀ s, carried init [x] out s = carried init [] out s := fun s => carried_congr _ _ _ _ _ fun p hp => by
    have : x.q ≠ p := fun h => hx (h ▸ hp)
    simp [this]
  refine ⟨?_, ?_, ?_, ?_, h.maxle, ?_, h.max⟩
  · rw [h.leaves, e]
  · rw [h.state, e]
  · rw [h.freed]
    simp [dropped, hx]
  · intro l
    have := h.count l
    simp only [bump_apply] at this
    simp only [List.countP_cons, List.countP_nil, decide_eq_true_eq] at this ⊢
    push_cast at this ⊢
    split_ifs at this ⊢ <;> omega
  · intro p hp
    exact Or.inr ((h.top p hp).resolve_left (by simp))

/-! ## The quadrants put in place of one leaf -/

/-- `qs` is the least graded division of `v` that is as fine as the quadrants `S`. -/
structure LeafPart (k : ℕ) (S : Set (Quad d)) (v : Quad d) (qs : List (Quad d)) : Prop where
  path : Path (start v) qs (stop v)
  valid : ∀ u ∈ qs, Valid u
  graded : Balanced k qs
  fine : ∀ s ∈ S, ∀ u ∈ qs, ¬ Cells s ⊂ Cells u
  least : ∀ u ∈ qs, u ≠ v → isAncestor v u = true ∧ ∀ U, Paves (Cells v) U → GradedBy k U →
    (∀ s ∈ S, ∀ w ∈ U, ¬ Cells s ⊂ Cells w) → ∀ w ∈ U, ¬ Cells (parent u) ⊆ Cells w
  kept : (∀ s, s ∉ S) → qs = [v]
  moved : ∀ s ∈ S, v ∉ qs

/-- The quadrants of the list that are properly inside `v`. -/
def within (W : List (Quad d)) (v : Quad d) : Set (Quad d) := {b | b ∈ W ∧ Cells b ⊂ Cells v}

theorem piece_self {k : ℕ} {S : Set (Quad d)} {v : Quad d} (hv : Valid v) (hS : ∀ s, s ∉ S) : LeafPart k S v [v] := by
  refine ⟨⟨rfl, rfl⟩, ?_, ?_, fun s hs => absurd hs (hS s), ?_, fun _ => rfl, fun s hs => absurd hs (hS s)⟩
  · intro u hu; rw [List.mem_singleton] at hu; exact hu ▸ hv
  · intro q hq r hr _
    rw [List.mem_singleton] at hq hr
    rw [hq, hr]; omega
  · intro u hu hne
    exact absurd (List.mem_singleton.mp hu) hne

/-- The new leaves, piece by piece. -/
inductive LeafParts (k : ℕ) (W : List (Quad d)) : List (Leaf d α) → List (Quad d) → Prop
  | nil : LeafParts k W [] []
  | cons {v : Leaf d α} {V : List (Leaf d α)} {qs ps : List (Quad d)} :
      LeafPart k (within W v.q) v.q qs → LeafParts k W V ps → LeafParts k W (v :: V) (qs ++ ps)

theorem LeafParts.append {k : ℕ} {W : List (Quad d)} {V1 V2 : List (Leaf d α)} {p1 p2 : List (Quad d)}
    (h1 : LeafParts k W V1 p1) (h2 : LeafParts k W V2 p2) : LeafParts k W (V1 ++ V2) (p1 ++ p2) := by
  induction h1 with
  | nil => exact h2
  | cons h _ ih =>
    rw [List.cons_append, List.append_assoc]
    exact LeafParts.cons h ih

theorem LeafParts.change {k : ℕ} {W W' : List (Quad d)} {V : List (Leaf d α)} {ps : List (Quad d)}
    (h : LeafParts k W V ps) (hw : ∀ v ∈ V, within W' v.q = within W v.q) : LeafParts k W' V ps := by
  induction h with
  | nil => exact LeafParts.nil
  | cons h _ ih =>
    refine LeafParts.cons ?_ (ih fun v hv => hw v (List.mem_cons_of_mem _ hv))
    rw [hw _ List.mem_cons_self]
    exact h

theorem pieces_keep {k : ℕ} {W : List (Quad d)} (V : List (Leaf d α)) (hv : ∀ v ∈ V, Valid v.q)
    (hw : ∀ v ∈ V, ∀ s, s ∉ within W v.q) : LeafParts k W V (V.map Leaf.q) := by
  induction V with
  | nil => exact LeafParts.nil
  | cons v V ih =>
    exact LeafParts.cons (qs := [v.q]) (piece_self (hv v List.mem_cons_self) (hw v List.mem_cons_self))
      (ih (fun x hx => hv x (List.mem_cons_of_mem _ hx)) fun x hx => hw x (List.mem_cons_of_mem _ hx))

theorem LeafParts.path {k : ℕ} {W : List (Quad d)} {V : List (Leaf d α)} {ps : List (Quad d)}
    (h : LeafParts k W V ps) {a b : ℕ} (hV : Path a (V.map Leaf.q) b) : Path a ps b := by
  induction h generalizing a with
  | nil => exact hV
  | cons h _ ih =>
    obtain ⟨h1, h2⟩ := hV
    subst h1
    exact path_append.mpr ⟨_, h.path, ih h2⟩

theorem LeafParts.source {k : ℕ} {W : List (Quad d)} {V : List (Leaf d α)} {ps : List (Quad d)}
    (h : LeafParts k W V ps) : ∀ u ∈ ps, ∃ v ∈ V, ∃ qs, LeafPart k (within W v.q) v.q qs ∧ u ∈ qs ∧ ∀ x ∈ qs, x ∈ ps := by
  induction h with
  | nil => intro u hu; simp at hu
  | @cons v V qs ps h _ ih =>
    intro u hu
    rcases List.mem_append.mp hu with hu | hu
    · exact ⟨v, List.mem_cons_self, qs, h, hu, fun x hx => List.mem_append_left _ hx⟩
    · obtain ⟨w, w1, qs', w2, w3, w4⟩ := ih u hu
      exact ⟨w, List.mem_cons_of_mem _ w1, qs', w2, w3, fun x hx => List.mem_append_right _ (w4 x hx)⟩

theorem LeafParts.piece {k : ℕ} {W : List (Quad d)} {V : List (Leaf d α)} {ps : List (Quad d)}
    (h : LeafParts k W V ps) : ∀ v ∈ V, ∃ qs, LeafPart k (within W v.q) v.q qs ∧ ∀ x ∈ qs, x ∈ ps := by
  induction h with
  | nil => intro u hu; simp at hu
  | @cons v V qs ps h _ ih =>
    intro w hw
    rcases List.mem_cons.mp hw with rfl | hw
    · exact ⟨qs, h, fun x hx => List.mem_append_left _ hx⟩
    · obtain ⟨qs', w2, w4⟩ := ih w hw
      exact ⟨qs', w2, fun x hx => List.mem_append_right _ (w4 x hx)⟩

/-! ## The loop -/

/-- Entries of the border that are not in the local part. -/
def Off (fdesc ldesc w : Quad d) : Prop := stop w ≤ start fdesc ∨ stop ldesc ≤ start w

/-- The border while it is processed; `V` are the leaves not yet copied. -/
structure BorderInv (fdesc ldesc : Quad d) (a : ℕ) (W : List (Quad d)) (V : List (Leaf d α)) : Prop where
  path : Path a (V.map Leaf.q) (stop ldesc)
  low : start fdesc ≤ a
  valid : ∀ v ∈ V, Valid v.q
  sorted : W.Pairwise Before
  legal : ∀ w ∈ W, Aligned w ∧ Int32 w.c
  cases : ∀ w ∈ W, Off fdesc ldesc w ∨ w ∈ V.map Leaf.q ∨
    (Valid w ∧ childId w = 0 ∧ ∃ v ∈ V.map Leaf.q, v ∈ W ∧ Cells w ⊂ Cells v)

theorem beyond_off (hd : 0 < d) {fdesc ldesc w : Quad d} (hf : Valid fdesc) (hl : Valid ldesc)
    (hw : Aligned w) (hw' : Int32 w.c) (h : Off fdesc ldesc w) : beyond fdesc ldesc w = true := by
  have h1 := start_lt_stop w
  have h2 := start_lt_stop fdesc
  have h3 := start_lt_stop ldesc
  unfold beyond
  rcases h with h | h
  · have e1 : compare w fdesc < 0 := by
      rw [compare_neg_iff hd hw' hf.int32, before_interval]
      omega
    have e2 : isAncestor w fdesc = false := by
      rw [← Bool.not_eq_true, isAncestor_iff hd hw hf.aligned]
      intro hc
      have := (subset_iff_interval hd hw hf.aligned hw' hf.int32).mp hc.1
      omega
    simp [e1, e2]
  · have : compare w ldesc > 0 := by
      rw [gt_iff_lt, compare_pos_iff hd hw' hl.int32, before_interval]
      omega
    simp [this]

theorem beyond_in (hd : 0 < d) {fdesc ldesc w : Quad d} (hf : Valid fdesc) (hf9 : fdesc.level = 29)
    (hl : Valid ldesc) (hl9 : ldesc.level = 29)
    (hw : Valid w) (h1 : start fdesc ≤ start w) (h2 : stop w ≤ stop ldesc) : beyond fdesc ldesc w = false := by
  have hwl := hw.1
  have e1 := start_lt_stop w
  unfold beyond
  have g1 : ¬ (compare w fdesc < 0 ∧ isAncestor w fdesc = false) := by
    rintro ⟨c1, c2⟩
    rw [compare_neg_iff hd hw.int32 hf.int32, before_interval] at c1
    have c3 := start_lt_stop fdesc
    rw [← Bool.not_eq_true] at c2
    apply c2
    rcases valid_cases hd hw hf with h | h | h | h | h
    · omega
    · omega
    · rw [h] at c1; omega
    · exact (anc_interval hd hw hf).mpr ⟨h.1, h.2.1, h.2.2.1⟩
    · omega
  have g2 : ¬ compare w ldesc > 0 := by
    intro c1
    rw [gt_iff_lt, compare_pos_iff hd hw.int32 hl.int32, before_interval] at c1
    have c3 := start_lt_stop ldesc
    rcases valid_cases hd hw hl with h | h | h | h | h <;> try omega
    · rw [h] at c1; omega
  rw [Bool.or_eq_false_iff]
  constructor
  · by_contra hc
    simp only [Bool.not_eq_false, Bool.and_eq_true, decide_eq_true_eq, Bool.not_eq_true'] at hc
    exact g1 hc
  · simpa using g2

theorem path_starts {l : List (Quad d)} {a b : ℕ} (h : Path a l b) : l.Pairwise fun q r => stop q ≤ start r := by
  induction l generalizing a with
  | nil => exact List.Pairwise.nil
  | cons q l ih =>
    obtain ⟨h1, h2⟩ := h
    exact List.pairwise_cons.mpr ⟨fun r hr => (h2.mem hr).1, ih h2⟩

theorem path_nodup {l : List (Quad d)} {a b : ℕ} (h : Path a l b) : l.Nodup := by
  apply (path_starts h).imp
  rintro q r hqr rfl
  have := start_lt_stop q
  omega

/-- Leaves that overlap are the same. -/
theorem path_start_inj {a b : ℕ} {l : List (Quad d)} (h : Path a l b) {q r : Quad d} (hq : q ∈ l) (hr : r ∈ l)
    (h1 : start q ≤ start r) (h2 : start r < stop q) : q = r := by
  induction l generalizing a with
  | nil => cases hq
  | cons x l ih =>
    rcases List.mem_cons.mp hq with e | hq
    · rcases List.mem_cons.mp hr with e' | hr
      · rw [e, e']
      · have := (h.2.mem hr).1
        rw [e] at h2
        omega
    · rcases List.mem_cons.mp hr with e' | hr
      · have := (h.2.mem hq).1
        have := start_lt_stop x
        rw [e'] at h1
        omega
      · exact ih h.2 hq hr

theorem takeWhile_all {β : Type} {f : β → Bool} {l : List β} {x : β} (h : x ∈ l.takeWhile f) : f x = true := by
  induction l with
  | nil => simp at h
  | cons y l ih =>
    rw [List.takeWhile_cons] at h
    split at h
    · rename_i hy
      rcases List.mem_cons.mp h with rfl | h
      · exact hy
      · exact ih h
    · simp at h

/-- Searching a leaf. -/
theorem find_leaf (hd : 0 < d) {bs : (Quad d → ℤ) → List (Quad d) → Option ℕ} (hbs : Searches bs)
    {V : List (Leaf d α)} {a b : ℕ} (hp : Path a (V.map Leaf.q) b) (hv : ∀ v ∈ V, Valid v.q) {p : Quad d}
    (hpV : p ∈ V.map Leaf.q) :
    ∃ i V1 x V2, bs (fun x => compare p x) (V.map Leaf.q) = some i ∧ V[i]? = some x ∧ V.take i = V1 ∧
      V.drop (i + 1) = V2 ∧ V = V1 ++ x :: V2 ∧ x.q = p := by
  have hpv : Valid p := by
    obtain ⟨v, hv1, rfl⟩ := List.mem_map.mp hpV
    exact hv v hv1
  have hvq : ∀ q ∈ V.map Leaf.q, Valid q := by
    intro q hq
    obtain ⟨v, hv1, rfl⟩ := List.mem_map.mp hq
    exact hv v hv1
  have hmono : (V.map Leaf.q).Pairwise (fun a b => (compare p a ≤ 0 → compare p b ≤ 0) ∧ (compare p b ≥ 0 → compare p a ≥ 0)) := by
    refine (path_starts hp).imp_of_mem ?_
    intro q r hq hr hqr
    have hqv := hvq q hq
    have hrv := hvq r hr
    have := start_lt_stop q
    have hb : Before q r := by rw [before_interval]; omega
    constructor
    · intro h
      by_contra hc
      have h1 := (compare_pos_iff hd hpv.int32 hrv.int32).mp (by omega)
      have h2 := (compare_pos_iff hd hpv.int32 hqv.int32).mpr (hb.trans h1)
      omega
    · intro h
      by_contra hc
      have h1 := (compare_neg_iff hd hpv.int32 hqv.int32).mp (by omega)
      have h2 := (compare_neg_iff hd hpv.int32 hrv.int32).mpr (h1.trans hb)
      omega
  have hsome := hbs.2 (fun x => compare p x) (V.map Leaf.q) hmono
    ⟨p, hpV, (compare_eq_zero_iff hd hpv.int32 hpv.int32).mpr rfl⟩
  obtain ⟨i, hi⟩ := Option.ne_none_iff_exists'.mp hsome
  obtain ⟨h1, h2⟩ := hbs.1 _ _ _ hi
  rw [List.length_map] at h1
  simp only [List.getElem_map] at h2
  have h3 := (compare_eq_zero_iff hd hpv.int32 (hv _ (List.getElem_mem h1)).int32).mp h2
  refine ⟨i, _, V[i], _, hi, List.getElem?_eq_getElem h1, rfl, rfl, ?_, h3.symm⟩
  rw [← List.drop_eq_getElem_cons h1, List.take_append_drop]

/-- The way of the loop over the border: `N` has for each leaf that is divided the leaves before it that are kept, the
leaf and its division. -/
inductive BorderRun (bs : (Quad d → ℤ) → List (Quad d) → Option ℕ) (bound : ℕ) (fdesc ldesc : Quad d) :
    List (Quad d) → List (Leaf d α) → List (List (Leaf d α) × Leaf d α × List (Quad d)) → List (Leaf d α) → Prop
  | done (V : List (Leaf d α)) : BorderRun bs bound fdesc ldesc [] V [] V
  | skip {p : Quad d} {rest : List (Quad d)} {V N V'} (h : beyond fdesc ldesc p = true)
      (hr : BorderRun bs bound fdesc ldesc rest V N V') : BorderRun bs bound fdesc ldesc (p :: rest) V N V'
  | bare {p : Quad d} {rest : List (Quad d)} {V N V'} (h : beyond fdesc ldesc p = false)
      (ht : rest.takeWhile (isAncestor p) = []) (hr : BorderRun bs bound fdesc ldesc rest V N V') :
      BorderRun bs bound fdesc ldesc (p :: rest) V N V'
  | step {p r : Quad d} {rest rs out : List (Quad d)} {V V1 V2 N V'} {x : Leaf d α} {i : ℕ}
      (h : beyond fdesc ldesc p = false) (ht : rest.takeWhile (isAncestor p) = r :: rs)
      (hb : bs (fun y => compare p y) (V.map Leaf.q) = some i) (hx : V[i]? = some x) (h1 : V.take i = V1)
      (h2 : V.drop (i + 1) = V2) (hV : V = V1 ++ x :: V2) (hk : balanceKernel bs p bound none none (seedLoop r rs) = some out)
      (hxv : Valid x.q) (hp : Path (start x.q) out (stop x.q)) (hv : ∀ u ∈ out, Valid u) (hn : x.q ∉ out)
      (hr : BorderRun bs bound fdesc ldesc (rest.dropWhile (isAncestor p)) V2 N V') :
      BorderRun bs bound fdesc ldesc (p :: rest) V ((V1, x, out) :: N) V'

theorem borderLoop_spec (hdim : d = 2 ∨ d = 3) {bs : (Quad d → ℤ) → List (Quad d) → Option ℕ} (hbs : Searches bs)
    (init : Quad d → σ → α × σ) {k bound : ℕ} (hk : 1 ≤ k) (hbound : balanceBound d k = some bound)
    {fdesc ldesc : Quad d} (hf : Valid fdesc) (hf9 : fdesc.level = 29) (hl : Valid ldesc) (hl9 : ldesc.level = 29) :
    ∀ (n : ℕ) (W : List (Quad d)) (M : MergeSt d α σ) (V : List (Leaf d α)) (a : ℕ), W.length ≤ n →
      BorderInv fdesc ldesc a W V →
      ∃ M' V' ps, borderLoop bs init bound fdesc ldesc W (M, V) = some (M', V') ∧
        Merged init V ps M { M' with leaves := M'.leaves ++ V' } ∧ LeafParts k W V ps ∧
        ∃ N, BorderRun bs bound fdesc ldesc W V N V' := by
  have hd : 0 < d := by omega
  intro n
  induction n with
  | zero =>
    intro W M V a hn h
    obtain rfl := List.length_eq_zero_iff.mp (Nat.le_zero.mp hn)
    refine ⟨M, V, V.map Leaf.q, ?_, merged_keep init V (path_nodup h.path) M, pieces_keep V h.valid ?_, [], .done V⟩
    · unfold borderLoop; rfl
    · intro v _ s hs; exact absurd hs.1 (by simp)
  | succ n ih =>
    intro W M V a hn h
    cases W with
    | nil =>
      refine ⟨M, V, V.map Leaf.q, ?_, merged_keep init V (path_nodup h.path) M, pieces_keep V h.valid ?_, [], .done V⟩
      · unfold borderLoop; rfl
      · intro v _ s hs; exact absurd hs.1 (by simp)
    | cons p rest =>
      rw [List.length_cons] at hn
      obtain ⟨s1, s2⟩ := List.pairwise_cons.mp h.sorted
      have hvq : ∀ q ∈ V.map Leaf.q, Valid q ∧ start fdesc ≤ start q ∧ stop q ≤ stop ldesc := by
        intro q hq
        have := h.path.mem hq
        have := h.low
        obtain ⟨v, hv1, rfl⟩ := List.mem_map.mp hq
        exact ⟨h.valid v hv1, by omega, by omega⟩
      have hpl := h.legal p List.mem_cons_self
      have hplt := start_lt_stop p
      -- entries of the border inside a leaf
      have sub : ∀ w ∈ p :: rest, ∀ v ∈ V.map Leaf.q, (Cells w ⊂ Cells v ↔ start v ≤ start w ∧ stop w ≤ stop v ∧ w ≠ v) := by
        intro w hw v hv
        have hwl := h.legal w hw
        have hvv := (hvq v hv).1
        rw [Set.ssubset_iff_subset_ne, subset_iff_interval hd hvv.aligned hwl.1 hvv.int32 hwl.2, and_assoc]
        have : Cells w ≠ Cells v ↔ w ≠ v := by
          constructor
          · rintro h1 rfl; exact h1 rfl
          · intro h1 h2
            exact h1 (cells_inj hd hwl.1 hvv.aligned h2)
        rw [this]
      by_cases hoff : Off fdesc ldesc p
      · -- not in the local part
        have hstep : borderLoop bs init bound fdesc ldesc (p :: rest) (M, V) = borderLoop bs init bound fdesc ldesc rest (M, V) := by
          rw [borderLoop, if_pos (beyond_off hd hf hl hpl.1 hpl.2 hoff)]
        have pn : ∀ v ∈ V.map Leaf.q, v ≠ p ∧ ¬ Cells p ⊂ Cells v := by
          intro v hv
          have hvi := hvq v hv
          have hvlt := start_lt_stop v
          unfold Off at hoff
          constructor
          · rintro rfl; omega
          · rw [sub p List.mem_cons_self v hv]; omega
        obtain ⟨M', V', ps, r1, r2, r3, N, r4⟩ := ih rest M V a (by omega) ⟨h.path, h.low, h.valid, s2,
          fun w hw => h.legal w (List.mem_cons_of_mem _ hw), by
            intro w hw
            rcases h.cases w (List.mem_cons_of_mem _ hw) with c | c | ⟨c1, c2, v, c3, c4, c5⟩
            · exact Or.inl c
            · exact Or.inr (Or.inl c)
            · exact Or.inr (Or.inr ⟨c1, c2, v, c3, (List.mem_cons.mp c4).resolve_left (pn v c3).1, c5⟩)⟩
        refine ⟨M', V', ps, hstep.trans r1, r2, r3.change ?_, N, .skip (beyond_off hd hf hl hpl.1 hpl.2 hoff) r4⟩
        intro v hv
        ext s
        have := (pn v.q (List.mem_map_of_mem hv)).2
        unfold within
        simp only [List.mem_cons, Set.mem_ofPred_eq]
        constructor
        · rintro ⟨rfl | h1, h2⟩
          · exact absurd h2 this
          · exact ⟨h1, h2⟩
        · rintro ⟨h1, h2⟩; exact ⟨Or.inr h1, h2⟩
      · -- a leaf
        have hpV : p ∈ V.map Leaf.q := by
          rcases h.cases p List.mem_cons_self with c | c | ⟨c1, c2, v, c3, c4, c5⟩
          · exact absurd c hoff
          · exact c
          · exfalso
            have c6 := (sub p List.mem_cons_self v c3).mp c5
            rcases List.mem_cons.mp c4 with rfl | c4
            · exact c6.2.2 rfl
            · have c7 := s1 v c4
              have c8 := (valid_ssubset_iff hd (hvq v c3).1 c1).mp c5
              rw [before_interval] at c7
              omega
        obtain ⟨hpv, hpi1, hpi2⟩ := hvq p hpV
        have hin := beyond_in hd hf hf9 hl hl9 hpv hpi1 hpi2
        -- the entries behind `p`
        have hinj : ∀ v ∈ V.map Leaf.q, start p < stop v → start v < stop p → v = p := by
          intro v hv h1 h2
          rcases Nat.le_total (start v) (start p) with h3 | h3
          · exact path_start_inj h.path hv hpV h3 h1
          · exact (path_start_inj h.path hpV hv h3 h2).symm
        have hdesc : ∀ w ∈ rest, start w < stop p → isAncestor p w = true ∧ FamHead p w := by
          intro w hw hws
          have hbw := s1 w hw
          have hwlt := start_lt_stop w
          have hle : start p ≤ start w := by rw [before_interval] at hbw; omega
          rcases h.cases w (List.mem_cons_of_mem _ hw) with c | c | ⟨c1, c2, v, c3, c4, c5⟩
          · unfold Off at c; omega
          · have := hinj w c (by omega) hws
            subst this
            exact absurd hbw Before.irrefl
          · have c6 := (sub w (List.mem_cons_of_mem _ hw) v c3).mp c5
            have := hinj v c3 (by omega) (by omega)
            subst this
            have c7 := (isAncestor_iff hd hpv.aligned c1.aligned).mpr c5
            exact ⟨c7, c1, c2, c7⟩
        have hanc : ∀ w ∈ rest, isAncestor p w = true → start w < stop p := by
          intro w hw hc
          have hwl := h.legal w (List.mem_cons_of_mem _ hw)
          have := (subset_iff_interval hd hpv.aligned hwl.1 hpv.int32 hwl.2).mp
            ((isAncestor_iff hd hpv.aligned hwl.1).mp hc).1
          have := start_lt_stop w
          omega
        obtain ⟨T, hT⟩ : ∃ T, rest.takeWhile (isAncestor p) = T := ⟨_, rfl⟩
        obtain ⟨D, hD⟩ : ∃ D, rest.dropWhile (isAncestor p) = D := ⟨_, rfl⟩
        have hTD : T ++ D = rest := by rw [← hT, ← hD]; exact List.takeWhile_append_dropWhile
        have hTa : ∀ w ∈ T, isAncestor p w = true := by
          intro w hw
          rw [← hT] at hw
          exact takeWhile_all hw
        have hDs : ∀ w ∈ D, stop p ≤ start w := by
          cases hDc : D with
          | nil => intro w hw; simp at hw
          | cons x D' =>
            have hx : isAncestor p x = false := by
              have := List.head?_dropWhile_not (p := isAncestor p) (l := rest)
              rw [hD, hDc] at this
              simpa using this
            have hxr : x ∈ rest := by rw [← hTD, hDc]; simp
            have hxs : stop p ≤ start x := by
              by_contra hc
              rw [(hdesc x hxr (by omega)).1] at hx
              simp at hx
            have hsD : (x :: D').Pairwise Before := by
              rw [← hTD, hDc] at s2
              exact (List.pairwise_append.mp s2).2.1
            intro w hw
            rcases List.mem_cons.mp hw with rfl | hw
            · exact hxs
            · have := (List.pairwise_cons.mp hsD).1 w hw
              rw [before_interval] at this
              omega
        have hTr : ∀ w ∈ T, w ∈ rest := fun w hw => by rw [← hTD]; exact List.mem_append_left _ hw
        have hDr : ∀ w ∈ D, w ∈ rest := fun w hw => by rw [← hTD]; exact List.mem_append_right _ hw
        have hpT : ∀ w ∈ rest, Cells w ⊂ Cells p → w ∈ T := by
          intro w hw hc
          rw [← hTD] at hw
          rcases List.mem_append.mp hw with hw' | hw'
          · exact hw'
          · have h1 := hDs w hw'
            have h2 := (sub w (List.mem_cons_of_mem _ (hDr w hw')) p hpV).mp hc
            have := start_lt_stop w
            omega
        cases hTc : T with
        | nil =>
          have hDrest : D = rest := by rw [← hTD, hTc]; rfl
          have hstep : borderLoop bs init bound fdesc ldesc (p :: rest) (M, V) = borderLoop bs init bound fdesc ldesc rest (M, V) := by
            rw [borderLoop, if_neg (by rw [hin]; simp), hT, hTc]
          obtain ⟨M', V', ps, r1, r2, r3, N, r4⟩ := ih rest M V a (by omega) ⟨h.path, h.low, h.valid, s2,
            fun w hw => h.legal w (List.mem_cons_of_mem _ hw), by
              intro w hw
              rcases h.cases w (List.mem_cons_of_mem _ hw) with c | c | ⟨c1, c2, v, c3, c4, c5⟩
              · exact Or.inl c
              · exact Or.inr (Or.inl c)
              · refine Or.inr (Or.inr ⟨c1, c2, v, c3, (List.mem_cons.mp c4).resolve_left ?_, c5⟩)
                rintro rfl
                have := hpT w hw c5
                rw [hTc] at this
                simp at this⟩
          refine ⟨M', V', ps, hstep.trans r1, r2, r3.change ?_, N, .bare hin (hT.trans hTc) r4⟩
          intro v hv
          have hvV : v.q ∈ V.map Leaf.q := List.mem_map_of_mem hv
          ext s
          unfold within
          simp only [List.mem_cons, Set.mem_ofPred_eq]
          constructor
          · rintro ⟨rfl | h1, h2⟩
            · exfalso
              have h3 := (sub s List.mem_cons_self v.q hvV).mp h2
              exact h3.2.2 (hinj v.q hvV (by omega) (by omega)).symm
            · exact ⟨h1, h2⟩
          · rintro ⟨h1, h2⟩; exact ⟨Or.inr h1, h2⟩
        | cons r rs =>
          obtain ⟨i, V1, x, V2, b1, b2, b3, b4, b5, b6⟩ := find_leaf hd hbs h.path h.valid hpV
          have hfamT : ∀ w ∈ r :: rs, FamHead p w := by
            intro w hw
            rw [← hTc] at hw
            exact (hdesc w (hTr w hw) (hanc w (hTr w hw) (hTa w hw))).2
          obtain ⟨k1, k2⟩ := seedLoop_spec hd rs hpv hfamT
          have hsT : (r :: rs).Pairwise Before := by
            rw [← hTD, hTc] at s2
            exact (List.pairwise_append.mp s2).1
          have hsortR : SortedWeak (seedLoop r rs) := (hsT.sublist k1).imp fun h => h.asymm
          have hRT : ∀ w ∈ seedLoop r rs, w ∈ T := fun w hw => by rw [hTc]; exact k1.subset hw
          have hneR : seedLoop r rs ≠ [] := by
            obtain ⟨y, hy, -⟩ := k2 r List.mem_cons_self
            exact List.ne_nil_of_mem hy
          obtain ⟨out, o1, o2, o3, o4, o5, o6, -⟩ := kernel_border hdim hbs.1 hk hbound hpv hsortR
            (fun w hw => hfamT w (by rw [← hTc]; exact hRT w hw)) hneR
          have hpath := h.path
          rw [b5, List.map_append, List.map_cons, path_append] at hpath
          obtain ⟨a', pa1, pa2, pa3⟩ := hpath
          rw [b6] at pa2 pa3
          subst a'
          have hV1 : ∀ v ∈ V1, v ∈ V := fun v hv => by rw [b5]; simp [hv]
          have hV2 : ∀ v ∈ V2, v ∈ V := fun v hv => by rw [b5]; simp [hv]
          have hpout : p ∉ out := by
            intro hc
            have := (isAncestor_iff_div.mp (o3 p hc).2).1
            omega
          have hm1 := merged_keep init V1 (path_nodup pa1) M
          have hm2 := merged_replace init x out (by rw [b6]; exact hpout) { M with leaves := M.leaves ++ V1 }
          obtain ⟨M1, hM1⟩ : ∃ M1, out.foldl (mergeNew init) { M with leaves := M.leaves ++ V1, perLevel := bump M.perLevel x.q.level (-1), freed := M.freed ++ [x] } = M1 := ⟨_, rfl⟩
          dsimp only at hm2
          rw [hM1] at hm2
          have hstep : borderLoop bs init bound fdesc ldesc (p :: rest) (M, V) = borderLoop bs init bound fdesc ldesc D (M1, V2) := by
            rw [borderLoop, if_neg (by rw [hin]; simp), hT, hTc]
            dsimp only
            have : borderOne bs init bound p r rs (M, V) = some (M1, V2) := by
              unfold borderOne
              dsimp only
              rw [obind b1, obind b2, obind o1, b3, b4, hM1]
            rw [obind this, hD]
          have hlen : D.length ≤ n := by
            have : T.length + D.length = rest.length := by rw [← hTD, List.length_append]
            omega
          obtain ⟨M', V', ps, r1, r2, r3, N, r4⟩ := ih D M1 V2 (stop p) hlen ⟨pa3, by have := h.low; omega,
            fun v hv => h.valid v (hV2 v hv), by
              rw [← hTD] at s2
              exact (List.pairwise_append.mp s2).2.1,
            fun w hw => h.legal w (List.mem_cons_of_mem _ (hDr w hw)), by
              intro w hw
              have hws := hDs w hw
              have hwlt := start_lt_stop w
              have toV2 : ∀ v ∈ V.map Leaf.q, stop p < stop v → v ∈ V2.map Leaf.q := by
                intro v hv h1
                rw [b5, List.map_append, List.map_cons, b6] at hv
                rcases List.mem_append.mp hv with h2 | h2
                · have := (pa1.mem h2).2
                  omega
                · rcases List.mem_cons.mp h2 with rfl | h2
                  · omega
                  · exact h2
              rcases h.cases w (List.mem_cons_of_mem _ (hDr w hw)) with c | c | ⟨c1, c2, v, c3, c4, c5⟩
              · exact Or.inl c
              · exact Or.inr (Or.inl (toV2 w c (by omega)))
              · have c6 := (sub w (List.mem_cons_of_mem _ (hDr w hw)) v c3).mp c5
                have c7 := toV2 v c3 (by omega)
                refine Or.inr (Or.inr ⟨c1, c2, v, c7, ?_, c5⟩)
                have c8 := (pa3.mem c7).1
                rcases List.mem_cons.mp c4 with rfl | c4
                · omega
                · rw [← hTD] at c4
                  rcases List.mem_append.mp c4 with c9 | c9
                  · have := hanc v (hTr v c9) (hTa v c9)
                    omega
                  · exact c9⟩
          have hpsp := r3.path pa3
          refine ⟨M', V', V1.map Leaf.q ++ (out ++ ps), hstep.trans r1, ?_, ?_, (V1, x, out) :: N,
            .step hin (hT.trans hTc) b1 b2 b3 b4 b5 o1 (by rw [b6]; exact hpv) (by rw [b6]; exact o2) (fun u hu => (o3 u hu).1)
              (by rw [b6]; exact hpout) (by rw [hD]; exact r4)⟩
          · rw [b5]
            refine hm1.append (Merged.append (q1 := [x]) hm2 r2 ?_ ?_) ?_ ?_
            · intro u hu hc
              have := (o2.mem hu).2
              have := (pa3.mem hc).1
              have := start_lt_stop u
              omega
            · intro u hu hc
              rw [List.map_singleton, List.mem_singleton, b6] at hc
              have := (hpsp.mem hu).1
              rw [hc] at this
              omega
            · intro u hu hc
              have h1 := (pa1.mem hu).2
              have := start_lt_stop u
              rw [List.map_cons, b6] at hc
              rcases List.mem_cons.mp hc with rfl | hc
              · omega
              · have := (pa3.mem hc).1
                omega
            · intro u hu hc
              have h1 := (pa1.mem hc).2
              have := start_lt_stop u
              rcases List.mem_append.mp hu with hu | hu
              · have := (o2.mem hu).1
                omega
              · have := (hpsp.mem hu).1
                omega
          · rw [b5]
            refine LeafParts.append (pieces_keep V1 (fun v hv => h.valid v (hV1 v hv)) ?_) (LeafParts.cons ?_ (r3.change ?_))
            · intro v hv s hs
              obtain ⟨h1, h2⟩ := hs
              have hvq1 : v.q ∈ V1.map Leaf.q := List.mem_map_of_mem hv
              have h3 := (sub s h1 v.q (List.mem_map_of_mem (hV1 v hv))).mp h2
              have h4 := (pa1.mem hvq1).2
              have := start_lt_stop s
              rcases List.mem_cons.mp h1 with rfl | h1
              · omega
              · have := s1 s h1
                rw [before_interval] at this
                omega
            · rw [b6]
              have hS : ∀ s, s ∈ within (p :: rest) p ↔ s ∈ T := by
                intro s
                unfold within
                simp only [List.mem_cons, Set.mem_ofPred_eq]
                constructor
                · rintro ⟨rfl | h1, h2⟩
                  · exact absurd h2 (lt_irrefl _)
                  · exact hpT s h1 h2
                · intro h1
                  refine ⟨Or.inr (hTr s h1), ?_⟩
                  exact (isAncestor_iff hd hpv.aligned (h.legal s (List.mem_cons_of_mem _ (hTr s h1))).1).mp (hTa s h1)
              have hfam' : ∀ s ∈ T, FamHead p s := fun s hs => hfamT s (by rw [← hTc]; exact hs)
              refine ⟨o2, fun u hu => (o3 u hu).1, o5, ?_, ?_, ?_, fun _ _ => hpout⟩
              · intro s hs u hu hsu
                rw [hS] at hs
                have hsf := hfam' s hs
                have hsl := hsf.lt
                obtain ⟨y, y1, y2⟩ := k2 s (by rw [← hTc]; exact hs)
                have hyf := hfam' y (hRT y y1)
                have huv := (o3 u hu).1
                apply o4 y y1 u hu
                have hsp := parent_valid hsf.valid (by omega)
                exact (parent_cells hd hsp hyf.valid y2).trans (parent_cells hd huv hsf.valid
                  ((isAncestor_iff hd huv.aligned hsf.valid.aligned).mpr hsu))
              · intro u hu _
                refine ⟨(o3 u hu).2, fun U hU hg hfine w hw => ?_⟩
                refine o6 u hu U hU hg ?_ w hw
                intro y hy v hv hc
                have hyf := hfam' y (hRT y hy)
                have hyl := hyf.lt
                have hyp := parent_valid hyf.valid (by omega)
                refine hfine y ((hS y).mpr (hRT y hy)) v hv (lt_of_lt_of_le ?_ hc)
                exact (isAncestor_iff hd hyp.aligned hyf.valid.aligned).mp (isAncestor_parent hd hyf.valid (by omega))
              · intro hno
                exact absurd ((hS r).mpr (by rw [hTc]; exact List.mem_cons_self)) (hno r)
            · intro v hv
              have hvq2 : v.q ∈ V2.map Leaf.q := List.mem_map_of_mem hv
              have hvi := pa3.mem hvq2
              ext s
              unfold within
              simp only [List.mem_cons, Set.mem_ofPred_eq]
              constructor
              · rintro ⟨h1, h2⟩
                refine ⟨?_, h2⟩
                have h3 := (sub s (List.mem_cons.mpr h1) v.q (List.mem_map_of_mem (hV2 v hv))).mp h2
                rcases h1 with rfl | h1
                · omega
                · rw [← hTD] at h1
                  rcases List.mem_append.mp h1 with h4 | h4
                  · have := hanc s (hTr s h4) (hTa s h4)
                    omega
                  · exact h4
              · rintro ⟨h1, h2⟩; exact ⟨Or.inr (hDr s h1), h2⟩

end P4est
