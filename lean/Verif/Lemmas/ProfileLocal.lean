import Mathlib.Algebra.Order.BigOperators.Group.Finset
import Verif.Model.ProfileLocal
import Verif.Spec.Layers
import Verif.Lemmas.File
import Verif.Props.Profile

/-! # Invariants of the exchange of profiles between columns -/

namespace P4est
open Spec

/-- The nodes at this position of the columns are used: all of them, or all but the corners for balance across faces. -/
def usedPos (m : ProfileMesh) (k : ℕ) : Prop := ¬ (isCornerPos k = true ∧ m.btype = .face)

/-- The columns have a node in common. -/
def touching (m : ProfileMesh) (e e' : ℕ) : Prop :=
  ∃ k < 9, ∃ k' < 9, usedPos m k ∧ usedPos m k' ∧ m.en e k = m.en e' k'

/-- What `p4est_lnodes_new` provides: nodes are numbered, and the node at the center of a column is not a node of
any other column. -/
structure MeshOk (m : ProfileMesh) (nodes : ℕ) : Prop where
  bound : ∀ e < m.num, ∀ k < 9, m.en e k < nodes
  center : ∀ e < m.num, ∀ e' < m.num, ∀ k < 9, m.en e 4 = m.en e' k → e = e' ∧ k = 4
  height : m.diff < 2 ^ 30

/-- The fixed data of the invariants. -/
structure LayerSetup (m : ProfileMesh) (nodes : ℕ) (layers : ℕ → List ℕ) : Prop where
  mesh : MeshOk m nodes
  column : ∀ e < m.num, Column 0 (layers e) (2 ^ 30 - m.diff)

/-- A balanced refinement of all columns. -/
abbrev Goal (m : ProfileMesh) (layers c : ℕ → List ℕ) : Prop :=
  BalancedLayers m.num (2 ^ 30 - m.diff) (touching m) layers c

/-- A profile that fits to a column: in every balanced refinement the column is at least as fine. -/
def ColOk (m : ProfileMesh) (layers : ℕ → List ℕ) (e : ℕ) (p : List ℕ) : Prop :=
  Column 0 p (2 ^ 30 - m.diff) ∧ Graded p ∧ ∀ c, Goal m layers c → Finer p (c e)

/-- A profile that fits to a node. -/
def NodeOk (m : ProfileMesh) (layers : ℕ → List ℕ) (n : ℕ) (p : List ℕ) : Prop :=
  Column 0 p (2 ^ 30 - m.diff) ∧ Graded p ∧
    ∀ c, Goal m layers c → ∀ e < m.num, ∀ k < 9, usedPos m k → m.en e k = n → Finer p (c e)

theorem used_center (m : ProfileMesh) : usedPos m 4 := by
  intro h; exact absurd h.1 (by decide)

theorem Spec.Finer.trans' {a b c : List ℕ} (h : Finer a b) (h' : Finer b c) : Finer a c :=
  fun x => (h x).trans (h' x)

theorem NodeOk.col {m : ProfileMesh} {layers : ℕ → List ℕ} {e k : ℕ} {p : List ℕ} (he : e < m.num) (hk : k < 9)
    (hu : usedPos m k) (h : NodeOk m layers (m.en e k) p) : ColOk m layers e p :=
  ⟨h.1, h.2.1, fun c hc => h.2.2 c hc e he k hk hu rfl⟩

theorem ColOk.node {m : ProfileMesh} {nodes : ℕ} {layers : ℕ → List ℕ} (hm : MeshOk m nodes) {e : ℕ}
    {p : List ℕ} (he : e < m.num) (h : ColOk m layers e p) : NodeOk m layers (m.en e 4) p := by
  refine ⟨h.1, h.2.1, fun c hc e' he' k hk _ hn => ?_⟩
  obtain ⟨rfl, _⟩ := hm.center e he e' he' k hk hn.symm
  exact h.2.2 c hc

theorem column_pos {m : ProfileMesh} {nodes : ℕ} (hm : MeshOk m nodes) {p : List ℕ}
    (h : Column 0 p (2 ^ 30 - m.diff)) : p ≠ [] :=
  column_ne_nil h (by have := hm.height; omega)

/-- The union of two profiles that fit to a node fits. -/
theorem NodeOk.union {m : ProfileMesh} {layers : ℕ → List ℕ} {n : ℕ} {p q : List ℕ}
    (hp : NodeOk m layers n p) (hq : NodeOk m layers n q) :
    ∃ w, profileUnion p q = some w ∧ NodeOk m layers n w ∧ Finer p w ∧ Finer q w ∧
      q.length ≤ w.length ∧ (w.length = q.length → w = q) := by
  obtain ⟨w, h, hc, _, h1, h2, h3⟩ := C41_union hp.1 hq.1
  have hl := C41_union_length hp.1 hq.1 h
  exact ⟨w, h, ⟨hc, C41_union_graded hp.1 hq.1 hp.2.1 hq.2.1 h,
    fun c hg e he k hk hu hn => h3 _ (hp.2.2 c hg e he k hk hu hn) (hq.2.2 c hg e he k hk hu hn)⟩, h1, h2,
    hl.2.1, hl.2.2.1⟩

theorem ColOk.union {m : ProfileMesh} {layers : ℕ → List ℕ} {e : ℕ} {p q : List ℕ}
    (hp : ColOk m layers e p) (hq : ColOk m layers e q) :
    ∃ w, profileUnion p q = some w ∧ ColOk m layers e w ∧ Finer p w ∧ Finer q w ∧
      p.length ≤ w.length ∧ (w.length = p.length → w = p) := by
  obtain ⟨w, h, hc, _, h1, h2, h3⟩ := C41_union hp.1 hq.1
  have hl := C41_union_length hp.1 hq.1 h
  exact ⟨w, h, ⟨hc, C41_union_graded hp.1 hq.1 hp.2.1 hq.2.1 h,
    fun c hg => h3 _ (hp.2.2 c hg) (hq.2.2 c hg)⟩, h1, h2, hl.1.1, hl.1.2.1⟩

/-- The demands of a column fit to its nodes. -/
theorem demands_ok {m : ProfileMesh} {nodes : ℕ} {layers : ℕ → List ℕ} (hm : MeshOk m nodes) {e : ℕ}
    {self : List ℕ} (he : e < m.num) (h : ColOk m layers e self) :
    ∃ face corner, profileDemands m self = some (face, corner) ∧
      (∀ k < 9, ∀ this, profileFor m self face corner k = some this →
        FaceBalanced self this ∧ Finer this self) ∧
      ∀ k < 9, ∀ this, profileFor m self face corner k = some this →
        usedPos m k ∧ NodeOk m layers (m.en e k) this := by
  have hh := hm.height
  obtain ⟨b, hb, h1, h2, h3, h4⟩ := C41_balance_face h.1 (by omega) (by omega)
  rw [show 2 ^ 30 - (2 ^ 30 - m.diff) = m.diff by omega] at hb
  have hf : balanceFull self m.diff = some b := by rw [C55_full_is_face h.2.1, hb]
  have hnode : ∀ k < 9, usedPos m k → NodeOk m layers (m.en e k) b := by
    intro k hk hu
    refine ⟨h1, h2, fun c hc e' he' k' hk' hu' hn => h4 _ (hc.column e' he') (hc.graded e' he') fun x => ?_⟩
    have := hc.balanced e he e' he' ⟨k, hk, k', hk', hu, hu', hn.symm⟩ x
    have := h.2.2 c hc x
    omega
  have hfor : ∀ corner, (m.btype ≠ .face → corner = b) → ∀ k < 9, ∀ this,
      profileFor m self b corner k = some this → (FaceBalanced self this ∧ Finer this self) ∧
        usedPos m k ∧ NodeOk m layers (m.en e k) this := by
    have hbs : Finer b self := h4 _ h.1 h.2.1 fun x => by omega
    intro corner hcb k hk this ht
    unfold profileFor at ht
    by_cases hc : isCornerPos k = true
    · rw [if_pos hc] at ht
      by_cases hbt : m.btype = .face
      · rw [if_pos hbt] at ht; exact absurd ht (by simp)
      · rw [if_neg hbt] at ht
        have hu : usedPos m k := fun h => hbt h.2
        obtain rfl := Option.some.inj ht
        rw [hcb hbt]
        exact ⟨⟨h3, hbs⟩, hu, hnode k hk hu⟩
    · rw [if_neg hc] at ht
      have hu : usedPos m k := fun h => hc h.1
      by_cases h4 : k = 4
      · rw [if_pos h4] at ht
        obtain rfl := Option.some.inj ht
        subst h4
        exact ⟨⟨fun x => by omega, fun _ => le_refl _⟩, hu, h.node hm he⟩
      · rw [if_neg h4] at ht
        obtain rfl := Option.some.inj ht
        exact ⟨⟨h3, hbs⟩, hu, hnode k hk hu⟩
  have hfin : ∀ corner, (m.btype ≠ .face → corner = b) → profileDemands m self = some (b, corner) →
      ∃ face corner, profileDemands m self = some (face, corner) ∧
      (∀ k < 9, ∀ this, profileFor m self face corner k = some this →
        FaceBalanced self this ∧ Finer this self) ∧
      ∀ k < 9, ∀ this, profileFor m self face corner k = some this →
        usedPos m k ∧ NodeOk m layers (m.en e k) this := fun corner hcb hd =>
    ⟨b, corner, hd, fun k hk this ht => (hfor corner hcb k hk this ht).1,
      fun k hk this ht => (hfor corner hcb k hk this ht).2⟩
  cases hbt : m.btype with
  | face => exact hfin [] (fun h => absurd hbt h) (by simp [profileDemands, hbt, hb])
  | edge => exact hfin b (fun _ => rfl) (by simp [profileDemands, hbt, hb, hf])
  | full => exact hfin b (fun _ => rfl) (by simp [profileDemands, hbt, hf])

/-- A loop that keeps an invariant. -/
theorem foldlM_keeps {τ : Type} {f : τ → ℕ → Option τ} {P : τ → Prop} {R : τ → τ → Prop} {Q : ℕ → τ → Prop}
    (hrefl : ∀ s, R s s) (htrans : ∀ a b c, R a b → R b c → R a c) (hQ : ∀ k a b, Q k a → R a b → Q k b)
    {n : ℕ} (hf : ∀ s, ∀ k < n, P s → ∃ s', f s k = some s' ∧ P s' ∧ R s s' ∧ Q k s') {s : τ} (hs : P s) :
    ∃ s', (List.range n).foldlM f s = some s' ∧ P s' ∧ R s s' ∧ ∀ k < n, Q k s' := by
  induction n with
  | zero => exact ⟨s, rfl, hs, hrefl s, by simp⟩
  | succ n ih =>
    obtain ⟨s1, h1, p1, r1, q1⟩ := ih fun s k hk => hf s k (by omega)
    obtain ⟨s2, h2, p2, r2, q2⟩ := hf s1 n (by omega) p1
    refine ⟨s2, ?_, p2, htrans _ _ _ r1 r2, fun k hk => ?_⟩
    · rw [List.range_succ, List.foldlM_append, obind h1]
      simp [h2]
    · rcases Nat.lt_succ_iff_lt_or_eq.1 hk with h | rfl
      · exact hQ k _ _ (q1 k h) r2
      · exact q2

/-! ### The invariant -/

/-- Every profile fits to its node. -/
def AllOk (m : ProfileMesh) (layers : ℕ → List ℕ) (s : Profiles) : Prop :=
  ∀ n, s.prof n = [] ∨ NodeOk m layers n (s.prof n)

/-- Profiles only become finer. -/
def Grows (s s' : Profiles) : Prop := ∀ n, (s.prof n ≠ [] → s'.prof n ≠ [] ∧ Finer (s.prof n) (s'.prof n)) ∧
  (s.prof n).length ≤ (s'.prof n).length

theorem Grows.refl (s : Profiles) : Grows s s := fun _ => ⟨fun h => ⟨h, fun _ => le_refl _⟩, le_refl _⟩

theorem Grows.trans (a b c : Profiles) (h : Grows a b) (h' : Grows b c) : Grows a c := fun n =>
  ⟨fun hn => ⟨((h' n).1 ((h n).1 hn).1).1, fun x => (((h n).1 hn).2 x).trans (((h' n).1 ((h n).1 hn).1).2 x)⟩,
    (h n).2.trans (h' n).2⟩

theorem setAt_eq {β : Type} (f : ℕ → β) (n : ℕ) (x : β) : setAt f n x n = x := by simp [setAt]

theorem setAt_ne {β : Type} (f : ℕ → β) {n i : ℕ} (x : β) (h : i ≠ n) : setAt f n x i = f i := by
  simp [setAt, h]

theorem allOk_set {m : ProfileMesh} {layers : ℕ → List ℕ} {s s' : Profiles} {n : ℕ} {p : List ℕ}
    (h : AllOk m layers s) (hp : NodeOk m layers n p) (hs : s'.prof = setAt s.prof n p) : AllOk m layers s' := by
  intro i
  rw [hs]
  by_cases hi : i = n
  · subst hi; rw [setAt_eq]; exact .inr hp
  · rw [setAt_ne _ _ hi]; exact h i

theorem grows_set {s s' : Profiles} {n : ℕ} {p : List ℕ} (h : s.prof n ≠ [] → Finer (s.prof n) p)
    (h0 : p ≠ []) (hl : (s.prof n).length ≤ p.length) (hs : s'.prof = setAt s.prof n p) : Grows s s' := by
  intro i
  rw [hs]
  by_cases hi : i = n
  · subst hi; rw [setAt_eq]; exact ⟨fun hn => ⟨h0, h hn⟩, hl⟩
  · rw [setAt_ne _ _ hi]; exact ⟨fun h => ⟨h, fun _ => le_refl _⟩, le_refl _⟩

theorem grows_of_eq {s s' : Profiles} (h : s'.prof = s.prof) : Grows s s' := by
  intro i; rw [h]; exact ⟨fun h => ⟨h, fun _ => le_refl _⟩, le_refl _⟩

/-- The node at the position has a profile at least as fine as demanded. -/
def Has (m : ProfileMesh) (e : ℕ) (this : ℕ → Option (List ℕ)) (k : ℕ) (s : Profiles) : Prop :=
  ∀ p, this k = some p → s.prof (m.en e k) ≠ [] ∧ Finer p (s.prof (m.en e k))

theorem Has.mono {m : ProfileMesh} {e : ℕ} {this : ℕ → Option (List ℕ)} (k : ℕ) (a b : Profiles)
    (h : Has m e this k a) (hg : Grows a b) : Has m e this k b := fun p hp =>
  ⟨((hg _).1 (h p hp).1).1, ((h p hp).2).trans' ((hg _).1 (h p hp).1).2⟩

theorem newNode_keeps {m : ProfileMesh} {nodes : ℕ} {layers : ℕ → List ℕ} (hm : MeshOk m nodes) {e : ℕ}
    {self face corner : List ℕ}
    (hfor : ∀ k < 9, ∀ this, profileFor m self face corner k = some this →
        usedPos m k ∧ NodeOk m layers (m.en e k) this) (s : Profiles) (k : ℕ) (hk : k < 9)
    (hs : AllOk m layers s) :
    ∃ s', newNode m e self face corner s k = some s' ∧ AllOk m layers s' ∧ Grows s s' ∧
      Has m e (profileFor m self face corner) k s' := by
  unfold newNode
  cases hp : profileFor m self face corner k with
  | none => exact ⟨s, rfl, hs, Grows.refl s, fun p h => by rw [hp] at h; exact absurd h (by simp)⟩
  | some this =>
    obtain ⟨_, hthis⟩ := hfor k hk this hp
    have hne := column_pos hm hthis.1
    dsimp only
    by_cases h0 : (s.prof (m.en e k)).length = 0
    · rw [if_pos h0]
      have h0' : s.prof (m.en e k) = [] := List.length_eq_zero_iff.1 h0
      refine ⟨_, rfl, allOk_set hs hthis rfl, grows_set (fun h => absurd h0' h) hne (by omega) rfl, ?_⟩
      intro p h
      rw [hp] at h
      obtain rfl := Option.some.inj h
      simp only [setAt_eq]
      exact ⟨hne, fun _ => le_refl _⟩
    · rw [if_neg h0]
      have hold : NodeOk m layers (m.en e k) (s.prof (m.en e k)) := by
        rcases hs (m.en e k) with h | h
        · rw [h] at h0; simp at h0
        · exact h
      obtain ⟨w, hw, h1, h2, h3, h4, h5⟩ := hthis.union hold
      rw [obind hw]
      by_cases hl : w.length > (s.prof (m.en e k)).length
      · rw [if_pos hl]
        refine ⟨_, rfl, allOk_set hs h1 rfl, grows_set (fun _ => h3) (column_pos hm h1.1) hl.le rfl, ?_⟩
        intro p h
        rw [hp] at h
        obtain rfl := Option.some.inj h
        simp only [setAt_eq]
        exact ⟨column_pos hm h1.1, h2⟩
      · rw [if_neg hl]
        refine ⟨_, rfl, hs, grows_of_eq rfl, ?_⟩
        intro p h
        rw [hp] at h
        obtain rfl := Option.some.inj h
        have hwq := h5 (by omega)
        rw [hwq] at h2
        exact ⟨column_pos hm hold.1, h2⟩

/-- The columns handled so far have profiles at all their nodes, and the profile at the center refines the column. -/
def Started (m : ProfileMesh) (layers : ℕ → List ℕ) (e : ℕ) (s : Profiles) : Prop :=
  (∀ k < 9, usedPos m k → s.prof (m.en e k) ≠ []) ∧ Finer (layers e) (s.prof (m.en e 4))

theorem Started.mono {m : ProfileMesh} {layers : ℕ → List ℕ} (e : ℕ) (a b : Profiles)
    (h : Started m layers e a) (hg : Grows a b) : Started m layers e b :=
  ⟨fun k hk hu => ((hg _).1 (h.1 k hk hu)).1,
    h.2.trans' ((hg _).1 (h.1 4 (by omega) (used_center m))).2⟩

theorem profileFor_used {m : ProfileMesh} {self face corner : List ℕ} {k : ℕ} (h : usedPos m k) :
    ∃ p, profileFor m self face corner k = some p := by
  unfold profileFor
  by_cases hc : isCornerPos k = true
  · rw [if_pos hc, if_neg (fun hb => h ⟨hc, hb⟩)]; exact ⟨_, rfl⟩
  · rw [if_neg hc]; split
    · exact ⟨_, rfl⟩
    · exact ⟨_, rfl⟩

theorem profileFor_center {m : ProfileMesh} {self face corner : List ℕ} :
    profileFor m self face corner 4 = some self := by
  unfold profileFor; rw [if_neg (by decide), if_pos rfl]

theorem newColumn_keeps {m : ProfileMesh} {nodes : ℕ} {layers : ℕ → List ℕ} (hL : LayerSetup m nodes layers)
    (s : Profiles) (e : ℕ) (he : e < m.num) (hs : AllOk m layers s) :
    ∃ s', newColumn m layers s e = some s' ∧ AllOk m layers s' ∧ Grows s s' ∧ Started m layers e s' := by
  have hh := hL.mesh.height
  obtain ⟨self, h1, h2, h3, h4, h5⟩ := C41_balance_self (hL.column e he) (by omega)
  have hcol : ColOk m layers e self :=
    ⟨h2, h4, fun c hc => h5 _ (hc.column e he) (hc.refines e he) (hc.graded e he)⟩
  obtain ⟨face, corner, hd, _, hfor⟩ := demands_ok hL.mesh he hcol
  unfold newColumn
  rw [obind h1, obind hd]
  obtain ⟨s', e1, e2, e3, e4⟩ := foldlM_keeps (R := Grows) (Q := Has m e (profileFor m self face corner))
    Grows.refl Grows.trans Has.mono (fun s k hk hs => newNode_keeps hL.mesh hfor s k hk hs) hs
  refine ⟨s', e1, e2, e3, fun k hk hu => ?_, ?_⟩
  · obtain ⟨p, hp⟩ := profileFor_used (self := self) (face := face) (corner := corner) hu
    exact (e4 k hk p hp).1
  · exact h3.trans' (e4 4 (by omega) self profileFor_center).2

/-! ### The turns -/

theorem absorb_keeps {m : ProfileMesh} {layers : ℕ → List ℕ} {s : Profiles}
    (hs : AllOk m layers s) {e : ℕ} (he : e < m.num) (hst : Started m layers e s) (p0 : List ℕ)
    (this : List ℕ × Bool) (k : ℕ) (hk : k < 9) (h : ColOk m layers e this.1 ∧ Finer p0 this.1) :
    ∃ this', absorbNode m e s this k = some this' ∧ (ColOk m layers e this'.1 ∧ Finer p0 this'.1) := by
  unfold absorbNode
  dsimp only
  by_cases h1 : ¬ s.changed (m.en e k) = true
  · rw [if_pos h1]; exact ⟨this, rfl, h⟩
  rw [if_neg h1]
  by_cases h2 : isCornerPos k = true ∧ m.btype = .face
  · rw [if_pos h2]; exact ⟨this, rfl, h⟩
  rw [if_neg h2]
  by_cases h3 : k = 4
  · rw [if_pos h3]; exact ⟨this, rfl, h⟩
  rw [if_neg h3]
  by_cases h4 : s.counts e k = (s.prof (m.en e k)).length
  · rw [if_pos h4]; exact ⟨this, rfl, h⟩
  rw [if_neg h4]
  have hn : NodeOk m layers (m.en e k) (s.prof (m.en e k)) := by
    rcases hs (m.en e k) with h' | h'
    · exact absurd h' (hst.1 k hk h2)
    · exact h'
  obtain ⟨w, hw, i1, i2, _, _, _⟩ := h.1.union (hn.col he hk h2)
  rw [obind hw]
  by_cases hl : w.length > this.1.length
  · rw [if_pos hl]; exact ⟨_, rfl, i1, h.2.trans' i2⟩
  · rw [if_neg hl]; exact ⟨this, rfl, h⟩

/-- A change is reported only if some profile has grown. -/
def Progress (nodes : ℕ) (a b : Profiles × Bool) : Prop :=
  Grows a.1 b.1 ∧ (b.2 = true → a.2 = true ∨ ∃ n < nodes, (a.1.prof n).length < (b.1.prof n).length)

theorem Progress.refl (nodes : ℕ) (s : Profiles × Bool) : Progress nodes s s :=
  ⟨Grows.refl _, fun h => .inl h⟩

theorem Progress.trans (nodes : ℕ) (a b c : Profiles × Bool) (h : Progress nodes a b) (h' : Progress nodes b c) :
    Progress nodes a c := by
  refine ⟨h.1.trans _ _ _ h'.1, fun hc => ?_⟩
  rcases h'.2 hc with hb | ⟨n, hn, hl⟩
  · rcases h.2 hb with ha | ⟨n, hn, hl⟩
    · exact .inl ha
    · exact .inr ⟨n, hn, lt_of_lt_of_le hl (h'.1 n).2⟩
  · exact .inr ⟨n, hn, lt_of_le_of_lt (h.1 n).2 hl⟩

theorem offer_keeps {m : ProfileMesh} {nodes : ℕ} {layers : ℕ → List ℕ} (hm : MeshOk m nodes) {e : ℕ}
    (he : e < m.num) {self face corner : List ℕ}
    (hfor : ∀ k < 9, ∀ this, profileFor m self face corner k = some this →
        usedPos m k ∧ NodeOk m layers (m.en e k) this)
    (s : Profiles × Bool) (k : ℕ) (hk : k < 9)
    (hs : AllOk m layers s.1 ∧ Started m layers e s.1 ∧ (s.1.prof (m.en e 4) ≠ [] → Finer (s.1.prof (m.en e 4)) self)) :
    ∃ s', offerNode m e self face corner s k = some s' ∧
      (AllOk m layers s'.1 ∧ Started m layers e s'.1 ∧ (s'.1.prof (m.en e 4) ≠ [] → Finer (s'.1.prof (m.en e 4)) self)) ∧
      Progress nodes s s' := by
  obtain ⟨h1, h2, h3⟩ := hs
  unfold offerNode
  cases hp : profileFor m self face corner k with
  | none => exact ⟨s, rfl, ⟨h1, h2, h3⟩, Progress.refl _ _⟩
  | some this =>
    obtain ⟨hu, hthis⟩ := hfor k hk this hp
    have hold : NodeOk m layers (m.en e k) (s.1.prof (m.en e k)) := by
      rcases h1 (m.en e k) with h' | h'
      · exact absurd h' (h2.1 k hk hu)
      · exact h'
    dsimp only
    by_cases h4 : k = 4
    · subst h4
      rw [profileFor_center] at hp
      obtain rfl := Option.some.inj hp
      simp only [if_true]
      rw [obind rfl]
      by_cases hl : self.length > (s.1.prof (m.en e 4)).length
      · rw [if_pos hl]
        have hg : Grows s.1 { s.1 with prof := setAt s.1.prof (m.en e 4) self } :=
          grows_set h3 (column_pos hm hthis.1) hl.le rfl
        refine ⟨_, rfl, ⟨allOk_set h1 hthis rfl, Started.mono e _ _ h2 hg, ?_⟩, hg, fun h => .inl h⟩
        intro _; simp only [setAt_eq]; exact fun _ => le_refl _
      · rw [if_neg hl]
        exact ⟨_, rfl, ⟨h1, h2, h3⟩, Grows.refl _, fun h => .inl h⟩
    · simp only [if_neg h4]
      obtain ⟨w, hw, i1, i2, i3, i4, i5⟩ := hthis.union hold
      rw [obind hw]
      by_cases hl : w.length > (s.1.prof (m.en e k)).length
      · rw [if_pos hl]
        have hg : Grows s.1 { s.1 with prof := setAt s.1.prof (m.en e k) w, next := setAt s.1.next (m.en e k) true } :=
          grows_set (fun _ => i3) (column_pos hm i1.1) hl.le rfl
        refine ⟨_, rfl, ⟨allOk_set h1 i1 rfl, Started.mono e _ _ h2 hg, ?_⟩, hg, fun _ => .inr
          ⟨m.en e k, hm.bound e he k hk, ?_⟩⟩
        · have hne : m.en e 4 ≠ m.en e k := fun h => h4 (hm.center e he e he k hk h).2
          simp only [setAt_ne _ _ hne]
          exact h3
        · simp only [setAt_eq]; exact hl
      · rw [if_neg hl]
        exact ⟨_, rfl, ⟨h1, h2, h3⟩, Grows.refl _, fun h => .inl h⟩

theorem balanceColumn_keeps {m : ProfileMesh} {nodes : ℕ} {layers : ℕ → List ℕ} (hm : MeshOk m nodes)
    (s : Profiles × Bool) (e : ℕ) (he : e < m.num)
    (hs : AllOk m layers s.1 ∧ ∀ e < m.num, Started m layers e s.1) :
    ∃ s', balanceColumn m s e = some s' ∧ (AllOk m layers s'.1 ∧ ∀ e < m.num, Started m layers e s'.1) ∧
      Progress nodes s s' := by
  obtain ⟨h1, h2⟩ := hs
  have hc : NodeOk m layers (m.en e 4) (s.1.prof (m.en e 4)) := by
    rcases h1 (m.en e 4) with h' | h'
    · exact absurd h' ((h2 e he).1 4 (by omega) (used_center m))
    · exact h'
  have hcol := hc.col he (by omega) (used_center m)
  obtain ⟨this, a1, a2, _, _⟩ := foldlM_keeps (R := fun _ _ => True) (Q := fun _ _ => True)
    (P := fun this : List ℕ × Bool => ColOk m layers e this.1 ∧ Finer (s.1.prof (m.en e 4)) this.1)
    (fun _ => trivial) (fun _ _ _ _ _ => trivial) (fun _ _ _ _ _ => trivial)
    (fun this k hk h => by
      obtain ⟨t, h1, h2⟩ := absorb_keeps h1 he (h2 e he) _ this k hk h
      exact ⟨t, h1, h2, trivial, trivial⟩)
    (s := (s.1.prof (m.en e 4), false)) ⟨hcol, fun _ => le_refl _⟩
  unfold balanceColumn
  rw [obind a1]
  obtain ⟨self, change⟩ := this
  dsimp only at a2 ⊢
  cases change with
  | false => exact ⟨s, rfl, ⟨h1, h2⟩, Progress.refl _ _⟩
  | true =>
    rw [if_pos rfl]
    obtain ⟨face, corner, hd, _, hfor⟩ := demands_ok hm he a2.1
    rw [obind hd]
    obtain ⟨s', e1, e2, e3, _⟩ := foldlM_keeps (R := Progress nodes) (Q := fun _ _ => True)
      (P := fun s : Profiles × Bool => AllOk m layers s.1 ∧ Started m layers e s.1 ∧
        (s.1.prof (m.en e 4) ≠ [] → Finer (s.1.prof (m.en e 4)) self))
      (Progress.refl nodes) (Progress.trans nodes) (fun _ _ _ _ _ => trivial)
      (fun s k hk h => by
        obtain ⟨t, h1, h2, h3⟩ := offer_keeps hm he hfor s k hk h
        exact ⟨t, h1, h2, h3, trivial⟩)
      (s := s) ⟨h1, h2 e he, fun _ => a2.2⟩
    exact ⟨s', e1, ⟨e2.1, fun e he => Started.mono e _ _ (h2 e he) e3.1⟩, e3⟩

theorem balanceTurn_keeps {m : ProfileMesh} {nodes : ℕ} {layers : ℕ → List ℕ} (hm : MeshOk m nodes)
    (s : Profiles) (hs : AllOk m layers s ∧ ∀ e < m.num, Started m layers e s) :
    ∃ s' any, balanceTurn m s = some (s', any) ∧ (AllOk m layers s' ∧ ∀ e < m.num, Started m layers e s') ∧
      Grows s s' ∧ (any = true → ∃ n < nodes, (s.prof n).length < (s'.prof n).length) := by
  obtain ⟨t, e1, e2, e3, _⟩ := foldlM_keeps (R := Progress nodes) (Q := fun _ _ => True)
      (P := fun s : Profiles × Bool => AllOk m layers s.1 ∧ ∀ e < m.num, Started m layers e s.1)
      (Progress.refl nodes) (Progress.trans nodes) (fun _ _ _ _ _ => trivial)
      (fun s k hk h => by
        obtain ⟨t, h1, h2, h3⟩ := balanceColumn_keeps hm s k hk h
        exact ⟨t, h1, h2, h3, trivial⟩)
      (s := ({ s with next := fun _ => false }, false)) hs
  unfold balanceTurn
  rw [obind e1]
  refine ⟨_, _, rfl, e2, e3.1, fun h => ?_⟩
  rcases e3.2 h with h | h
  · exact absurd h (by simp)
  · exact h

theorem length_le_tall : ∀ (p : List ℕ), p.length ≤ tall p
  | [] => by simp
  | l :: p => by
    have := len_pos l
    have := length_le_tall p
    rw [tall_cons, List.length_cons]; omega

theorem length_bound {m : ProfileMesh} {layers : ℕ → List ℕ} {s : Profiles} (h : AllOk m layers s) (n : ℕ) :
    (s.prof n).length ≤ 2 ^ 30 := by
  rcases h n with h | h
  · rw [h]; simp
  · have := column_tall h.1
    have := length_le_tall (s.prof n)
    omega

theorem balanceTurns_keeps {m : ProfileMesh} {nodes : ℕ} {layers : ℕ → List ℕ} (hm : MeshOk m nodes) :
    ∀ (t : ℕ) (s : Profiles), AllOk m layers s → (∀ e < m.num, Started m layers e s) →
    nodes * 2 ^ 30 < (∑ n ∈ Finset.range nodes, (s.prof n).length) + t →
    ∃ s', balanceTurns m t s = some s' ∧ AllOk m layers s' ∧ (∀ e < m.num, Started m layers e s') := by
  intro t
  induction t with
  | zero =>
    intro s hs _ hlt
    exfalso
    have : ∑ n ∈ Finset.range nodes, (s.prof n).length ≤ ∑ n ∈ Finset.range nodes, 2 ^ 30 :=
      Finset.sum_le_sum fun n _ => length_bound hs n
    simp only [Finset.sum_const, Finset.card_range, smul_eq_mul] at this
    omega
  | succ t ih =>
    intro s hs hst hlt
    obtain ⟨s', any, h1, h2, h3, h4⟩ := balanceTurn_keeps hm s ⟨hs, hst⟩
    rw [balanceTurns, obind h1]
    dsimp only
    cases any with
    | false => exact ⟨s', rfl, h2⟩
    | true =>
      rw [if_pos rfl]
      obtain ⟨n, hn, hl⟩ := h4 rfl
      have : ∑ n ∈ Finset.range nodes, (s.prof n).length < ∑ n ∈ Finset.range nodes, (s'.prof n).length :=
        Finset.sum_lt_sum (fun n _ => (h3 n).2) ⟨n, by simpa using hn, hl⟩
      exact ih s' h2.1 h2.2 (by omega)

theorem balanceTurns_more {m : ProfileMesh} : ∀ {t : ℕ} {s s' : Profiles}, balanceTurns m t s = some s' →
    ∀ {t' : ℕ}, t ≤ t' → balanceTurns m t' s = some s'
  | 0, _, _, h, _, _ => by simp [balanceTurns] at h
  | t + 1, s, s', h, 0, hle => by omega
  | t + 1, s, s', h, t' + 1, hle => by
    rw [balanceTurns] at h ⊢
    cases hb : balanceTurn m s with
    | none => rw [hb] at h; exact absurd h (by simp)
    | some r =>
      obtain ⟨s1, any⟩ := r
      rw [obind hb] at h
      cases any with
      | false => exact h
      | true => exact balanceTurns_more (t := t) h (by omega)

end P4est
