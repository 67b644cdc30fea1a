import Verif.Lemmas.ProfileLocal

/-! # When the exchange of profiles overlooks nothing -/

namespace P4est
open Spec

theorem foldlM_steps {τ : Type} {f : τ → ℕ → Option τ} {P : ℕ → τ → Prop} {n : ℕ}
    (hf : ∀ s, ∀ k < n, P k s → ∃ s', f s k = some s' ∧ P (k + 1) s') {s : τ} (hs : P 0 s) :
    ∃ s', (List.range n).foldlM f s = some s' ∧ P n s' := by
  induction n with
  | zero => exact ⟨s, rfl, hs⟩
  | succ n ih =>
    obtain ⟨s1, h1, p1⟩ := ih fun s k hk => hf s k (by omega)
    obtain ⟨s2, h2, p2⟩ := hf s1 n (by omega) p1
    exact ⟨s2, by rw [List.range_succ, List.foldlM_append, obind h1]; simp [h2], p2⟩

/-- A position where a column exchanges profiles with others. -/
def Outer (m : ProfileMesh) (k : ℕ) : Prop := k < 9 ∧ usedPos m k ∧ k ≠ 4

/-- The demand of the column has reached its nodes. -/
def Sent (m : ProfileMesh) (e : ℕ) (s : Profiles) : Prop := ∀ k, Outer m k →
  FaceBalanced (s.prof (m.en e 4)) (s.prof (m.en e k)) ∧ s.counts e k ≤ (s.prof (m.en e k)).length

/-- A node whose profile has the size that the column has noted holds nothing new for the column. -/
def Own (m : ProfileMesh) (e : ℕ) (s : Profiles) : Prop := ∀ k, Outer m k →
  s.counts e k = (s.prof (m.en e k)).length → Finer (s.prof (m.en e k)) (s.prof (m.en e 4))

/-- Whatever is new for the column will be read. -/
def Seen (m : ProfileMesh) (flags : ℕ → Bool) (e : ℕ) (s : Profiles) : Prop := ∀ k, Outer m k →
  Finer (s.prof (m.en e k)) (s.prof (m.en e 4)) ∨
    (flags (m.en e k) = true ∧ s.counts e k < (s.prof (m.en e k)).length)

/-- There is nothing new for the column. -/
def Done (m : ProfileMesh) (e : ℕ) (s : Profiles) : Prop := ∀ k, Outer m k →
  Finer (s.prof (m.en e k)) (s.prof (m.en e 4))

/-! ### After the first profiles -/

/-- The state of a column after its first demands, kept while the other columns send theirs. -/
def Base (m : ProfileMesh) (e : ℕ) (s : Profiles) : Prop := ∀ k, Outer m k → ∃ this,
  Column 0 this (2 ^ 30 - m.diff) ∧ FaceBalanced (s.prof (m.en e 4)) this ∧
  Finer this (s.prof (m.en e 4)) ∧ s.counts e k = this.length ∧ s.prof (m.en e k) ≠ [] ∧
  Finer this (s.prof (m.en e k))

theorem Base.sent {m : ProfileMesh} {layers : ℕ → List ℕ} {e : ℕ} {s : Profiles} (hs : AllOk m layers s)
    (h : Base m e s) : Sent m e s ∧ Own m e s := by
  constructor
  · intro k hk
    obtain ⟨this, h1, h2, h3, h4, h5, h6⟩ := h k hk
    have hc := ((hs (m.en e k)).resolve_left h5).1
    refine ⟨fun x => (h2 x).trans (by have := h6 x; omega), ?_⟩
    rw [h4]; exact (refines_length (refines_of_finer h1 hc h6)).1
  · intro k hk hl
    obtain ⟨this, h1, h2, h3, h4, h5, h6⟩ := h k hk
    have hc := ((hs (m.en e k)).resolve_left h5).1
    rw [(refines_length (refines_of_finer h1 hc h6)).2.1 (by omega)]
    exact h3

/-- What one column changes for the others in the beginning. -/
def NewRel (m : ProfileMesh) (e : ℕ) (s s' : Profiles) : Prop :=
  Grows s s' ∧ s'.changed = s.changed ∧ (∀ e' ≠ e, s'.counts e' = s.counts e') ∧
    ∀ e' < m.num, e' ≠ e → s'.prof (m.en e' 4) = s.prof (m.en e' 4)

theorem NewRel.refl (m : ProfileMesh) (e : ℕ) (s : Profiles) : NewRel m e s s :=
  ⟨Grows.refl s, rfl, fun _ _ => rfl, fun _ _ _ => rfl⟩

theorem NewRel.trans {m : ProfileMesh} {e : ℕ} {a b c : Profiles} (h : NewRel m e a b) (h' : NewRel m e b c) :
    NewRel m e a c :=
  ⟨Grows.trans _ _ _ h.1 h'.1, h'.2.1.trans h.2.1, fun e' he => (h'.2.2.1 e' he).trans (h.2.2.1 e' he),
    fun e' h1 h2 => (h'.2.2.2 e' h1 h2).trans (h.2.2.2 e' h1 h2)⟩

theorem Base.mono {m : ProfileMesh} {e e' : ℕ} {a b : Profiles} (h : Base m e' a) (hr : NewRel m e a b)
    (he : e' ≠ e) (hn : e' < m.num) : Base m e' b := by
  intro k hk
  obtain ⟨this, h1, h2, h3, h4, h5, h6⟩ := h k hk
  have hg := (hr.1 (m.en e' k)).1 h5
  rw [hr.2.2.2 e' hn he]
  exact ⟨this, h1, h2, h3, by rw [hr.2.2.1 e' he, h4], hg.1, h6.trans' hg.2⟩

theorem setAt2_ne {β : Type} (f : ℕ → ℕ → β) {e k e' : ℕ} (x : β) (h : e' ≠ e) : setAt2 f e k x e' = f e' := by
  simp [setAt2, setAt, h]

theorem setAt2_eq {β : Type} (f : ℕ → ℕ → β) (e k : ℕ) (x : β) : setAt2 f e k x e k = x := by
  simp [setAt2, setAt]

theorem setAt2_ne' {β : Type} (f : ℕ → ℕ → β) {e k k' : ℕ} (x : β) (h : k' ≠ k) :
    setAt2 f e k x e k' = f e k' := by
  simp [setAt2, setAt, h]

/-- One write of the beginning in detail. -/
theorem newNode_rel {m : ProfileMesh} {nodes : ℕ} {layers : ℕ → List ℕ} (hm : MeshOk m nodes) {e : ℕ}
    (he : e < m.num) {self face corner : List ℕ}
    (hfor : ∀ k < 9, ∀ this, profileFor m self face corner k = some this →
        usedPos m k ∧ NodeOk m layers (m.en e k) this) (s : Profiles) (k : ℕ) (hk : k < 9)
    (hs : AllOk m layers s) (hc4 : k = 4 → s.prof (m.en e 4) = []) :
    ∃ s', newNode m e self face corner s k = some s' ∧ AllOk m layers s' ∧ NewRel m e s s' ∧
      Has m e (profileFor m self face corner) k s' ∧
      (∀ p, profileFor m self face corner k = some p → s'.counts e k = p.length) ∧
      (∀ k' ≠ k, s'.counts e k' = s.counts e k') ∧
      (k ≠ 4 → s'.prof (m.en e 4) = s.prof (m.en e 4)) ∧ (k = 4 → s'.prof (m.en e 4) = self) := by
  obtain ⟨s', h1, h2, h3, h4⟩ := newNode_keeps hm hfor s k hk hs
  refine ⟨s', h1, h2, ?_⟩
  have hcen : ∀ e' < m.num, (e' ≠ e ∨ k ≠ 4) → m.en e' 4 ≠ m.en e k := by
    intro e' he' hor heq
    obtain ⟨h5, h6⟩ := hm.center e' he' e he k hk heq
    rcases hor with h | h
    · exact h h5
    · exact h h6
  unfold newNode at h1
  cases hp : profileFor m self face corner k with
  | none =>
    rw [hp] at h1
    obtain rfl := Option.some.inj h1
    refine ⟨NewRel.refl _ _ _, h4, fun p h => absurd h (by simp), fun _ _ => rfl, fun _ => rfl, ?_⟩
    rintro rfl
    rw [profileFor_center] at hp
    exact absurd hp (by simp)
  | some this =>
    rw [hp] at h1
    dsimp only at h1
    -- all writes have the same shape
    have shape : ∀ (f : ℕ → List ℕ), s' = Profiles.mk f s.changed s.next (setAt2 s.counts e k this.length) → (∀ n ≠ m.en e k, f n = s.prof n) →
        (k = 4 → f (m.en e 4) = self) →
        NewRel m e s s' ∧ Has m e (profileFor m self face corner) k s' ∧
        (∀ p, some this = some p → s'.counts e k = p.length) ∧
        (∀ k' ≠ k, s'.counts e k' = s.counts e k') ∧
        (k ≠ 4 → s'.prof (m.en e 4) = s.prof (m.en e 4)) ∧ (k = 4 → s'.prof (m.en e 4) = self) := by
      intro f hf hn hself
      refine ⟨⟨h3, by rw [hf], ?_, ?_⟩, h4, ?_, ?_, ?_, ?_⟩
      · intro e' h; rw [hf]; exact setAt2_ne _ _ h
      · intro e' h h'; rw [hf]; exact hn _ (hcen e' h (.inl h'))
      · intro p h; obtain rfl := Option.some.inj h; rw [hf]; exact setAt2_eq _ _ _ _
      · intro k' h; rw [hf]; exact setAt2_ne' _ _ h
      · intro h; rw [hf]; exact hn _ (hcen e he (.inr h))
      · intro h; rw [hf]; exact hself h
    have hself : k = 4 → this = self := by
      rintro rfl
      rw [profileFor_center] at hp
      exact (Option.some.inj hp).symm
    by_cases h0 : (s.prof (m.en e k)).length = 0
    · rw [if_pos h0] at h1
      refine shape _ (Option.some.inj h1).symm (fun n hn => setAt_ne _ _ hn) ?_
      rintro rfl
      rw [setAt_eq]; exact hself rfl
    · rw [if_neg h0] at h1
      have h4' : k ≠ 4 := by
        rintro rfl
        rw [hc4 rfl] at h0
        exact h0 rfl
      cases hw : profileUnion this (s.prof (m.en e k)) with
      | none => rw [hw] at h1; exact absurd h1 (by simp)
      | some w =>
        rw [obind hw] at h1
        by_cases hl : w.length > (s.prof (m.en e k)).length
        · rw [if_pos hl] at h1
          exact shape _ (Option.some.inj h1).symm (fun n hn => setAt_ne _ _ hn) fun h => absurd h h4'
        · rw [if_neg hl] at h1
          exact shape _ (Option.some.inj h1).symm (fun n hn => rfl) fun h => absurd h h4'

theorem newColumn_base {m : ProfileMesh} {nodes : ℕ} {layers : ℕ → List ℕ} (hL : LayerSetup m nodes layers)
    (s : Profiles) (e : ℕ) (he : e < m.num) (hs : AllOk m layers s) (h0 : s.prof (m.en e 4) = []) :
    ∃ s', newColumn m layers s e = some s' ∧ AllOk m layers s' ∧ NewRel m e s s' ∧ Base m e s' ∧
      Started m layers e s' := by
  have hh := hL.mesh.height
  obtain ⟨s2, g1, _, _, g4⟩ := newColumn_keeps hL s e he hs
  obtain ⟨self, h1, h2, h3, h4, h5⟩ := C41_balance_self (hL.column e he) (by omega)
  have hcol : ColOk m layers e self :=
    ⟨h2, h4, fun c hc => h5 _ (hc.column e he) (hc.refines e he) (hc.graded e he)⟩
  obtain ⟨face, corner, hd, hbal, hfor⟩ := demands_ok hL.mesh he hcol
  have key : ∃ s', newColumn m layers s e = some s' ∧ (AllOk m layers s' ∧ NewRel m e s s' ∧
      (4 < 9 → s'.prof (m.en e 4) = self) ∧ (¬ 4 < 9 → s'.prof (m.en e 4) = []) ∧
      ∀ k < 9, ∀ p, profileFor m self face corner k = some p →
        s'.counts e k = p.length ∧ s'.prof (m.en e k) ≠ [] ∧ Finer p (s'.prof (m.en e k))) := by
    unfold newColumn
    rw [obind h1, obind hd]
    refine foldlM_steps (P := fun j s' => AllOk m layers s' ∧ NewRel m e s s' ∧
      (4 < j → s'.prof (m.en e 4) = self) ∧ (¬ 4 < j → s'.prof (m.en e 4) = []) ∧
      ∀ k < j, ∀ p, profileFor m self face corner k = some p →
        s'.counts e k = p.length ∧ s'.prof (m.en e k) ≠ [] ∧ Finer p (s'.prof (m.en e k))) ?_
      ⟨hs, NewRel.refl _ _ _, fun h => by omega, fun _ => h0, fun k hk => by omega⟩
    rintro t k hk ⟨a1, a2, a3, a4, a5⟩
    obtain ⟨t', b1, b2, b3, b4, b5, b6, b7, b8⟩ := newNode_rel hL.mesh he hfor t k hk a1
      (by rintro rfl; exact a4 (by omega))
    refine ⟨t', b1, b2, a2.trans b3, fun h => ?_, fun h => ?_, fun k' hk' p hp => ?_⟩
    · by_cases h4 : k = 4
      · exact b8 h4
      · rw [b7 h4]; exact a3 (by omega)
    · rw [b7 (by omega)]; exact a4 (by omega)
    · by_cases hkk : k' = k
      · subst hkk
        exact ⟨b5 p hp, b4 p hp⟩
      · obtain ⟨c1, c2, c3⟩ := a5 k' (by omega) p hp
        have := (b3.1 (m.en e k')).1 c2
        exact ⟨by rw [b6 k' hkk, c1], this.1, c3.trans' this.2⟩
  obtain ⟨s', e1, e2, e3, e4, _, e5⟩ := key
  rw [g1] at e1
  obtain rfl := Option.some.inj e1
  refine ⟨s2, g1, e2, e3, ?_, g4⟩
  intro k hk
  obtain ⟨p, hp⟩ := profileFor_used (self := self) (face := face) (corner := corner) hk.2.1
  obtain ⟨c1, c2, c3⟩ := e5 k hk.1 p hp
  obtain ⟨d1, d2⟩ := hbal k hk.1 p hp
  rw [e4 (by omega)]
  exact ⟨p, (hfor k hk.1 p hp).2.1, d1, d2, c1, c2, c3⟩

theorem newLocal_base {m : ProfileMesh} {nodes : ℕ} {layers : ℕ → List ℕ} (hL : LayerSetup m nodes layers) :
    ∃ s, profileNewLocal m layers = some s ∧ AllOk m layers s ∧ (∀ e < m.num, Started m layers e s) ∧
      (∀ e < m.num, Sent m e s ∧ Own m e s) ∧ ∀ n, s.changed n = true := by
  obtain ⟨s, h1, h2⟩ := foldlM_steps (f := newColumn m layers) (n := m.num)
    (P := fun j s => AllOk m layers s ∧ (∀ e < j, Started m layers e s ∧ Base m e s) ∧
      (∀ n, s.changed n = true) ∧ ∀ e < m.num, j ≤ e → s.prof (m.en e 4) = [])
    (by
      rintro s e he ⟨a1, a2, a3, a4⟩
      obtain ⟨s', b1, b2, b3, b4, b5⟩ := newColumn_base hL s e he a1 (a4 e he (le_refl _))
      refine ⟨s', b1, b2, fun e' he' => ?_, fun n => by rw [b3.2.1]; exact a3 n, fun e' he' hle => ?_⟩
      · by_cases h : e' = e
        · subst h; exact ⟨b5, b4⟩
        · obtain ⟨c1, c2⟩ := a2 e' (by omega)
          exact ⟨Started.mono e' _ _ c1 b3.1, c2.mono b3 h (by omega)⟩
      · rw [b3.2.2.2 e' he' (by omega)]; exact a4 e' he' (by omega))
    (s := { prof := fun _ => [], changed := fun _ => true, next := fun _ => false, counts := fun _ _ => 0 })
    ⟨fun n => .inl rfl, fun e he => by omega, fun _ => rfl, fun _ _ _ => rfl⟩
  exact ⟨s, h1, h2.1, fun e he => (h2.2.1 e he).1, fun e he => (h2.2.1 e he).2.sent h2.1, h2.2.2.1⟩

/-! ### One column in a turn -/

/-- What one column changes for the others in a turn. -/
def TurnRel (m : ProfileMesh) (e : ℕ) (s s' : Profiles × Bool) : Prop :=
  Grows s.1 s'.1 ∧ s'.1.changed = s.1.changed ∧ (∀ e' ≠ e, s'.1.counts e' = s.1.counts e') ∧
  (∀ n, s.1.next n = true → s'.1.next n = true) ∧
  (∀ n ≠ m.en e 4, s'.1.prof n = s.1.prof n ∨
    (s'.1.next n = true ∧ (s.1.prof n).length < (s'.1.prof n).length)) ∧
  (s'.2 = false → s.2 = false ∧ ∀ n ≠ m.en e 4, s'.1.prof n = s.1.prof n) ∧
  ∀ e' < m.num, e' ≠ e → s'.1.prof (m.en e' 4) = s.1.prof (m.en e' 4)

theorem TurnRel.refl (m : ProfileMesh) (e : ℕ) (s : Profiles × Bool) : TurnRel m e s s :=
  ⟨Grows.refl _, rfl, fun _ _ => rfl, fun _ h => h, fun _ _ => .inl rfl, fun h => ⟨h, fun _ _ => rfl⟩,
    fun _ _ _ => rfl⟩

theorem TurnRel.trans {m : ProfileMesh} {e : ℕ} {a b c : Profiles × Bool} (h : TurnRel m e a b)
    (h' : TurnRel m e b c) : TurnRel m e a c := by
  obtain ⟨a1, a2, a3, a4, a5, a6, a7⟩ := h
  obtain ⟨b1, b2, b3, b4, b5, b6, b7⟩ := h'
  refine ⟨Grows.trans _ _ _ a1 b1, b2.trans a2, fun e' he => (b3 e' he).trans (a3 e' he),
    fun n h => b4 n (a4 n h), fun n hn => ?_, fun hc => ?_,
    fun e' h1 h2 => (b7 e' h1 h2).trans (a7 e' h1 h2)⟩
  · rcases b5 n hn with h1 | ⟨h1, h2⟩
    · rcases a5 n hn with h3 | ⟨h3, h4⟩
      · exact .inl (h1.trans h3)
      · exact .inr ⟨b4 n h3, by rw [h1]; exact h4⟩
    · exact .inr ⟨h1, lt_of_le_of_lt (a1 n).2 h2⟩
  · obtain ⟨h1, h2⟩ := b6 hc
    obtain ⟨h3, h4⟩ := a6 h1
    exact ⟨h3, fun n hn => (h2 n hn).trans (h4 n hn)⟩

/-- The column has read everything that is new. -/
theorem absorb_seen {m : ProfileMesh} {layers : ℕ → List ℕ} {s : Profiles}
    (hs : AllOk m layers s) {e : ℕ} (he : e < m.num) (hst : Started m layers e s)
    (hseen : Seen m s.changed e s) :
    ∃ this : List ℕ × Bool, (List.range 9).foldlM (absorbNode m e s) (s.prof (m.en e 4), false) = some this ∧
      ColOk m layers e this.1 ∧ Finer (s.prof (m.en e 4)) this.1 ∧
      (this.2 = false → this.1 = s.prof (m.en e 4)) ∧
      (this.2 = true → (s.prof (m.en e 4)).length < this.1.length) ∧
      ∀ k, Outer m k → Finer (s.prof (m.en e k)) this.1 := by
  have hnode : ∀ k < 9, usedPos m k → NodeOk m layers (m.en e k) (s.prof (m.en e k)) := fun k hk hu =>
    (hs (m.en e k)).resolve_left (hst.1 k hk hu)
  obtain ⟨this, e1, ⟨e2, e3, e4, e5⟩, _, e6⟩ := foldlM_keeps (n := 9)
    (R := fun a b : List ℕ × Bool => Finer a.1 b.1)
    (Q := fun k this => Outer m k → Finer (s.prof (m.en e k)) this.1)
    (P := fun this : List ℕ × Bool => ColOk m layers e this.1 ∧ Finer (s.prof (m.en e 4)) this.1 ∧
      (this.2 = false → this.1 = s.prof (m.en e 4)) ∧
      (this.2 = true → (s.prof (m.en e 4)).length < this.1.length))
    (f := absorbNode m e s)
    (fun _ _ => le_refl _) (fun _ _ _ h h' => h.trans' h') (fun _ _ _ h h' ho => (h ho).trans' h')
    (by
      rintro this k hk ⟨a1, a2, a3, a4⟩
      unfold absorbNode
      dsimp only
      by_cases h1 : ¬ s.changed (m.en e k) = true
      · rw [if_pos h1]
        refine ⟨this, rfl, ⟨a1, a2, a3, a4⟩, fun _ => le_refl _, fun ho => ?_⟩
        rcases hseen k ho with h | h
        · exact h.trans' a2
        · exact absurd h.1 h1
      rw [if_neg h1]
      by_cases h2 : isCornerPos k = true ∧ m.btype = .face
      · rw [if_pos h2]
        exact ⟨this, rfl, ⟨a1, a2, a3, a4⟩, fun _ => le_refl _, fun ho => absurd h2 ho.2.1⟩
      rw [if_neg h2]
      by_cases h3 : k = 4
      · rw [if_pos h3]
        exact ⟨this, rfl, ⟨a1, a2, a3, a4⟩, fun _ => le_refl _, fun ho => absurd h3 ho.2.2⟩
      rw [if_neg h3]
      by_cases h4 : s.counts e k = (s.prof (m.en e k)).length
      · rw [if_pos h4]
        refine ⟨this, rfl, ⟨a1, a2, a3, a4⟩, fun _ => le_refl _, fun ho => ?_⟩
        rcases hseen k ho with h | h
        · exact h.trans' a2
        · omega
      rw [if_neg h4]
      obtain ⟨w, hw, i1, i2, i3, i4, i5⟩ := a1.union ((hnode k hk h2).col he hk h2)
      have hlen : (s.prof (m.en e 4)).length ≤ this.1.length := by
        cases hb : this.2 with
        | false => rw [a3 hb]
        | true => exact (a4 hb).le
      rw [obind hw]
      by_cases hl : w.length > this.1.length
      · rw [if_pos hl]
        exact ⟨_, rfl, ⟨i1, a2.trans' i2, fun h => absurd h (by simp), fun _ => by dsimp only; omega⟩, i2,
          fun _ => i3⟩
      · rw [if_neg hl]
        refine ⟨this, rfl, ⟨a1, a2, a3, a4⟩, fun _ => le_refl _, fun _ => ?_⟩
        rw [i5 (by omega)] at i3
        exact i3)
    (s := (s.prof (m.en e 4), false))
    ⟨(hnode 4 (by omega) (used_center m)).col he (by omega) (used_center m), fun _ => le_refl _,
      fun _ => rfl, fun h => absurd h (by simp)⟩
  exact ⟨this, e1, e2, e3, e4, e5, fun k hk => e6 k hk.1 hk⟩

/-- One write of a turn in detail. -/
theorem offer_rel {m : ProfileMesh} {nodes : ℕ} {layers : ℕ → List ℕ} (hm : MeshOk m nodes) {e : ℕ}
    (he : e < m.num) {self face corner : List ℕ}
    (hfor : ∀ k < 9, ∀ this, profileFor m self face corner k = some this →
        usedPos m k ∧ NodeOk m layers (m.en e k) this)
    (s : Profiles × Bool) (k : ℕ) (hk : k < 9)
    (hs : AllOk m layers s.1 ∧ Started m layers e s.1)
    (h4 : k = 4 → Finer (s.1.prof (m.en e 4)) self ∧ (s.1.prof (m.en e 4)).length < self.length) :
    ∃ s', offerNode m e self face corner s k = some s' ∧ (AllOk m layers s'.1 ∧ Started m layers e s'.1) ∧
      TurnRel m e s s' ∧
      (k ≠ 4 → s'.1.prof (m.en e 4) = s.1.prof (m.en e 4)) ∧ (k = 4 → s'.1.prof (m.en e 4) = self) ∧
      (∀ n ≠ m.en e k, s'.1.prof n = s.1.prof n) ∧
      (∀ p, profileFor m self face corner k = some p → Finer p (s'.1.prof (m.en e k)) ∧
        s'.1.counts e k = (s'.1.prof (m.en e k)).length ∧
        ∀ q, Finer p q → Finer (s.1.prof (m.en e k)) q → Finer (s'.1.prof (m.en e k)) q) ∧
      (∀ k' ≠ k, s'.1.counts e k' = s.1.counts e k') := by
  obtain ⟨h1, h2⟩ := hs
  have hcen : ∀ e' < m.num, e' ≠ e → m.en e' 4 ≠ m.en e k := fun e' he' h heq =>
    h (hm.center e' he' e he k hk heq).1
  unfold offerNode
  cases hp : profileFor m self face corner k with
  | none =>
    refine ⟨s, rfl, ⟨h1, h2⟩, TurnRel.refl _ _ _, fun _ => rfl, ?_, fun _ _ => rfl,
      fun p h => absurd h (by simp), fun _ _ => rfl⟩
    rintro rfl
    rw [profileFor_center] at hp
    exact absurd hp (by simp)
  | some this =>
    obtain ⟨hu, hthis⟩ := hfor k hk this hp
    have hold : NodeOk m layers (m.en e k) (s.1.prof (m.en e k)) :=
      (h1 (m.en e k)).resolve_left (h2.1 k hk hu)
    dsimp only
    by_cases hk4 : k = 4
    · subst hk4
      rw [profileFor_center] at hp
      obtain rfl := Option.some.inj hp
      obtain ⟨i1, i2⟩ := h4 rfl
      simp only [if_true]
      rw [obind rfl, if_pos i2]
      have hg : Grows s.1 { s.1 with prof := setAt s.1.prof (m.en e 4) self } :=
        grows_set (fun _ => i1) (column_pos hm hthis.1) i2.le rfl
      refine ⟨_, rfl, ⟨allOk_set h1 hthis rfl, Started.mono e _ _ h2 hg⟩, ⟨hg, rfl, ?_, fun _ h => h, ?_, ?_,
          fun e' h h' => setAt_ne _ _ (hcen e' h h')⟩,
        fun h => absurd rfl h, fun _ => setAt_eq _ _ _, fun n hn => setAt_ne _ _ hn, ?_, ?_⟩
      · intro e' h; exact setAt2_ne _ _ h
      · intro n hn; exact .inl (setAt_ne _ _ hn)
      · intro h; exact ⟨h, fun n hn => setAt_ne _ _ hn⟩
      · intro p h
        obtain rfl := Option.some.inj h
        simp only [setAt_eq, setAt2_eq]
        exact ⟨fun _ => le_refl _, trivial, fun q h _ => h⟩
      · intro k' h; exact setAt2_ne' _ _ h
    · simp only [if_neg hk4]
      obtain ⟨w, hw, i1, i2, i3, i4, i5⟩ := hthis.union hold
      have imin : ∀ q, Finer this q → Finer (s.1.prof (m.en e k)) q → Finer w q := by
        obtain ⟨w', hw', _, _, _, _, h⟩ := C41_union hthis.1 hold.1
        rw [hw] at hw'
        obtain rfl := Option.some.inj hw'
        exact h
      have hne : m.en e 4 ≠ m.en e k := fun h => hk4 (hm.center e he e he k hk h).2
      rw [obind hw]
      by_cases hl : w.length > (s.1.prof (m.en e k)).length
      · rw [if_pos hl]
        have hg : Grows s.1 { s.1 with prof := setAt s.1.prof (m.en e k) w, next := setAt s.1.next (m.en e k) true } :=
          grows_set (fun _ => i3) (column_pos hm i1.1) hl.le rfl
        refine ⟨_, rfl, ⟨allOk_set h1 i1 rfl, Started.mono e _ _ h2 hg⟩, ⟨hg, rfl, ?_, ?_, ?_, ?_,
            fun e' h h' => setAt_ne _ _ (hcen e' h h')⟩,
          fun _ => setAt_ne _ _ hne, fun h => absurd h hk4, fun n hn => setAt_ne _ _ hn, ?_, ?_⟩
        · intro e' h; exact setAt2_ne _ _ h
        · intro n hn
          simp only [setAt]
          split
          · rfl
          · exact hn
        · intro n hn
          by_cases h : n = m.en e k
          · subst h; simp only [setAt_eq]; exact .inr ⟨trivial, hl⟩
          · exact .inl (setAt_ne _ _ h)
        · intro h; exact absurd h (by simp)
        · intro p h
          obtain rfl := Option.some.inj h
          simp only [setAt_eq, setAt2_eq]
          exact ⟨i2, trivial, imin⟩
        · intro k' h; exact setAt2_ne' _ _ h
      · rw [if_neg hl]
        have hwq := i5 (by omega)
        refine ⟨_, rfl, ⟨h1, h2⟩, ⟨Grows.refl _, rfl, ?_, fun _ h => h, fun _ _ => .inl rfl, fun h => ⟨h, fun _ _ => rfl⟩,
            fun _ _ _ => rfl⟩, fun _ => rfl, fun h => absurd h hk4, fun _ _ => rfl, ?_, ?_⟩
        · intro e' h; exact setAt2_ne _ _ h
        · intro p h
          obtain rfl := Option.some.inj h
          simp only [setAt2_eq]
          rw [hwq] at i2
          exact ⟨i2, trivial, fun q _ h => h⟩
        · intro k' h; exact setAt2_ne' _ _ h

/-- A column that will read everything that is new has nothing new afterwards. -/
theorem balanceColumn_done {m : ProfileMesh} {nodes : ℕ} {layers : ℕ → List ℕ} (hm : MeshOk m nodes)
    (s : Profiles × Bool) (e : ℕ) (he : e < m.num)
    (hs : AllOk m layers s.1 ∧ ∀ e < m.num, Started m layers e s.1)
    (hsent : Sent m e s.1) (hseen : Seen m s.1.changed e s.1) :
    ∃ s', balanceColumn m s e = some s' ∧ (AllOk m layers s'.1 ∧ ∀ e < m.num, Started m layers e s'.1) ∧
      TurnRel m e s s' ∧ Sent m e s'.1 ∧ Done m e s'.1 := by
  obtain ⟨⟨self, change⟩, e1, e2, e3, e4, e5, e6⟩ := absorb_seen hs.1 he (hs.2 e he) hseen
  dsimp only at e2 e3 e4 e5 e6
  unfold balanceColumn
  rw [obind e1]
  dsimp only
  cases change with
  | false =>
    refine ⟨s, rfl, hs, TurnRel.refl _ _ _, hsent, fun k hk => ?_⟩
    have := e6 k hk
    rwa [e4 rfl] at this
  | true =>
    rw [if_pos rfl]
    obtain ⟨face, corner, hd, hbal, hfor⟩ := demands_ok hm he e2
    rw [obind hd]
    obtain ⟨s', f1, f2, f3, f4, f5, f6, f7⟩ := foldlM_steps (n := 9)
      (f := offerNode m e self face corner)
      (P := fun j t => (AllOk m layers t.1 ∧ Started m layers e t.1) ∧ TurnRel m e s t ∧
        (¬ 4 < j → t.1.prof (m.en e 4) = s.1.prof (m.en e 4)) ∧ (4 < j → t.1.prof (m.en e 4) = self) ∧
        (∀ k, Outer m k → Finer (t.1.prof (m.en e k)) self) ∧
        ∀ k < j, Outer m k → FaceBalanced self (t.1.prof (m.en e k)) ∧
          t.1.counts e k ≤ (t.1.prof (m.en e k)).length)
      (s := s)
      (by
        rintro t k hk ⟨a1, a2, a3, a4, a5, a6⟩
        obtain ⟨t', b1, b2, b3, b4, b5, b6, b7, b8⟩ := offer_rel hm he hfor t k hk a1
          (by rintro rfl; rw [a3 (by omega)]; exact ⟨e3, e5 rfl⟩)
        refine ⟨t', b1, b2, a2.trans b3, fun h => ?_, fun h => ?_, fun k' hk' => ?_, fun k' hk' ho => ?_⟩
        · rw [b4 (by omega)]; exact a3 (by omega)
        · by_cases h4 : k = 4
          · exact b5 h4
          · rw [b4 h4]; exact a4 (by omega)
        · by_cases h : m.en e k' = m.en e k
          · rw [h]
            cases hp : profileFor m self face corner k with
            | none =>
              have : ¬ usedPos m k := fun hu => by
                obtain ⟨p, h'⟩ := profileFor_used (self := self) (face := face) (corner := corner) hu
                rw [hp] at h'; exact absurd h' (by simp)
              have hst : t' = t := by
                unfold offerNode at b1
                rw [hp] at b1
                exact (Option.some.inj b1).symm
              rw [hst, ← h]; exact a5 k' hk'
            | some p =>
              refine (b7 p hp).2.2 self (hbal k hk p hp).2 ?_
              rw [← h]; exact a5 k' hk'
          · rw [b6 _ h]; exact a5 k' hk'
        · by_cases h : k' = k
          · subst h
            obtain ⟨p, hp⟩ := profileFor_used (self := self) (face := face) (corner := corner) ho.2.1
            obtain ⟨c1, c2, _⟩ := b7 p hp
            refine ⟨fun x => ?_, c2.le⟩
            have := (hbal k' hk p hp).1 x
            have := c1 x
            omega
          · obtain ⟨c1, c2⟩ := a6 k' (by omega) ho
            have hne : t.1.prof (m.en e k') ≠ [] := a1.2.1 k' ho.1 ho.2.1
            have hg := (b3.1 (m.en e k'))
            refine ⟨fun x => ?_, ?_⟩
            · have := c1 x
              have := (hg.1 hne).2 x
              omega
            · rw [b8 k' h]; exact c2.trans hg.2)
      ⟨⟨hs.1, hs.2 e he⟩, TurnRel.refl _ _ _, fun _ => rfl, fun h => by omega, e6, fun k hk => by omega⟩
    refine ⟨s', f1, ⟨f2.1, fun e' he' => Started.mono e' _ _ (hs.2 e' he') f3.1⟩, f3, ?_, ?_⟩
    · intro k hk; rw [f5 (by omega)]; exact f7 k hk.1 hk
    · intro k hk; rw [f5 (by omega)]; exact f6 k hk

/-! ### A turn -/

theorem outer_ne {m : ProfileMesh} {nodes : ℕ} (hm : MeshOk m nodes) {e e' k : ℕ} (he : e < m.num)
    (he' : e' < m.num) (hk : Outer m k) : m.en e' k ≠ m.en e 4 := fun h =>
  hk.2.2 (hm.center e he e' he' k hk.1 h.symm).2

theorem Sent.mono {m : ProfileMesh} {layers : ℕ → List ℕ} {e e' : ℕ} {s s' : Profiles × Bool}
    (he' : e' < m.num) (hne : e' ≠ e) (hst : Started m layers e' s.1)
    (hr : TurnRel m e s s') (h : Sent m e' s.1) : Sent m e' s'.1 := by
  intro k hk
  obtain ⟨h1, h2⟩ := h k hk
  have hg := hr.1 (m.en e' k)
  rw [hr.2.2.2.2.2.2 e' he' hne, hr.2.2.1 e' hne]
  refine ⟨fun x => ?_, h2.trans hg.2⟩
  have := h1 x
  have := (hg.1 (hst.1 k hk.1 hk.2.1)).2 x
  omega

theorem Own.mono {m : ProfileMesh} {nodes : ℕ} (hm : MeshOk m nodes) {e e' : ℕ} {s s' : Profiles × Bool}
    (he : e < m.num) (he' : e' < m.num) (hne : e' ≠ e) (hr : TurnRel m e s s')
    (hs : Sent m e' s.1) (h : Own m e' s.1) : Own m e' s'.1 := by
  intro k hk
  rw [hr.2.2.2.2.2.2 e' he' hne, hr.2.2.1 e' hne]
  rcases hr.2.2.2.2.1 _ (outer_ne hm he he' hk) with h1 | ⟨_, h1⟩
  · rw [h1]; exact h k hk
  · intro h2
    have := (hs k hk).2
    omega

theorem Seen.mono {m : ProfileMesh} {nodes : ℕ} (hm : MeshOk m nodes) {e e' : ℕ} {s s' : Profiles × Bool}
    (he : e < m.num) (he' : e' < m.num) (hne : e' ≠ e) (hr : TurnRel m e s s')
    (hs : Sent m e' s.1) (h : Seen m s.1.next e' s.1) : Seen m s'.1.next e' s'.1 := by
  intro k hk
  rw [hr.2.2.2.2.2.2 e' he' hne, hr.2.2.1 e' hne]
  rcases hr.2.2.2.2.1 _ (outer_ne hm he he' hk) with h1 | ⟨h0, h1⟩
  · rw [h1]
    exact (h k hk).imp id fun h => ⟨hr.2.2.2.1 _ h.1, h.2⟩
  · have := (hs k hk).2
    exact .inr ⟨h0, by omega⟩

/-- The first turn, in which every node is read. -/
theorem turn_first {m : ProfileMesh} {nodes : ℕ} {layers : ℕ → List ℕ} (hm : MeshOk m nodes) {s : Profiles}
    (h1 : AllOk m layers s) (h2 : ∀ e < m.num, Started m layers e s)
    (h3 : ∀ e < m.num, Sent m e s ∧ Own m e s) (h4 : ∀ n, s.changed n = true) :
    ∃ s' any, balanceTurn m s = some (s', any) ∧ AllOk m layers s' ∧ (∀ e < m.num, Started m layers e s') ∧
      ∀ e < m.num, Sent m e s' ∧ Seen m s'.changed e s' := by
  obtain ⟨t, e1, e2, e3, e4, e5⟩ := foldlM_steps (f := balanceColumn m) (n := m.num)
    (P := fun j t => (AllOk m layers t.1 ∧ ∀ e < m.num, Started m layers e t.1) ∧
      (∀ n, t.1.changed n = true) ∧ (∀ e < m.num, Sent m e t.1) ∧
      ∀ e < m.num, (e < j → Seen m t.1.next e t.1) ∧ (j ≤ e → Own m e t.1))
    (s := ({ s with next := fun _ => false }, false))
    (by
      rintro t e he ⟨a1, a2, a3, a4⟩
      have hseen : Seen m t.1.changed e t.1 := by
        intro k hk
        have b1 := ((a3 e he) k hk).2
        by_cases hc : t.1.counts e k = (t.1.prof (m.en e k)).length
        · exact .inl ((a4 e he).2 (le_refl _) k hk hc)
        · exact .inr ⟨a2 _, by omega⟩
      obtain ⟨t', b1, b2, b3, b4, b5⟩ := balanceColumn_done hm t e he a1 (a3 e he) hseen
      refine ⟨t', b1, b2, fun n => by rw [b3.2.1]; exact a2 n, fun e' he' => ?_, fun e' he' => ⟨fun h => ?_, fun h => ?_⟩⟩
      · by_cases hne : e' = e
        · rw [hne]; exact b4
        · exact (a3 e' he').mono he' hne (a1.2 e' he') b3
      · by_cases hne : e' = e
        · rw [hne]; exact fun k hk => .inl (b5 k hk)
        · exact ((a4 e' he').1 (by omega)).mono hm he he' hne b3 (a3 e' he')
      · exact ((a4 e' he').2 (by omega)).mono hm he he' (by omega) b3 (a3 e' he'))
    ⟨⟨h1, h2⟩, h4, fun e he => (h3 e he).1, fun e he => ⟨fun h => by omega, fun _ => (h3 e he).2⟩⟩
  unfold balanceTurn
  rw [obind e1]
  exact ⟨_, _, rfl, e2.1, e2.2, fun e he => ⟨e4 e he, (e5 e he).1 he⟩⟩

theorem offer_any {m : ProfileMesh} {e : ℕ} {self face corner : List ℕ} {s s' : Profiles × Bool} {k : ℕ}
    (h : offerNode m e self face corner s k = some s') (ha : s.2 = true) : s'.2 = true := by
  unfold offerNode at h
  cases hp : profileFor m self face corner k with
  | none => rw [hp] at h; obtain rfl := Option.some.inj h; exact ha
  | some this =>
    rw [hp] at h
    dsimp only at h
    by_cases hk : k = 4
    · simp only [if_pos hk] at h
      rw [obind rfl] at h
      obtain rfl := Option.some.inj h
      dsimp only
      split
      · exact ha
      · exact ha
    · simp only [if_neg hk] at h
      cases hw : profileUnion this (s.1.prof (m.en e k)) with
      | none => rw [hw] at h; exact absurd h (by simp)
      | some w =>
        rw [obind hw] at h
        obtain rfl := Option.some.inj h
        dsimp only
        split
        · rfl
        · exact ha

theorem foldlM_back {τ : Type} {f : τ → ℕ → Option τ} {P : τ → Prop}
    (hf : ∀ s k s', f s k = some s' → P s → P s') : ∀ (l : List ℕ) {s s' : τ}, l.foldlM f s = some s' → P s → P s'
  | [], s, s', h, hp => by simp at h; exact h ▸ hp
  | k :: l, s, s', h, hp => by
    rw [List.foldlM_cons] at h
    cases hk : f s k with
    | none => rw [hk] at h; exact absurd h (by simp)
    | some t =>
      rw [obind hk] at h
      exact foldlM_back hf l h (hf s k t hk hp)

theorem column_any {m : ProfileMesh} {e : ℕ} {s s' : Profiles × Bool}
    (h : balanceColumn m s e = some s') (ha : s.2 = true) : s'.2 = true := by
  unfold balanceColumn at h
  cases h1 : (List.range 9).foldlM (absorbNode m e s.1) (s.1.prof (m.en e 4), false) with
  | none => rw [h1] at h; exact absurd h (by simp)
  | some r =>
    obtain ⟨self, change⟩ := r
    rw [obind h1] at h
    dsimp only at h
    cases change with
    | false => obtain rfl := Option.some.inj h; exact ha
    | true =>
      rw [if_pos rfl] at h
      cases h2 : profileDemands m self with
      | none => rw [h2] at h; exact absurd h (by simp)
      | some r =>
        obtain ⟨face, corner⟩ := r
        rw [obind h2] at h
        exact foldlM_back (P := fun s : Profiles × Bool => s.2 = true)
          (fun s k s' h => offer_any h) _ h ha

/-- A turn without change, if everything new is read in it. -/
theorem turn_last {m : ProfileMesh} {nodes : ℕ} {layers : ℕ → List ℕ} (hm : MeshOk m nodes) {s s' : Profiles}
    (h1 : AllOk m layers s) (h2 : ∀ e < m.num, Started m layers e s)
    (h3 : ∀ e < m.num, Sent m e s ∧ Seen m s.changed e s) (h : balanceTurn m s = some (s', false)) :
    AllOk m layers s' ∧ (∀ e < m.num, Started m layers e s') ∧ ∀ e < m.num, Sent m e s' ∧ Done m e s' := by
  obtain ⟨t, e1, e2, e3⟩ := foldlM_steps (f := balanceColumn m) (n := m.num)
    (P := fun j t => (AllOk m layers t.1 ∧ ∀ e < m.num, Started m layers e t.1) ∧
      (t.2 = false → (∀ e < m.num, Sent m e t.1) ∧
      ∀ e < m.num, (e < j → Done m e t.1) ∧ (j ≤ e → Seen m t.1.changed e t.1)))
    (s := ({ s with next := fun _ => false }, false))
    (by
      rintro t e he ⟨a1, a2⟩
      cases ha : t.2 with
      | true =>
        obtain ⟨t', b1, b2, b3⟩ := balanceColumn_keeps hm t e he a1
        exact ⟨t', b1, b2, fun h => absurd (column_any b1 ha) (by simp [h])⟩
      | false =>
        obtain ⟨a3, a4⟩ := a2 ha
        obtain ⟨t', b1, b2, b3, b4, b5⟩ := balanceColumn_done hm t e he a1 (a3 e he) ((a4 e he).2 (le_refl _))
        refine ⟨t', b1, b2, fun hf => ?_⟩
        have hsame := (b3.2.2.2.2.2.1 hf).2
        refine ⟨fun e' he' => ?_, fun e' he' => ⟨fun h => ?_, fun h => ?_⟩⟩
        · by_cases hne : e' = e
          · rw [hne]; exact b4
          · exact (a3 e' he').mono he' hne (a1.2 e' he') b3
        · by_cases hne : e' = e
          · rw [hne]; exact b5
          · intro k hk
            rw [b3.2.2.2.2.2.2 e' he' hne, hsame _ (outer_ne hm he he' hk)]
            exact (a4 e' he').1 (by omega) k hk
        · have hne : e' ≠ e := by omega
          intro k hk
          rw [b3.2.2.2.2.2.2 e' he' hne, hsame _ (outer_ne hm he he' hk), b3.2.1, b3.2.2.1 e' hne]
          exact (a4 e' he').2 (by omega) k hk)
    ⟨⟨h1, h2⟩, fun _ => ⟨fun e he => (h3 e he).1, fun e he => ⟨fun h => by omega, fun _ => (h3 e he).2⟩⟩⟩
  unfold balanceTurn at h
  rw [obind e1] at h
  have h' := Option.some.inj h
  obtain ⟨rfl, ht⟩ := Prod.mk.inj h'
  obtain ⟨f1, f2⟩ := e3 ht
  exact ⟨e2.1, e2.2, fun e he => ⟨f1 e he, (f2 e he).1 he⟩⟩

/-- If nothing is new for any column, then the columns are balanced. -/
theorem goal_of_done {m : ProfileMesh} {layers : ℕ → List ℕ} {s : Profiles}
    (h1 : AllOk m layers s) (h2 : ∀ e < m.num, Started m layers e s)
    (h3 : ∀ e < m.num, Sent m e s ∧ Done m e s) : Goal m layers fun e => s.prof (m.en e 4) := by
  have hok : ∀ e < m.num, NodeOk m layers (m.en e 4) (s.prof (m.en e 4)) := fun e he =>
    (h1 (m.en e 4)).resolve_left ((h2 e he).1 4 (by omega) (used_center m))
  refine ⟨fun e he => (hok e he).1, fun e he => (h2 e he).2, fun e he => (hok e he).2.1, ?_⟩
  rintro e he e' he' ⟨k, hk, k', hk', hu, hu', heq⟩
  have ha : FaceBalanced (s.prof (m.en e 4)) (s.prof (m.en e k)) := by
    by_cases h : k = 4
    · subst h; exact fun x => Nat.le_succ _
    · exact ((h3 e he).1 k ⟨hk, hu, h⟩).1
  have hb : Finer (s.prof (m.en e' k')) (s.prof (m.en e' 4)) := by
    by_cases h : k' = 4
    · subst h; exact fun x => le_refl _
    · exact (h3 e' he').2 k' ⟨hk', hu', h⟩
  intro x
  have h1 := ha x
  have h2 := hb x
  rw [heq] at h1
  omega

end P4est
