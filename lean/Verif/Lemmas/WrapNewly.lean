import Verif.Lemmas.WrapAdapt

/-! # Old and new leaves side by side -/

namespace P4est
open Spec

variable {d : ℕ}

/-- A piece of the forest in which a leaf was kept, refined or made by coarsening. -/
inductive Seg (d : ℕ)
  | same (q : Quad d)
  | split (p : Quad d)
  | join (q : Quad d)

def Seg.old : Seg d → List (Quad d)
  | .same q => [q]
  | .split p => [p]
  | .join q => kids q

def Seg.new : Seg d → List (Quad d)
  | .same q => [q]
  | .split p => kids p
  | .join q => [q]

/-- Path of two lists: what starts with the same leaf. -/
theorem Path.start_inj {a b : ℕ} {l : List (Quad d)} (h : Path a l b) {q r : Quad d} (hq : q ∈ l) (hr : r ∈ l)
    (h1 : start q ≤ start r) (h2 : start r < stop q) : q = r := by
  induction l generalizing a with
  | nil => cases hq
  | cons x l ih =>
    rcases List.mem_cons.mp hq with e | hq
    · rcases List.mem_cons.mp hr with e' | hr
      · rw [e, e']
      · have := (h.2.mem hr).1
        rw [e] at h2
        omega
    · rcases List.mem_cons.mp hr with e' | hr
      · have := (h.2.mem hq).1
        have := start_lt_stop x
        rw [e'] at h1
        omega
      · exact ih h.2 hq hr

theorem kids_path {p : Quad d} (hp : Valid p) : Path (start p) (kids p) (stop p) := by
  rw [kids_eq hp]
  exact children_path hp.aligned hp.int32 (by have := hp.1; omega)

theorem path_prefix {a b c : ℕ} {l1 l2 : List (Quad d)} (h1 : Path a l1 c) (h2 : Path a l2 b) (hs : l1 ⊆ l2) :
    ∃ rest, l2 = l1 ++ rest ∧ Path c rest b := by
  induction l1 generalizing a l2 with
  | nil =>
    have e : a = c := h1
    exact ⟨l2, rfl, e ▸ h2⟩
  | cons q l1 ih =>
    cases l2 with
    | nil => exact absurd (hs (List.mem_cons_self)) (by simp)
    | cons r l2 =>
      have hqr : q = r := h2.start_inj (hs List.mem_cons_self) List.mem_cons_self (by rw [← h1.1, ← h2.1])
        (by have := start_lt_stop q; rw [← h2.1, h1.1]; exact this)
      subst hqr
      obtain ⟨rest, e, hp⟩ := ih h1.2 h2.2 (fun x hx => by
        rcases List.mem_cons.mp (hs (List.mem_cons_of_mem _ hx)) with h | h
        · have h3 := (h1.2.mem hx).1
          have h4 := start_lt_stop q
          rw [h] at h3
          omega
        · exact h)
      exact ⟨rest, by rw [e]; rfl, hp⟩

/-- The three ways in which a new leaf comes from the old ones. -/
def Spec.FromOld (old : List (Quad d)) (q : Quad d) : Prop :=
  q ∈ old ∨ (∃ p ∈ old, q ∈ kids p) ∨ (Valid q ∧ ∀ k, k < 2 ^ d → kid q k ∈ old)

theorem zero_mem_kids (q : Quad d) : kid q 0 ∈ kids q := mem_kids.mpr ⟨0, by positivity, rfl⟩

theorem kids_cons (q : Quad d) : ∃ t, kids q = kid q 0 :: t := by
  unfold kids
  have hD : 0 < 2 ^ d := by positivity
  obtain ⟨n, hn⟩ : ∃ n, 2 ^ d = n + 1 := ⟨2 ^ d - 1, by omega⟩
  rw [hn, List.range_succ_eq_map]
  exact ⟨_, rfl⟩

theorem start_kid_zero {q : Quad d} (hq : Valid q) : start (kid q 0) = start q := by
  obtain ⟨t, ht⟩ := kids_cons q
  have := kids_path hq
  rw [ht] at this
  exact this.1.symm

theorem kids_run {b : ℕ} {old : List (Quad d)} {p : Quad d} (hvo : ∀ q ∈ old, Valid q)
    (hold : Path (start p) old b) (hpo : p ∈ old) (hpb : stop p ≤ b) : ∀ (ks : List (Quad d)) (c : ℕ), Path c ks (stop p) →
    ks ⊆ kids p → start p < c → ∀ new : List (Quad d), Path c new b → (∀ q ∈ new, FromOld old q) →
    ∃ rest, new = ks ++ rest ∧ Path (stop p) rest b := by
  intro ks
  have hp := hvo p hpo
  induction ks with
  | nil =>
    intro c hks _ _ new hn _
    have e : c = stop p := hks
    exact ⟨new, rfl, e ▸ hn⟩
  | cons x ks ih =>
    intro c hks hsub hc new hn hf
    have hxs := start_lt_stop x
    have hxp := hks.2.le
    cases new with
    | nil =>
      have e : c = b := hn
      have := hks.1
      omega
    | cons r new =>
      have hr := hn.1
      have hx := hks.1
      have hstart : ∀ y ∈ old, start y = c → False := by
        intro y hy e
        have := hold.start_inj hpo hy (by omega) (by omega)
        rw [← this] at e
        omega
      have hmem : r ∈ kids p := by
        rcases hf r (by simp) with h | ⟨p', hp', h⟩ | ⟨hv, h⟩
        · exact absurd hr.symm (fun e => hstart r h e)
        · have h3 := (kids_path (hvo p' hp')).mem h
          have h4 := start_lt_stop r
          have h5 := (hold.mem hp').1
          have : p' = p := by
            rcases Nat.lt_or_ge (start p') (stop p) with h6 | h6
            · exact (hold.start_inj hpo hp' h5 h6).symm
            · omega
          rw [← this]; exact h
        · exact absurd (by rw [start_kid_zero hv]; exact hr.symm) (hstart _ (h 0 (by positivity)))
      have hrx : r = x := (kids_path hp).start_inj hmem (hsub List.mem_cons_self) (by omega) (by
        have := start_lt_stop r
        omega)
      subst hrx
      obtain ⟨rest, e, h⟩ := ih (stop r) hks.2 (fun y hy => hsub (List.mem_cons_of_mem _ hy)) (by omega) new hn.2
        (fun q hq => hf q (by simp [hq]))
      exact ⟨rest, by rw [e]; rfl, h⟩

theorem segs_exist (n : ℕ) : ∀ (a b : ℕ) (old new : List (Quad d)), new.length ≤ n → Path a old b → Path a new b →
    (∀ q ∈ old, Valid q) → (∀ q ∈ new, Valid q) → (∀ q ∈ new, FromOld old q) →
    ∃ segs : List (Seg d), old = segs.flatMap Seg.old ∧ new = segs.flatMap Seg.new := by
  induction n with
  | zero =>
    intro a b old new hlen ho hn _ _ _
    have hnil : new = [] := List.length_eq_zero_iff.mp (by omega)
    subst hnil
    have e : a = b := hn
    cases old with
    | nil => exact ⟨[], rfl, rfl⟩
    | cons q old =>
      have := ho.1
      have := ho.2.le
      have := start_lt_stop q
      omega
  | succ n ih =>
    intro a b old new hlen ho hn hvo hvn hf
    cases new with
    | nil => exact ih a b old [] (by simp) ho hn hvo hvn hf
    | cons q new =>
      cases old with
      | nil =>
        have e : a = b := ho
        have := hn.1
        have := hn.2.le
        have := start_lt_stop q
        omega
      | cons p old =>
        have hq := hvn q (by simp)
        have hp := hvo p (by simp)
        have hsq := start_lt_stop q
        have hsp := start_lt_stop p
        have hq1 := hn.1
        have hp1 := ho.1
        have hlen' : new.length ≤ n := by simpa using hlen
        -- the remaining new leaves come from the remaining old leaves
        have hrest : ∀ (c : ℕ) (o1 o2 new' : List (Quad d)), p :: old = o1 ++ o2 → Path a o1 c → Path c o2 b → Path c new' b →
            new' ⊆ q :: new → ∀ r ∈ new', FromOld o2 r := by
          intro c o1 o2 new' he hc1 hc2 hn' hsub r hr
          have hlow : ∀ y ∈ p :: old, c ≤ start y → y ∈ o2 := by
            intro y hy hle
            rw [he, List.mem_append] at hy
            rcases hy with hy | hy
            · have := (hc1.mem hy).2
              have := start_lt_stop y
              omega
            · exact hy
          have hcr := (hn'.mem hr).1
          rcases hf r (hsub hr) with h | ⟨p', hp', h⟩ | ⟨hv, h⟩
          · exact Or.inl (hlow r h hcr)
          · refine Or.inr (Or.inl ⟨p', ?_, h⟩)
            rw [he, List.mem_append] at hp'
            rcases hp' with hp' | hp'
            · have h1 := (hc1.mem hp').2
              have h2 := (kids_path (hvo p' (by rw [he]; simp [hp']))).mem h
              have := start_lt_stop r
              omega
            · exact hp'
          · refine Or.inr (Or.inr ⟨hv, fun k hk => hlow _ (h k hk) ?_⟩)
            have := ((kids_path hv).mem (mem_kids.mpr ⟨k, hk, rfl⟩)).1
            omega
        rcases hf q (by simp) with h | ⟨p', hp', h⟩ | ⟨hv, h⟩
        · have e : q = p := ho.start_inj h List.mem_cons_self (by omega) (by omega)
          subst e
          obtain ⟨segs, e1, e2⟩ := ih (stop q) b old new hlen' ho.2 hn.2 (fun x hx => hvo x (by simp [hx]))
            (fun x hx => hvn x (by simp [hx]))
            (hrest (stop q) [q] old new rfl ⟨hq1, rfl⟩ ho.2 hn.2 (List.subset_cons_self _ _))
          exact ⟨.same q :: segs, by rw [e1]; rfl, by rw [e2]; rfl⟩
        · have hin := (kids_path (hvo p' hp')).mem h
          have hlow := (ho.mem hp').1
          have e : p' = p := (ho.start_inj List.mem_cons_self hp' (by omega) (by omega)).symm
          subst e
          obtain ⟨ks, hks⟩ := kids_cons p'
          have hkp := kids_path hp
          rw [hks] at hkp
          have hqk : q = kid p' 0 := (kids_path hp).start_inj h (zero_mem_kids p') (by rw [start_kid_zero hp]; omega)
            (by rw [start_kid_zero hp]; omega)
          rw [← hqk] at hkp hks
          have hpb := (ho.mem hp').2
          obtain ⟨rest, e, hpr⟩ := kids_run hvo (by rw [← hp1]; exact ho) hp' hpb ks (stop q) hkp.2
            (by rw [hks]; exact List.subset_cons_self _ _) (by omega) new hn.2 (fun x hx => hf x (by simp [hx]))
          have hsub : rest ⊆ q :: new := by
            rw [e]
            exact fun x hx => List.mem_cons_of_mem _ (List.mem_append_right _ hx)
          obtain ⟨segs, e1, e2⟩ := ih (stop p') b old rest (by
              have : rest.length ≤ new.length := by rw [e]; simp
              omega) ho.2 hpr
            (fun x hx => hvo x (by simp [hx])) (fun x hx => hvn x (hsub hx))
            (hrest (stop p') [p'] old rest rfl ⟨hp1, rfl⟩ ho.2 hpr hsub)
          refine ⟨.split p' :: segs, by rw [e1]; rfl, ?_⟩
          rw [List.flatMap_cons, ← e2]
          change q :: new = kids p' ++ rest
          rw [hks, e]; rfl
        · have hkp := kids_path hv
          rw [← hq1] at hkp
          obtain ⟨rest, e, hpr⟩ := path_prefix hkp ho (fun x hx => by
            obtain ⟨k, hk, rfl⟩ := mem_kids.mp hx
            exact h k hk)
          obtain ⟨segs, e1, e2⟩ := ih (stop q) b rest new hlen' hpr hn.2
            (fun x hx => hvo x (by rw [e]; exact List.mem_append_right _ hx)) (fun x hx => hvn x (by simp [hx]))
            (hrest (stop q) (kids q) rest new e hkp hpr hn.2 (List.subset_cons_self _ _))
          exact ⟨.join q :: segs, by rw [e, e1]; rfl, by rw [e2]; rfl⟩

/-- Positions at which a refined leaf begins. -/
def segRefined (d : ℕ) (z : ℤ) : List (Seg d) → List ℤ
  | [] => []
  | .same _ :: s => segRefined d (z + 1) s
  | .split _ :: s => z :: segRefined d (z + 2 ^ d) s
  | .join _ :: s => segRefined d (z + 1) s

/-- Positions of the leaves that are made by coarsening. -/
def segCoarsened (d : ℕ) (z : ℤ) : List (Seg d) → List ℤ
  | [] => []
  | .same _ :: s => segCoarsened d (z + 1) s
  | .split _ :: s => segCoarsened d (z + 2 ^ d) s
  | .join _ :: s => z :: segCoarsened d (z + 1) s

theorem kids_levels (q : Quad d) : (kids q).map Quad.level = List.replicate (2 ^ d) (q.level + 1) := by
  unfold kids kid
  rw [List.map_map]
  apply List.eq_replicate_iff.mpr
  simp

theorem wrapNewlyTree_run (offset : ℤ) (new : List ℕ) (levels : List ℕ) : ∀ (segs : List (Seg d)) (zz qz : ℕ)
    (R C : List ℤ) (rest : List ℕ), new.drop zz = (segs.flatMap Seg.new).map Quad.level → zz ≤ new.length →
    levels.drop qz = (segs.flatMap Seg.old).map Quad.level ++ rest →
    wrapNewlyTree d offset new levels zz qz R C = some (R ++ segRefined d (zz + offset) segs,
      C ++ segCoarsened d (zz + offset) segs, qz + (segs.flatMap Seg.old).length) := by
  have hD : 0 < 2 ^ d := by positivity
  intro segs
  induction segs with
  | nil =>
    intro zz qz R C rest hn hz ho
    unfold wrapNewlyTree
    have : zz = new.length := by
      simp only [List.flatMap_nil, List.map_nil, List.drop_eq_nil_iff] at hn
      omega
    rw [dif_neg (by omega), if_pos this]
    simp [segRefined, segCoarsened]
  | cons s segs ih =>
    intro zz qz R C rest hn hz ho
    rw [List.flatMap_cons, List.map_append] at hn ho
    obtain ⟨x, xs, hx⟩ : ∃ x xs, s.new.map Quad.level = x :: xs := by
      cases s with
      | same q => exact ⟨_, _, rfl⟩
      | join q => exact ⟨_, _, rfl⟩
      | split p => obtain ⟨t, ht⟩ := kids_cons p; exact ⟨_, _, by rw [Seg.new, ht]; rfl⟩
    obtain ⟨y, ys, hy⟩ : ∃ x xs, s.old.map Quad.level = x :: xs := by
      cases s with
      | same q => exact ⟨_, _, rfl⟩
      | split q => exact ⟨_, _, rfl⟩
      | join p => obtain ⟨t, ht⟩ := kids_cons p; exact ⟨_, _, by rw [Seg.old, ht]; rfl⟩
    have hlt : zz < new.length := by
      by_contra h
      rw [List.drop_eq_nil_of_le (by omega), hx] at hn
      cases hn
    have hnz : new[zz]? = some x := by
      have := congrArg (fun l => l[0]?) hn
      simpa [hx, List.getElem?_drop] using this
    have hqz : levels[qz]? = some y := by
      have := congrArg (fun l => l[0]?) ho
      simpa [hy, List.getElem?_drop] using this
    have hnz' : new[zz] = x := by
      rw [List.getElem?_eq_getElem hlt] at hnz
      exact Option.some.inj hnz
    have hn2 : new.drop (zz + s.new.length) = (segs.flatMap Seg.new).map Quad.level := by
      rw [← List.drop_drop, hn, List.drop_left' (by simp)]
    have ho2 : levels.drop (qz + s.old.length) = (segs.flatMap Seg.old).map Quad.level ++ rest := by
      rw [← List.drop_drop, ho, List.append_assoc, List.drop_left' (by simp)]
    have hz2 : zz + s.new.length ≤ new.length := by
      have := congrArg List.length hn
      simp only [List.length_drop, List.length_append, List.length_map] at this
      omega
    unfold wrapNewlyTree
    rw [dif_pos hlt, hqz]
    change (if new[zz] > y then _ else _) = _
    rw [hnz']
    cases s with
    | same q =>
      have e1 : x = q.level := (List.cons.inj hx).1.symm
      have e2 : y = q.level := (List.cons.inj hy).1.symm
      rw [if_neg (by omega), if_neg (by omega), ih (zz + 1) (qz + 1) R C rest hn2 hz2 ho2]
      simp only [segRefined, segCoarsened, List.flatMap_cons, Seg.old, List.length_append, List.length_singleton]
      push_cast
      rw [show (zz : ℤ) + 1 + offset = zz + offset + 1 by ring, ← add_assoc]
    | split p =>
      have e1 : x = p.level + 1 := by
        obtain ⟨t, ht⟩ := kids_cons p
        rw [Seg.new, ht] at hx
        exact (List.cons.inj hx).1.symm
      have e2 : y = p.level := (List.cons.inj hy).1.symm
      have hl : (Seg.split p).new.length = 2 ^ d := by simp [Seg.new, kids]
      rw [hl] at hn2 hz2
      rw [if_pos (by omega), ih (zz + 2 ^ d) (qz + 1) _ C rest hn2 hz2 ho2]
      simp only [segRefined, segCoarsened, List.flatMap_cons, Seg.old, List.length_append, List.length_singleton]
      push_cast
      rw [show (zz : ℤ) + 2 ^ d + offset = zz + offset + 2 ^ d by ring, ← add_assoc, List.append_assoc]
      rfl
    | join q =>
      have e1 : x = q.level := (List.cons.inj hx).1.symm
      have e2 : y = q.level + 1 := by
        obtain ⟨t, ht⟩ := kids_cons q
        rw [Seg.old, ht] at hy
        exact (List.cons.inj hy).1.symm
      have hl : (Seg.join q).old.length = 2 ^ d := by simp [Seg.old, kids]
      rw [hl] at ho2
      rw [if_neg (by omega), if_pos (by omega), ih (zz + 1) (qz + 2 ^ d) R _ rest hn2 hz2 ho2]
      simp only [segRefined, segCoarsened, List.flatMap_cons, List.length_append, hl]
      push_cast
      rw [show (zz : ℤ) + 1 + offset = zz + offset + 1 by ring, ← add_assoc, List.append_assoc]
      rfl

theorem mem_segRefined (n : ℤ) : ∀ (segs : List (Seg d)) (z : ℤ), n ∈ segRefined d z segs ↔
    ∃ s1 p s2, segs = s1 ++ .split p :: s2 ∧ n = z + (s1.flatMap Seg.new).length := by
  intro segs
  induction segs with
  | nil => intro z; simp [segRefined]
  | cons s segs ih =>
    intro z
    have hstep : ∀ z', z' = z + s.new.length → ((∃ s1 p s2, segs = s1 ++ .split p :: s2 ∧ n = z' + (s1.flatMap Seg.new).length) ↔
        ∃ s1 p s2, s :: segs = s1 ++ .split p :: s2 ∧ s1 ≠ [] ∧ n = z + (s1.flatMap Seg.new).length) := by
      intro z' hz'
      constructor
      · rintro ⟨s1, p, s2, e, h⟩
        refine ⟨s :: s1, p, s2, by rw [e]; rfl, by simp, ?_⟩
        rw [List.flatMap_cons, List.length_append, h, hz']; push_cast; ring
      · rintro ⟨s1, p, s2, e, hne, h⟩
        cases s1 with
        | nil => exact absurd rfl hne
        | cons x s1 =>
          obtain ⟨rfl, e'⟩ := List.cons.inj e
          refine ⟨s1, p, s2, e', ?_⟩
          rw [h, hz', List.flatMap_cons, List.length_append]; push_cast; ring
    have hsplit : (∃ s1 p s2, s :: segs = s1 ++ .split p :: s2 ∧ n = z + (s1.flatMap Seg.new).length) ↔
        ((∃ p, s = .split p) ∧ n = z) ∨ ∃ s1 p s2, s :: segs = s1 ++ .split p :: s2 ∧ s1 ≠ [] ∧
          n = z + (s1.flatMap Seg.new).length := by
      constructor
      · rintro ⟨s1, p, s2, e, h⟩
        cases s1 with
        | nil => exact Or.inl ⟨⟨p, (List.cons.inj e).1⟩, by simpa using h⟩
        | cons x s1 => exact Or.inr ⟨_, p, s2, e, by simp, h⟩
      · rintro (⟨⟨p, rfl⟩, rfl⟩ | ⟨s1, p, s2, e, -, h⟩)
        · exact ⟨[], p, segs, rfl, by simp⟩
        · exact ⟨s1, p, s2, e, h⟩
    rw [hsplit]
    cases s with
    | same q => rw [segRefined, ih, hstep _ (by simp [Seg.new])]; simp
    | join q => rw [segRefined, ih, hstep _ (by simp [Seg.new])]; simp
    | split p => rw [segRefined, List.mem_cons, ih, hstep _ (by simp [Seg.new, kids])]; simp

theorem mem_segCoarsened (n : ℤ) : ∀ (segs : List (Seg d)) (z : ℤ), n ∈ segCoarsened d z segs ↔
    ∃ s1 p s2, segs = s1 ++ .join p :: s2 ∧ n = z + (s1.flatMap Seg.new).length := by
  intro segs
  induction segs with
  | nil => intro z; simp [segCoarsened]
  | cons s segs ih =>
    intro z
    have hstep : ∀ z', z' = z + s.new.length → ((∃ s1 p s2, segs = s1 ++ .join p :: s2 ∧ n = z' + (s1.flatMap Seg.new).length) ↔
        ∃ s1 p s2, s :: segs = s1 ++ .join p :: s2 ∧ s1 ≠ [] ∧ n = z + (s1.flatMap Seg.new).length) := by
      intro z' hz'
      constructor
      · rintro ⟨s1, p, s2, e, h⟩
        refine ⟨s :: s1, p, s2, by rw [e]; rfl, by simp, ?_⟩
        rw [List.flatMap_cons, List.length_append, h, hz']; push_cast; ring
      · rintro ⟨s1, p, s2, e, hne, h⟩
        cases s1 with
        | nil => exact absurd rfl hne
        | cons x s1 =>
          obtain ⟨rfl, e'⟩ := List.cons.inj e
          refine ⟨s1, p, s2, e', ?_⟩
          rw [h, hz', List.flatMap_cons, List.length_append]; push_cast; ring
    have hsplit : (∃ s1 p s2, s :: segs = s1 ++ .join p :: s2 ∧ n = z + (s1.flatMap Seg.new).length) ↔
        ((∃ p, s = .join p) ∧ n = z) ∨ ∃ s1 p s2, s :: segs = s1 ++ .join p :: s2 ∧ s1 ≠ [] ∧
          n = z + (s1.flatMap Seg.new).length := by
      constructor
      · rintro ⟨s1, p, s2, e, h⟩
        cases s1 with
        | nil => exact Or.inl ⟨⟨p, (List.cons.inj e).1⟩, by simpa using h⟩
        | cons x s1 => exact Or.inr ⟨_, p, s2, e, by simp, h⟩
      · rintro (⟨⟨p, rfl⟩, rfl⟩ | ⟨s1, p, s2, e, -, h⟩)
        · exact ⟨[], p, segs, rfl, by simp⟩
        · exact ⟨s1, p, s2, e, h⟩
    rw [hsplit]
    cases s with
    | same q => rw [segCoarsened, ih, hstep _ (by simp [Seg.new])]; simp
    | split q => rw [segCoarsened, ih, hstep _ (by simp [Seg.new, kids])]; simp
    | join p => rw [segCoarsened, List.mem_cons, ih, hstep _ (by simp [Seg.new])]; simp

theorem seg_bounds : ∀ (segs : List (Seg d)) (z : ℤ), (segRefined d z segs).Pairwise (· < ·) ∧
    (segCoarsened d z segs).Pairwise (· < ·) ∧
    (∀ n ∈ segRefined d z segs, z ≤ n ∧ n < z + (segs.flatMap Seg.new).length) ∧
    ∀ n ∈ segCoarsened d z segs, z ≤ n ∧ n < z + (segs.flatMap Seg.new).length := by
  have hD : (0 : ℤ) < 2 ^ d := by positivity
  intro segs
  induction segs with
  | nil => intro z; simp [segRefined, segCoarsened]
  | cons s segs ih =>
    intro z
    cases s with
    | same q =>
      obtain ⟨h1, h2, h3, h4⟩ := ih (z + 1)
      refine ⟨h1, h2, fun n hn => ?_, fun n hn => ?_⟩
      · have := h3 n hn
        simp only [List.flatMap_cons, Seg.new, List.length_append, List.length_singleton]; push_cast; omega
      · have := h4 n hn
        simp only [List.flatMap_cons, Seg.new, List.length_append, List.length_singleton]; push_cast; omega
    | split p =>
      obtain ⟨h1, h2, h3, h4⟩ := ih (z + 2 ^ d)
      have hl : (Seg.split p).new.length = 2 ^ d := by simp [Seg.new, kids]
      refine ⟨List.Pairwise.cons (fun n hn => by have := h3 n hn; omega) h1, h2, fun n hn => ?_, fun n hn => ?_⟩
      · simp only [List.flatMap_cons, List.length_append, hl]; push_cast
        rcases List.mem_cons.mp hn with rfl | hn
        · omega
        · have := h3 n hn; omega
      · have := h4 n hn
        simp only [List.flatMap_cons, List.length_append, hl]; push_cast; omega
    | join q =>
      obtain ⟨h1, h2, h3, h4⟩ := ih (z + 1)
      refine ⟨h1, List.Pairwise.cons (fun n hn => by have := h4 n hn; omega) h2, fun n hn => ?_, fun n hn => ?_⟩
      · have := h3 n hn
        simp only [List.flatMap_cons, Seg.new, List.length_append, List.length_singleton]; push_cast; omega
      · simp only [List.flatMap_cons, Seg.new, List.length_append, List.length_singleton]; push_cast
        rcases List.mem_cons.mp hn with rfl | hn
        · omega
        · have := h4 n hn; omega

end P4est
