import Verif.Spec.Iterate
import Verif.Lemmas.IterateWindow

/-! # The search on the two sides of a face -/

namespace P4est
open Spec

variable {d : ℕ}

/-! ### Sums of indicators -/

open Classical in
/-- One or zero. -/
noncomputable def ind (p : Prop) : ℕ := if p then 1 else 0

theorem ind_true {p : Prop} (h : p) : ind p = 1 := if_pos h
theorem ind_false {p : Prop} (h : ¬ p) : ind p = 0 := if_neg h
theorem ind_congr {p q : Prop} (h : p ↔ q) : ind p = ind q := by rw [propext h]

theorem ind_sum_zero {β : Type} (l : List β) (P : β → Prop) (h : ∀ x ∈ l, ¬ P x) : (l.map fun x => ind (P x)).sum = 0 := by
  induction l with
  | nil => rfl
  | cons x l ih =>
    rw [List.map_cons, List.sum_cons, ih fun y hy => h y (by simp [hy]), ind_false (h x (by simp))]

theorem ind_sum {β : Type} (l : List β) (hn : l.Nodup) (P : β → Prop) (R : Prop) (h1 : R → ∃ x ∈ l, P x)
    (h2 : ∀ x ∈ l, P x → R ∧ ∀ y ∈ l, P y → y = x) : (l.map fun x => ind (P x)).sum = ind R := by
  by_cases hR : R
  · rw [ind_true hR]
    obtain ⟨x, hx, hp⟩ := h1 hR
    have hu := (h2 x hx hp).2
    clear h1 h2 hR
    induction l with
    | nil => simp at hx
    | cons z l ih =>
      rw [List.map_cons, List.sum_cons]
      rw [List.nodup_cons] at hn
      rcases List.mem_cons.mp hx with rfl | hx
      · rw [ind_true hp, ind_sum_zero]
        intro y hy hpy
        exact hn.1 (hu y (by simp [hy]) hpy ▸ hy)
      · rw [ih hn.2 hx fun y hy => hu y (by simp [hy]), ind_false]
        intro hz
        exact hn.1 (hu z (by simp) hz ▸ hx)
  · rw [ind_false hR, ind_sum_zero]
    intro x hx hp
    exact hR (h2 x hx hp).1

theorem count_flatMap' {β γ : Type} [BEq γ] (e : γ) (l : List β) (f : β → List γ) :
    (l.flatMap f).count e = (l.map fun x => (f x).count e).sum := by
  induction l with
  | nil => rfl
  | cons x l ih => rw [List.flatMap_cons, List.count_append, ih, List.map_cons, List.sum_cons]

theorem sum_map_add' {β : Type} (l : List β) (f g : β → ℕ) : (l.map fun x => f x + g x).sum = (l.map f).sum + (l.map g).sum := by
  induction l with
  | nil => rfl
  | cons x l ih => simp only [List.map_cons, List.sum_cons, ih]; omega

theorem sum_comm' {β γ : Type} (l : List β) (m : List γ) (f : β → γ → ℕ) :
    (l.map fun x => (m.map (f x)).sum).sum = (m.map fun y => (l.map fun x => f x y).sum).sum := by
  induction l with
  | nil => simp
  | cons x l ih => simp only [List.map_cons, List.sum_cons, ih, sum_map_add']

theorem eq_singleton {β : Type} {l : List β} (hn : l.Nodup) {a : β} (ha : a ∈ l) (h : ∀ x ∈ l, x = a) : l = [a] := by
  cases l with
  | nil => simp at ha
  | cons x l =>
    obtain rfl := h x (by simp)
    cases l with
    | nil => rfl
    | cons y l =>
      obtain rfl := h y (by simp)
      simp at hn

/-! ### What is known -/

/-- The leaves of the forest, balanced across faces, and those known to one rank. -/
structure IterWorld (conn : FaceConn) (Leaf : ℕ → Quad d → Prop) (Lt Gt : ℕ → List (Quad d)) : Prop where
  valid : ∀ t q, Leaf t q → Valid q
  disj : ∀ t q r b, Leaf t q → Leaf t r → b ∈ Cells q → b ∈ Cells r → q = r
  cover : ∀ t b, t < conn.numTrees → InTree b → ∃ q, Leaf t q ∧ b ∈ Cells q
  loc : ∀ t, ∀ q ∈ Lt t, Leaf t q
  gho : ∀ t, ∀ q ∈ Gt t, Leaf t q
  apart : ∀ t, ∀ q ∈ Lt t, q ∉ Gt t
  lsort : ∀ t, Sorted (Lt t)
  gsort : ∀ t, Sorted (Gt t)
  balance : ∀ t q t' q', Leaf t q → Leaf t' q' → t < conn.numTrees → t' < conn.numTrees →
    ShareFace conn (t, q) (t', q') → q'.level ≤ q.level + 1

section World

variable {conn : FaceConn} {Leaf : ℕ → Quad d → Prop} {Lt Gt : ℕ → List (Quad d)}

/-- Known in tree `t`. -/
def Kn (Lt Gt : ℕ → List (Quad d)) (t : ℕ) (q : Quad d) : Prop := q ∈ Lt t ∨ q ∈ Gt t

theorem IterWorld.leaf (W : IterWorld conn Leaf Lt Gt) {t : ℕ} {q : Quad d} (h : Kn Lt Gt t q) : Leaf t q := by
  rcases h with h | h
  · exact W.loc t q h
  · exact W.gho t q h

theorem IterWorld.sub (W : IterWorld conn Leaf Lt Gt) {t : ℕ} {q a : Quad d} (hq : Leaf t q) (ha : Leaf t a)
    (h : Cells q ⊆ Cells a) : q = a := W.disj t q a q.c hq ha (corner_mem q) (h (corner_mem q))

theorem sorted_nodup {L : List (Quad d)} (h : Sorted L) : L.Nodup := by
  refine List.Pairwise.imp ?_ h
  intro a b hab e
  rw [e] at hab
  exact before_irrefl' b hab

theorem inside_known (W : IterWorld conn Leaf Lt Gt) {t : ℕ} {a : Quad d} (ha : Leaf t a) {L : List (Quad d)}
    (hL : ∀ q ∈ L, Leaf t q) (hs : Sorted L) : (a ∈ L → inside L a = [a]) ∧ (a ∉ L → inside L a = []) := by
  constructor
  · intro h
    refine eq_singleton (List.Nodup.sublist List.filter_sublist (sorted_nodup hs)) (mem_inside.mpr ⟨h, le_rfl⟩) ?_
    intro x hx
    obtain ⟨h1, h2⟩ := mem_inside.mp hx
    exact W.sub (hL x h1) ha h2
  · intro h
    rw [List.eq_nil_iff_forall_not_mem]
    intro x hx
    obtain ⟨h1, h2⟩ := mem_inside.mp hx
    exact h (W.sub (hL x h1) ha h2 ▸ h1)

/-- Children at a face, in some order. -/
structure ChildList (d f : ℕ) (l : List ℕ) : Prop where
  length : l.length = 2 ^ (d - 1)
  nodup : l.Nodup
  mem : ∀ k, k ∈ l ↔ k < 2 ^ d ∧ OnFaceBit f k

/-- A side of a search for the area `a`. -/
structure SideArea (conn : FaceConn) (Lt Gt : ℕ → List (Quad d)) (G : List (Quad d)) (goff : ℕ → ℕ) (s : IterSide d)
    (a : Quad d) : Prop where
  tree : s.tree < conn.numTrees
  face : s.face < 2 * d
  child : ChildList d s.face s.toChild
  valid : Valid a
  quads : s.quads = Lt s.tree
  loc : AreaWin s.quads 0 s.quads.length (Lt s.tree) a s.loc
  gho : AreaWin G (goff s.tree) (goff (s.tree + 1)) (Gt s.tree) a s.gho
  free : ∀ q, Kn Lt Gt s.tree q → ¬ Cells a ⊂ Cells q

variable {G : List (Quad d)} {goff : ℕ → ℕ}

/-- The entry for quadrant `b` of tree `t`. -/
def SlotOk (Lt Gt : ℕ → List (Quad d)) (G : List (Quad d)) (goff : ℕ → ℕ) (t : ℕ) (b : Quad d) (x : FaceSlot d) : Prop :=
  (b ∈ Lt t ∧ ∃ n : ℕ, (Lt t)[n]? = some b ∧ x = ⟨some b, n, false⟩) ∨
  (b ∈ Gt t ∧ b ∉ Lt t ∧ ∃ n : ℕ, goff t ≤ n ∧ n < goff (t + 1) ∧ G[n]? = some b ∧ x = ⟨some b, n, true⟩) ∨
  (b ∉ Lt t ∧ b ∉ Gt t ∧ (∀ q, Kn Lt Gt t q → ¬ Cells q ⊆ Cells b) ∧ x = noSlot)

theorem SlotOk.count {t f : ℕ} {b : Quad d} {x : FaceSlot d} (h : SlotOk Lt Gt G goff t b x)
    (e : (ℕ × Quad d) × ℕ) : (slotFaces t f x).count e = ind (e = ((t, b), f) ∧ b ∈ Lt t) := by
  rcases h with ⟨h, n, -, rfl⟩ | ⟨-, h, n, -, -, -, rfl⟩ | ⟨h, -, -, rfl⟩
  · unfold slotFaces
    simp only [Bool.false_eq_true, if_false, Option.map_some, Option.toList_some, List.count_singleton, beq_iff_eq]
    by_cases he : ((t, b), f) = e
    · rw [if_pos he, ind_true ⟨he.symm, h⟩]
    · rw [if_neg he, ind_false fun c => he c.1.symm]
  · rw [ind_false fun c => h c.2]; rfl
  · rw [ind_false fun c => h c.2]; rfl

/-- What the first quadrants of the two windows are, for an area with at most one known quadrant, itself. -/
theorem slot_cases (W : IterWorld conn Leaf Lt Gt) {t : ℕ} {b : Quad d} (hone : ∀ q, Kn Lt Gt t q → Cells q ⊆ Cells b → q = b) :
    (b ∈ Lt t ∧ b ∉ Gt t ∧ inside (Lt t) b = [b] ∧ inside (Gt t) b = []) ∨
    (b ∉ Lt t ∧ b ∈ Gt t ∧ inside (Lt t) b = [] ∧ inside (Gt t) b = [b]) ∨
    (b ∉ Lt t ∧ b ∉ Gt t ∧ inside (Lt t) b = [] ∧ inside (Gt t) b = [] ∧ ∀ q, Kn Lt Gt t q → ¬ Cells q ⊆ Cells b) := by
  by_cases h : b ∈ Lt t
  · have hl := W.loc t b h
    have hg := W.apart t b h
    exact Or.inl ⟨h, hg, (inside_known W hl (W.loc t) (W.lsort t)).1 h, (inside_known W hl (W.gho t) (W.gsort t)).2 hg⟩
  · by_cases hg : b ∈ Gt t
    · have hl := W.gho t b hg
      exact Or.inr (Or.inl ⟨h, hg, (inside_known W hl (W.loc t) (W.lsort t)).2 h,
        (inside_known W hl (W.gho t) (W.gsort t)).1 hg⟩)
    · have hno : ∀ q, Kn Lt Gt t q → ¬ Cells q ⊆ Cells b := by
        intro q hq hs
        obtain rfl := hone q hq hs
        rcases hq with hq | hq
        · exact h hq
        · exact hg hq
      refine Or.inr (Or.inr ⟨h, hg, ?_, ?_, hno⟩)
      · rw [List.eq_nil_iff_forall_not_mem]
        intro x hx
        exact hno x (Or.inl (mem_inside.mp hx).1) (mem_inside.mp hx).2
      · rw [List.eq_nil_iff_forall_not_mem]
        intro x hx
        exact hno x (Or.inr (mem_inside.mp hx).1) (mem_inside.mp hx).2

/-- One hanging quadrant. -/
theorem hangSlot_spec (hd : 0 < d) (W : IterWorld conn Leaf Lt Gt) {s : IterSide d} {a : Quad d}
    (h : SideArea conn Lt Gt G goff s a) (hl : a.level < 29) (hn : ¬ Kn Lt Gt s.tree a) {k : ℕ} (hk : k < 2 ^ d)
    (hone : ∀ q, Kn Lt Gt s.tree q → Cells q ⊆ Cells (kid a k) → q = kid a k) :
    ∃ x v, hangSlot G s (iterTier s.quads a.level s.loc) (iterTier G a.level s.gho) k = some (x, v) ∧
      SlotOk Lt Gt G goff s.tree (kid a k) x ∧ (v = true ↔ kid a k ∈ Lt s.tree) := by
  obtain ⟨wl, e1, h1⟩ := h.loc.tier hd h.valid hl (fun q hq => W.valid _ q (W.loc _ q hq)) (W.lsort _) (fun c => hn (Or.inl c)) hk
  obtain ⟨wg, e2, h2⟩ := h.gho.tier hd h.valid hl (fun q hq => W.valid _ q (W.gho _ q hq)) (W.gsort _) (fun c => hn (Or.inr c)) hk
  unfold hangSlot
  rw [e1, e2]
  simp only [Option.bind_eq_bind, Option.bind_some]
  rw [h1.test.1, h2.test.1]
  simp only [Option.bind_some]
  have g1 := h1.test.2
  have g2 := h2.test.2
  have g3 := h2.low
  rw [h.quads] at g1
  rcases slot_cases W hone with ⟨c1, c2, c3, c4⟩ | ⟨c1, c2, c3, c4⟩ | ⟨c1, c2, c3, c4, c5⟩
  · rw [c3, c4]
    rw [c3] at g1
    exact ⟨_, _, rfl, Or.inl ⟨c1, _, (g1 _ rfl).1, rfl⟩, by simp [c1]⟩
  · rw [c3, c4]
    rw [c4] at g2
    exact ⟨_, _, rfl, Or.inr (Or.inl ⟨c2, c1, _, g3, (g2 _ rfl).2, (g2 _ rfl).1, rfl⟩), by simp [c1]⟩
  · rw [c3, c4]
    exact ⟨_, _, rfl, Or.inr (Or.inr ⟨c1, c2, c5, rfl⟩), by simp [c1]⟩

/-- The search area itself. -/
theorem sideFull_spec (hd : 0 < d) (W : IterWorld conn Leaf Lt Gt) {s : IterSide d} {a : Quad d}
    (h : SideArea conn Lt Gt G goff s a) :
    ∃ r, sideFull G a.level s = some r ∧ (r = none ↔ ¬ Kn Lt Gt s.tree a) ∧
      ∀ x v, r = some (x, v) → SlotOk Lt Gt G goff s.tree a x ∧ (v = true ↔ a ∈ Lt s.tree) := by
  have g1 := h.loc.test.2
  have g2 := h.gho.test.2
  have g3 := h.gho.low
  unfold sideFull
  rw [h.loc.test.1, h.gho.test.1]
  simp only [Option.bind_eq_bind, Option.bind_some]
  by_cases hK : Kn Lt Gt s.tree a
  · have hone : ∀ q, Kn Lt Gt s.tree q → Cells q ⊆ Cells a → q = a := fun q hq hs => W.sub (W.leaf hq) (W.leaf hK) hs
    rcases slot_cases W hone with ⟨c1, c2, c3, c4⟩ | ⟨c1, c2, c3, c4⟩ | ⟨c1, c2, -⟩
    · rw [c3] at g1
      rw [h.quads] at g1
      rw [c3, c4]
      simp only [List.head?_cons, List.head?_nil, areaSlot, if_true]
      refine ⟨_, rfl, by simp [hK], ?_⟩
      intro x v hx
      cases hx
      exact ⟨Or.inl ⟨c1, _, (g1 _ rfl).1, rfl⟩, by simp [c1]⟩
    · rw [c4] at g2
      rw [c3, c4]
      simp only [List.head?_cons, List.head?_nil, areaSlot, if_true]
      refine ⟨_, rfl, by simp [hK], ?_⟩
      intro x v hx
      cases hx
      exact ⟨Or.inr (Or.inl ⟨c2, c1, _, g3, (g2 _ rfl).2, (g2 _ rfl).1, rfl⟩), by simp [c1]⟩
    · exact absurd hK (by unfold Kn; tauto)
  · have hno : ∀ (L : List (Quad d)) (w : Window) (g : Bool), (∀ q ∈ L, Kn Lt Gt s.tree q) →
        areaSlot a.level w g (inside L a).head? = none := by
      intro L w g hL
      cases hi : (inside L a).head? with
      | none => rfl
      | some q =>
        obtain ⟨q1, q2⟩ := mem_inside.mp (List.mem_of_mem_head? hi)
        unfold areaSlot
        dsimp only
        rw [if_neg]
        intro hlev
        have hne : q ≠ a := fun c => hK (c ▸ hL q q1)
        have := ((valid_ssubset_iff hd h.valid (W.valid _ q (W.leaf (hL q q1)))).mp
          (valid_ssubset_of_ne hd h.valid (W.valid _ q (W.leaf (hL q q1))) q2 hne)).1
        omega
    rw [hno _ _ _ fun q hq => Or.inl hq, hno _ _ _ fun q hq => Or.inr hq]
    exact ⟨none, rfl, by simp [hK], fun x v hx => by cases hx⟩

/-! ### The hanging side -/

theorem corner_table2 : ∀ f : Fin 4, ∀ k : Fin 4, OnFaceBit f k → ∃ j : Fin 2,
    entry (cornerFaceCornersTable 2) k f = some (j : ℤ) ∧ faceCorner 2 f j = some (k : ℕ) := by decide +kernel

theorem corner_table3 : ∀ f : Fin 6, ∀ k : Fin 8, OnFaceBit f k → ∃ j : Fin 4,
    entry (cornerFaceCornersTable 3) k f = some (j : ℤ) ∧ faceCorner 3 f j = some (k : ℕ) := by decide +kernel

theorem corner_table (hd : d = 2 ∨ d = 3) {f k : ℕ} (hf : f < 2 * d) (hk : k < 2 ^ d) (h : OnFaceBit f k) :
    ∃ j : ℕ, j < 2 ^ (d - 1) ∧ entry (cornerFaceCornersTable d) k f = some (j : ℤ) ∧ faceCorner d f j = some k := by
  rcases hd with rfl | rfl
  · obtain ⟨j, h1, h2⟩ := corner_table2 ⟨f, hf⟩ ⟨k, hk⟩ h
    exact ⟨j, j.2, h1, h2⟩
  · obtain ⟨j, h1, h2⟩ := corner_table3 ⟨f, hf⟩ ⟨k, hk⟩ h
    exact ⟨j, j.2, h1, h2⟩

theorem faceCorner_table2 : ∀ f : Fin 4, ∀ j : Fin 2, ∃ k : Fin 4, faceCorner 2 f j = some (k : ℕ) ∧ OnFaceBit f k ∧
    entry (cornerFaceCornersTable 2) k f = some (j : ℤ) := by decide +kernel

theorem faceCorner_table3 : ∀ f : Fin 6, ∀ j : Fin 4, ∃ k : Fin 8, faceCorner 3 f j = some (k : ℕ) ∧ OnFaceBit f k ∧
    entry (cornerFaceCornersTable 3) k f = some (j : ℤ) := by decide +kernel

theorem faceCorner_table (hd : d = 2 ∨ d = 3) {f j : ℕ} (hf : f < 2 * d) (hj : j < 2 ^ (d - 1)) :
    ∃ k : ℕ, k < 2 ^ d ∧ faceCorner d f j = some k ∧ OnFaceBit f k ∧ entry (cornerFaceCornersTable d) k f = some (j : ℤ) := by
  rcases hd with rfl | rfl
  · obtain ⟨k, h1, h2⟩ := faceCorner_table2 ⟨f, hf⟩ ⟨j, hj⟩
    exact ⟨k, k.2, h1, h2⟩
  · obtain ⟨k, h1, h2⟩ := faceCorner_table3 ⟨f, hf⟩ ⟨j, hj⟩
    exact ⟨k, k.2, h1, h2⟩

/-- Writing entries one after the other. -/
theorem fold_set {β : Type} (J : ℕ → ℕ) (X : ℕ → β) (V : ℕ → Bool) (hJ : ∀ i i', J i = J i' → X i = X i') : ∀ (l : List ℕ) (m : List (Option β) × Bool),
    let r := l.foldl (fun m i => (m.1.set (J i) (some (X i)), m.2 || V i)) m
    r.1.length = m.1.length ∧ (∀ i ∈ l, J i < m.1.length → r.1[J i]? = some (some (X i))) ∧
    (∀ j, (∀ i ∈ l, J i ≠ j) → r.1[j]? = m.1[j]?) ∧ (r.2 = true ↔ m.2 = true ∨ ∃ i ∈ l, V i = true) := by
  intro l
  induction l with
  | nil => intro m; simp
  | cons i l ih =>
    intro m
    obtain ⟨h1, h2, h3, h4⟩ := ih (m.1.set (J i) (some (X i)), m.2 || V i)
    simp only [List.foldl_cons]
    dsimp only at h1 h2 h3 h4
    rw [List.length_set] at h1 h2
    refine ⟨h1, ?_, ?_, ?_⟩
    · intro i' hi' hlt
      by_cases hex : ∃ i'' ∈ l, J i'' = J i'
      · obtain ⟨i'', g1, g2⟩ := hex
        have := h2 i'' g1 (by rw [g2]; exact hlt)
        rw [g2, hJ _ _ g2] at this
        exact this
      · push Not at hex
        have hii : i' = i := by
          rcases List.mem_cons.mp hi' with h | h
          · exact h
          · exact absurd rfl (hex i' h)
        subst hii
        rw [h3 _ hex, List.getElem?_set_self hlt]
    · intro j hj
      rw [h3 j fun i' hi' => hj i' (by simp [hi']), List.getElem?_set_ne (hj i (by simp))]
    · rw [h4, Bool.or_eq_true]
      simp only [List.mem_cons, exists_eq_or_imp]
      tauto

theorem foldlM_pure {β γ : Type} (f : γ → β → Option γ) (g : γ → β → γ) (l : List β) (h : ∀ m, ∀ i ∈ l, f m i = some (g m i)) (m : γ) :
    l.foldlM f m = some (l.foldl g m) := by
  induction l generalizing m with
  | nil => rfl
  | cons x l ih =>
    rw [List.foldlM_cons, h m x (by simp)]
    exact ih (fun m i hi => h m i (by simp [hi])) _

theorem mapM_id_some {β : Type} (l : List β) : (l.map some).mapM id = some l := by
  induction l with
  | nil => rfl
  | cons x l ih => rw [List.map_cons, List.mapM_cons, ih]; rfl

/-- The entries of a hanging side. -/
theorem sideHanging_spec (hd : d = 2 ∨ d = 3) (W : IterWorld conn Leaf Lt Gt) {s : IterSide d} {a : Quad d}
    (h : SideArea conn Lt Gt G goff s a) (hl : a.level < 29) (hn : ¬ Kn Lt Gt s.tree a)
    (hone : ∀ k ∈ s.toChild, ∀ q, Kn Lt Gt s.tree q → Cells q ⊆ Cells (kid a k) → q = kid a k) :
    ∃ (Y : ℕ → FaceSlot d) (v : Bool), sideHanging G a.level s = some (.hanging ((List.range (2 ^ (d - 1))).map Y), v) ∧
      (∀ j < 2 ^ (d - 1), ∃ k, faceCorner d s.face j = some k ∧ k ∈ s.toChild ∧ SlotOk Lt Gt G goff s.tree (kid a k) (Y j)) ∧
      (v = true ↔ ∃ k ∈ s.toChild, kid a k ∈ Lt s.tree) := by
  have hd0 : 0 < d := by omega
  have hstep : ∀ i, ∃ (j : ℕ) (x : FaceSlot d) (v : Bool), i < 2 ^ (d - 1) → ∃ k, s.toChild[i]? = some k ∧ k ∈ s.toChild ∧
      entry (cornerFaceCornersTable d) k s.face = some (j : ℤ) ∧ j < 2 ^ (d - 1) ∧
      (∀ m, hangStep G s (iterTier s.quads a.level s.loc) (iterTier G a.level s.gho) m i = some (m.1.set j (some x), m.2 || v)) ∧
      SlotOk Lt Gt G goff s.tree (kid a k) x ∧ (v = true ↔ kid a k ∈ Lt s.tree) := by
    intro i
    by_cases hi : i < 2 ^ (d - 1)
    · have hi' : i < s.toChild.length := by rw [h.child.length]; exact hi
      have hk := List.getElem_mem hi'
      obtain ⟨k1, k2⟩ := (h.child.mem _).mp hk
      obtain ⟨j, j1, j2, j3⟩ := corner_table hd h.face k1 k2
      obtain ⟨x, v, e, h1, h2⟩ := hangSlot_spec hd0 W h hl hn k1 (hone _ hk)
      refine ⟨j, x, v, fun _ => ⟨_, List.getElem?_eq_getElem hi', hk, j2, j1, fun m => ?_, h1, h2⟩⟩
      unfold hangStep
      rw [List.getElem?_eq_getElem hi']
      simp only [Option.bind_eq_bind, Option.bind_some]
      rw [j2]
      simp only [Option.bind_some]
      rw [show index (j : ℤ) = some j by unfold index; simp]
      simp only [Option.bind_some]
      rw [e]
      rfl
    · exact ⟨0, noSlot, false, fun c => absurd c hi⟩
  choose J X V hJXV using hstep
  -- the same entry is written by the same turn only
  have hinj : ∀ i i', i < 2 ^ (d - 1) → i' < 2 ^ (d - 1) → J i = J i' → i = i' := by
    intro i i' hi hi' hJ
    obtain ⟨k, e1, m1, c1, -⟩ := hJXV i hi
    obtain ⟨k', e2, m2, c2, -⟩ := hJXV i' hi'
    obtain ⟨a1, a2⟩ := (h.child.mem _).mp m1
    obtain ⟨b1, b2⟩ := (h.child.mem _).mp m2
    obtain ⟨j, -, j2, j3⟩ := corner_table hd h.face a1 a2
    obtain ⟨j', -, j2', j3'⟩ := corner_table hd h.face b1 b2
    rw [c1, Option.some.injEq] at j2
    rw [c2, Option.some.injEq] at j2'
    have : j = j' := by rw [hJ] at j2; exact_mod_cast j2.symm.trans j2'
    subst this
    rw [j3, Option.some.injEq] at j3'
    subst j3'
    obtain ⟨hi1, e1⟩ := List.getElem?_eq_some_iff.mp e1
    obtain ⟨hi2, e2⟩ := List.getElem?_eq_some_iff.mp e2
    exact (List.Nodup.getElem_inj_iff h.child.nodup).mp (e1.trans e2.symm)
  -- extend outside the range
  set J' : ℕ → ℕ := fun i => if i < 2 ^ (d - 1) then J i else 2 ^ (d - 1) + i with hJ'
  have hinj' : ∀ i i', J' i = J' i' → X i = X i' := by
    intro i i' he
    simp only [hJ'] at he
    split at he <;> split at he
    · rename_i c c'; rw [hinj i i' c c' he]
    · rename_i c c'; have := (hJXV i c).choose_spec.2.2.2.1; omega
    · rename_i c c'; have := (hJXV i' c').choose_spec.2.2.2.1; omega
    · rename_i c c'; rw [show i = i' by omega]
  have hfold := foldlM_pure (hangStep G s (iterTier s.quads a.level s.loc) (iterTier G a.level s.gho))
    (fun m i => (m.1.set (J' i) (some (X i)), m.2 || V i)) (List.range (2 ^ (d - 1))) (fun m i hi => by
      rw [List.mem_range] at hi
      obtain ⟨k, -, -, -, -, e, -⟩ := hJXV i hi
      rw [e]
      simp only [hJ', if_pos hi]) (List.replicate (2 ^ (d - 1)) none, false)
  obtain ⟨r1, r2, -, r4⟩ := fold_set J' X V hinj' (List.range (2 ^ (d - 1))) (List.replicate (2 ^ (d - 1)) none, false)
  set r := (List.range (2 ^ (d - 1))).foldl (fun m i => (m.1.set (J' i) (some (X i)), m.2 || V i))
    ((List.replicate (2 ^ (d - 1)) none, false) : List (Option (FaceSlot d)) × Bool) with hr
  dsimp only at r1 r2 r4
  rw [List.length_replicate] at r1 r2
  -- all entries are written
  have hall : ∀ j, ∃ i, j < 2 ^ (d - 1) → i < 2 ^ (d - 1) ∧ J i = j ∧ r.1[j]? = some (some (X i)) := by
    intro j
    by_cases hj : j < 2 ^ (d - 1)
    · obtain ⟨k, k1, k2, k3, k4⟩ := faceCorner_table hd h.face hj
      obtain ⟨i, hi, e⟩ := List.mem_iff_getElem.mp ((h.child.mem k).mpr ⟨k1, k3⟩)
      have hi' : i < 2 ^ (d - 1) := by rw [← h.child.length]; exact hi
      obtain ⟨k', e1, m1, c1, c2, -⟩ := hJXV i hi'
      rw [List.getElem?_eq_getElem hi, Option.some.injEq, e] at e1
      subst e1
      rw [k4, Option.some.injEq] at c1
      have hJi : J i = j := by exact_mod_cast c1.symm
      refine ⟨i, fun _ => ⟨hi', hJi, ?_⟩⟩
      have hJ'i : J' i = j := by simp only [hJ', if_pos hi', hJi]
      have := r2 i (List.mem_range.mpr hi') (by rw [hJ'i]; exact hj)
      rwa [hJ'i] at this
    · exact ⟨0, fun c => absurd c hj⟩
  choose I hI using hall
  have hrs : r.1 = ((List.range (2 ^ (d - 1))).map fun j => X (I j)).map some := by
    apply List.ext_getElem?
    intro j
    by_cases hj : j < 2 ^ (d - 1)
    · rw [(hI j hj).2.2, List.getElem?_map, List.getElem?_map, List.getElem?_range hj]
      rfl
    · rw [List.getElem?_eq_none (by rw [r1]; omega), List.getElem?_eq_none (by simp; omega)]
  refine ⟨fun j => X (I j), r.2, ?_, ?_, ?_⟩
  · unfold sideHanging
    rw [hfold]
    simp only [Option.bind_eq_bind, Option.bind_some]
    rw [hrs, mapM_id_some]
    rfl
  · intro j hj
    obtain ⟨i1, i2, -⟩ := hI j hj
    obtain ⟨k, e1, m1, c1, c2, -, c3, -⟩ := hJXV (I j) i1
    obtain ⟨a1, a2⟩ := (h.child.mem _).mp m1
    obtain ⟨j', -, j2, j3⟩ := corner_table hd h.face a1 a2
    rw [c1, Option.some.injEq, i2] at j2
    have : j = j' := by exact_mod_cast j2
    subst this
    exact ⟨k, j3, m1, c3⟩
  · rw [r4]
    constructor
    · rintro (h | ⟨i, hi, hv⟩)
      · simp at h
      · obtain ⟨k, e1, m1, -, -, -, -, c⟩ := hJXV i (List.mem_range.mp hi)
        exact ⟨k, m1, c.mp hv⟩
    · rintro ⟨k, hk, hkl⟩
      right
      obtain ⟨i, hi, e⟩ := List.mem_iff_getElem.mp hk
      have hi' : i < 2 ^ (d - 1) := by rw [← h.child.length]; exact hi
      obtain ⟨k', e1, -, -, -, -, -, c⟩ := hJXV i hi'
      rw [List.getElem?_eq_getElem hi, Option.some.injEq, e] at e1
      subst e1
      exact ⟨i, List.mem_range.mpr hi', c.mpr hkl⟩

/-! ### One side -/

/-- The local leaf and face `e` is one of those at face `f` of the area `a` in tree `t`. -/
def AtSide (Lt : ℕ → List (Quad d)) (e : (ℕ × Quad d) × ℕ) (t f : ℕ) (a : Quad d) : Prop :=
  e.1.1 = t ∧ e.2 = f ∧ e.1.2 ∈ Lt t ∧ Cells e.1.2 ⊆ Cells a ∧ OnSide f e.1.2 a

/-- The entries of a side for the area `a`. -/
structure SideOk (Lt Gt : ℕ → List (Quad d)) (G : List (Quad d)) (goff : ℕ → ℕ) (fs : FaceSide d) (t f : ℕ) (a : Quad d) :
    Prop where
  tree : fs.tree = t
  face : fs.face = f
  face_lt : f < 2 * d
  valid : Valid a
  free : ∀ q, Kn Lt Gt t q → ¬ Cells a ⊂ Cells q
  data : match fs.data with
    | .full x => SlotOk Lt Gt G goff t a x
    | .hanging xs => a.level < 29 ∧ ¬ Kn Lt Gt t a ∧ ∃ Y, xs = (List.range (2 ^ (d - 1))).map Y ∧
        ∀ j < 2 ^ (d - 1), ∃ k, faceCorner d f j = some k ∧ k < 2 ^ d ∧ OnFaceBit f k ∧ SlotOk Lt Gt G goff t (kid a k) (Y j)
  full : Kn Lt Gt t a → ∃ x, fs.data = .full x ∧ x.quad = some a
  count : ∀ e, (sideFaces fs).count e = ind (AtSide Lt e t f a)

theorem SlotOk.quad {t : ℕ} {b : Quad d} {x : FaceSlot d} (h : SlotOk Lt Gt G goff t b x) (hb : Kn Lt Gt t b) : x.quad = some b := by
  rcases h with ⟨-, n, -, rfl⟩ | ⟨-, -, n, -, -, -, rfl⟩ | ⟨h1, h2, -⟩
  · rfl
  · rfl
  · rcases hb with hb | hb
    · exact absurd hb h1
    · exact absurd hb h2

theorem atSide_self {t f : ℕ} {a : Quad d} (h : a ∈ Lt t) : AtSide Lt ((t, a), f) t f a :=
  ⟨rfl, rfl, h, le_rfl, onSide_self f a⟩

theorem ne_nil_iff_count {β : Type} [BEq β] [LawfulBEq β] (l : List β) : l ≠ [] ↔ ∃ e, l.count e ≠ 0 := by
  constructor
  · intro h
    obtain ⟨x, hx⟩ := List.exists_mem_of_ne_nil l h
    exact ⟨x, (List.count_pos_iff.mpr hx).ne'⟩
  · rintro ⟨e, he⟩ rfl
    exact he rfl

theorem kid_index_inj (hd : 0 < d) {a : Quad d} (ha : Valid a) (hl : a.level < 29) {k k' : ℕ} (hk : k < 2 ^ d) (hk' : k' < 2 ^ d)
    (h : kid a k = kid a k') : k = k' :=
  kid_unique hd ha hl (kid_valid ha hl k) hk hk' le_rfl (by rw [h])

theorem faceCorner_inj (hd : d = 2 ∨ d = 3) {f j j' k : ℕ} (hf : f < 2 * d) (hj : j < 2 ^ (d - 1)) (hj' : j' < 2 ^ (d - 1))
    (h : faceCorner d f j = some k) (h' : faceCorner d f j' = some k) : j = j' := by
  obtain ⟨k1, -, e1, -, c1⟩ := faceCorner_table hd hf hj
  obtain ⟨k2, -, e2, -, c2⟩ := faceCorner_table hd hf hj'
  rw [h, Option.some.injEq] at e1
  rw [h', Option.some.injEq] at e2
  subst e1
  subst e2
  rw [c1, Option.some.injEq] at c2
  exact_mod_cast c2

/-- The leaves at the face lie in the children at the face. -/
theorem atSide_kid (hd : 0 < d) (W : IterWorld conn Leaf Lt Gt) {t f : ℕ} (hf : f < 2 * d) {a : Quad d} (ha : Valid a) (hn : a ∉ Lt t)
    (e : (ℕ × Quad d) × ℕ) (h : AtSide Lt e t f a) :
    a.level < 29 ∧ ∃ k, k < 2 ^ d ∧ OnFaceBit f k ∧ AtSide Lt e t f (kid a k) := by
  obtain ⟨h1, h2, h3, h4, h5⟩ := h
  have hv := W.valid t _ (W.loc t _ h3)
  obtain ⟨hl, hk, hu⟩ := kid_of_ssubset hd ha hv (valid_ssubset_of_ne hd ha hv h4 fun c => hn (c ▸ h3))
  have hs := (hu _ hk).mpr rfl
  obtain ⟨g1, g2⟩ := (onSide_kid hf hl hs).mp h5
  exact ⟨hl, _, hk, g2, h1, h2, h3, hs, g1⟩

theorem atSide_up (hd : 0 < d) {t f : ℕ} (hf : f < 2 * d) {a : Quad d} (ha : Valid a) (hl : a.level < 29) {k : ℕ} (hk : k < 2 ^ d)
    (hb : OnFaceBit f k) (e : (ℕ × Quad d) × ℕ) (h : AtSide Lt e t f (kid a k)) : AtSide Lt e t f a := by
  obtain ⟨h1, h2, h3, h4, h5⟩ := h
  exact ⟨h1, h2, h3, h4.trans (kid_subset hd ha hl hk).1, (onSide_kid hf hl h4).mpr ⟨h5, hb⟩⟩

theorem ind_kids (hd : 0 < d) (W : IterWorld conn Leaf Lt Gt) {t f : ℕ} (hf : f < 2 * d) {a : Quad d} (ha : Valid a) (hl : a.level < 29)
    (hn : a ∉ Lt t) {l : List ℕ} (hc : ChildList d f l) (e : (ℕ × Quad d) × ℕ) :
    (l.map fun k => ind (AtSide Lt e t f (kid a k))).sum = ind (AtSide Lt e t f a) := by
  refine ind_sum l hc.nodup _ _ ?_ ?_
  · intro h
    obtain ⟨-, k, h1, h2, h3⟩ := atSide_kid hd W hf ha hn e h
    exact ⟨k, (hc.mem k).mpr ⟨h1, h2⟩, h3⟩
  · intro k hk h
    obtain ⟨h1, h2⟩ := (hc.mem k).mp hk
    refine ⟨atSide_up hd hf ha hl h1 h2 e h, fun k' hk' h' => ?_⟩
    exact kid_unique hd ha hl (W.valid t _ (W.loc t _ h.2.2.1)) ((hc.mem k').mp hk').1 h1 h'.2.2.2.1 h.2.2.2.1

/-- One side in a call. -/
theorem faceSide_spec (hd : d = 2 ∨ d = 3) (W : IterWorld conn Leaf Lt Gt) {s : IterSide d} {a : Quad d}
    (h : SideArea conn Lt Gt G goff s a)
    (hone : ¬ Kn Lt Gt s.tree a → a.level < 29 → ∀ k ∈ s.toChild, ∀ q, Kn Lt Gt s.tree q → Cells q ⊆ Cells (kid a k) → q = kid a k) :
    ∃ fs v, faceSide G a.level s = some (fs, v) ∧ SideOk Lt Gt G goff fs s.tree s.face a ∧ (v = true ↔ sideFaces fs ≠ []) := by
  have hd0 : 0 < d := by omega
  obtain ⟨r, e1, h1, h2⟩ := sideFull_spec hd0 W h
  unfold faceSide
  rw [e1]
  simp only [Option.bind_eq_bind, Option.bind_some]
  have hcount : ∀ x, SlotOk Lt Gt G goff s.tree a x → (∀ q ∈ Lt s.tree, Cells q ⊆ Cells a → q = a) → ∀ e,
      (sideFaces ⟨s.tree, s.face, .full x⟩).count e = ind (AtSide Lt e s.tree s.face a) := by
    intro x hx hq e
    unfold sideFaces SideData.slots
    rw [List.flatMap_cons, List.flatMap_nil, List.append_nil, hx.count]
    refine ind_congr ⟨?_, ?_⟩
    · rintro ⟨rfl, h⟩; exact atSide_self h
    · rintro ⟨g1, g2, g3, g4, -⟩
      have := hq _ g3 g4
      refine ⟨Prod.ext (Prod.ext g1 this) g2, this ▸ g3⟩
  cases hr : r with
  | some xv =>
    obtain ⟨x, v⟩ := xv
    obtain ⟨k1, k2⟩ := h2 x v hr
    have hK : Kn Lt Gt s.tree a := by
      by_contra hK
      rw [h1.mpr hK] at hr
      cases hr
    have hc := hcount x k1 fun q hq hs => W.sub (W.loc _ q hq) (W.leaf hK) hs
    refine ⟨⟨s.tree, s.face, .full x⟩, v, rfl, ⟨rfl, rfl, h.face, h.valid, h.free, k1, fun _ => ⟨x, rfl, k1.quad hK⟩, hc⟩, ?_⟩
    rw [k2, ne_nil_iff_count]
    constructor
    · intro hL
      exact ⟨((s.tree, a), s.face), by rw [hc, ind_true (atSide_self hL)]; norm_num⟩
    · rintro ⟨e, he⟩
      rw [hc] at he
      by_contra hL
      refine he (ind_false ?_)
      rintro ⟨-, -, g3, g4, -⟩
      exact hL (W.sub (W.loc _ _ g3) (W.leaf hK) g4 ▸ g3)
  | none =>
    have hK := h1.mp hr
    dsimp only
    split_ifs with hz
    · rw [h.loc.count_zero, h.gho.count_zero] at hz
      have hno : ∀ q, Kn Lt Gt s.tree q → ¬ Cells q ⊆ Cells a := by
        rintro q (hq | hq) hs
        · have := mem_inside.mpr ⟨hq, hs⟩; rw [hz.1] at this; cases this
        · have := mem_inside.mpr ⟨hq, hs⟩; rw [hz.2] at this; cases this
      have hs : SlotOk Lt Gt G goff s.tree a noSlot := Or.inr (Or.inr ⟨fun c => hK (Or.inl c), fun c => hK (Or.inr c), hno, rfl⟩)
      have hc := hcount noSlot hs fun q hq hs => absurd hs (hno q (Or.inl hq))
      refine ⟨⟨s.tree, s.face, .full noSlot⟩, false, rfl,
        ⟨rfl, rfl, h.face, h.valid, h.free, hs, fun c => absurd c hK, hc⟩, by simp [sideFaces, SideData.slots, slotFaces, noSlot]⟩
    · have hl : a.level < 29 := by
        by_contra hc
        apply hz
        rw [h.loc.count_zero, h.gho.count_zero]
        have hno : ∀ q, Kn Lt Gt s.tree q → ¬ Cells q ⊆ Cells a := by
          intro q hq hs
          have hv := W.valid _ q (W.leaf hq)
          have := ((valid_ssubset_iff hd0 h.valid hv).mp
            (valid_ssubset_of_ne hd0 h.valid hv hs fun c => hK (c ▸ hq))).1
          have := hv.1
          omega
        constructor
        · rw [List.eq_nil_iff_forall_not_mem]
          intro x hx
          exact hno x (Or.inl (mem_inside.mp hx).1) (mem_inside.mp hx).2
        · rw [List.eq_nil_iff_forall_not_mem]
          intro x hx
          exact hno x (Or.inr (mem_inside.mp hx).1) (mem_inside.mp hx).2
      obtain ⟨Y, v, e2, h3, h4⟩ := sideHanging_spec hd W h hl hK (hone hK hl)
      rw [e2]
      simp only [Option.bind_some]
      have hc : ∀ e, (sideFaces (⟨s.tree, s.face, .hanging ((List.range (2 ^ (d - 1))).map Y)⟩ : FaceSide d)).count e =
          ind (AtSide Lt e s.tree s.face a) := by
        intro e
        unfold sideFaces SideData.slots
        dsimp only
        rw [count_flatMap', List.map_map]
        choose! K hK1 hK2 hK3 using h3
        have : (List.range (2 ^ (d - 1))).map ((fun x => (slotFaces s.tree s.face x).count e) ∘ Y) =
            (List.range (2 ^ (d - 1))).map fun j => ind (e = ((s.tree, kid a (K j)), s.face) ∧ kid a (K j) ∈ Lt s.tree) := by
          apply List.map_congr_left
          intro j hj
          exact (hK3 j (List.mem_range.mp hj)).count e
        rw [this]
        refine ind_sum _ List.nodup_range _ _ ?_ ?_
        · intro hA
          obtain ⟨-, k, k1, k2, k3⟩ := atSide_kid hd0 W h.face h.valid (fun c => hK (Or.inl c)) e hA
          obtain ⟨j, j1, -, j3⟩ := corner_table hd h.face k1 k2
          have hq := hone hK hl k ((h.child.mem k).mpr ⟨k1, k2⟩) e.1.2 (Or.inl k3.2.2.1) k3.2.2.2.1
          have hKj : K j = k := by
            have := hK1 j j1
            rw [j3, Option.some.injEq] at this
            exact this.symm
          refine ⟨j, List.mem_range.mpr j1, ?_, ?_⟩
          · rw [hKj]; exact Prod.ext (Prod.ext k3.1 hq) k3.2.1
          · rw [hKj, ← hq]; exact k3.2.2.1
        · rintro j hj ⟨rfl, hin⟩
          rw [List.mem_range] at hj
          obtain ⟨m1, m2⟩ := (h.child.mem _).mp (hK2 j hj)
          refine ⟨atSide_up hd0 h.face h.valid hl m1 m2 _ (atSide_self hin), ?_⟩
          rintro j' hj' ⟨he, -⟩
          rw [List.mem_range] at hj'
          have hkk : kid a (K j) = kid a (K j') := congrArg (fun e => e.1.2) he
          have := kid_index_inj hd0 h.valid hl m1 ((h.child.mem _).mp (hK2 j' hj')).1 hkk
          have h5 := hK1 j' hj'
          rw [← this] at h5
          exact faceCorner_inj hd h.face hj' hj h5 (hK1 j hj)
      refine ⟨_, v, rfl, ⟨rfl, rfl, h.face, h.valid, h.free, ⟨hl, hK, Y, rfl, ?_⟩, fun c => absurd c hK, hc⟩, ?_⟩
      · intro j hj
        obtain ⟨k, k1, k2, k3⟩ := h3 j hj
        obtain ⟨m1, m2⟩ := (h.child.mem _).mp k2
        exact ⟨k, k1, m1, m2, k3⟩
      · rw [h4, ne_nil_iff_count]
        constructor
        · rintro ⟨k, hk, hin⟩
          obtain ⟨m1, m2⟩ := (h.child.mem _).mp hk
          exact ⟨((s.tree, kid a k), s.face), by
            rw [hc, ind_true (atSide_up hd0 h.face h.valid hl m1 m2 _ (atSide_self hin))]; norm_num⟩
        · rintro ⟨e, he⟩
          rw [hc] at he
          by_contra hno
          refine he (ind_false fun hA => hno ?_)
          obtain ⟨-, k, k1, k2, k3⟩ := atSide_kid hd0 W h.face h.valid (fun c => hK (Or.inl c)) e hA
          have hm := (h.child.mem k).mpr ⟨k1, k2⟩
          have hq := hone hK hl k hm e.1.2 (Or.inl k3.2.2.1) k3.2.2.2.1
          exact ⟨k, hm, hq ▸ k3.2.2.1⟩

end World

end P4est
