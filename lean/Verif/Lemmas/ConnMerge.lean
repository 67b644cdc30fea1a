import Verif.Lemmas.ConnStore

/-! # Lemmas: the lists of two corners are merged -/

namespace P4est

open Spec

/-- The old position of the entry at position `i`. -/
def oldPos (end0 startt endt i : ℕ) : ℕ :=
  if i < end0 then i else if i < end0 + (endt - startt) then startt + (i - end0) else if i < endt then i - (endt - startt) else i

theorem moveBlock_get {β : Type} {end0 startt endt : ℕ} {l : List β} (h1 : end0 ≤ startt) (h2 : startt ≤ endt) (h3 : endt ≤ l.length) (i : ℕ) :
    (moveBlock end0 startt endt l)[i]? = l[oldPos end0 startt endt i]? := by
  unfold moveBlock oldPos
  have e1 : (l.take end0).length = end0 := by rw [List.length_take]; omega
  have e2 : ((l.drop startt).take (endt - startt)).length = endt - startt := by rw [List.length_take, List.length_drop]; omega
  have e3 : ((l.drop end0).take (startt - end0)).length = startt - end0 := by rw [List.length_take, List.length_drop]; omega
  by_cases g1 : i < end0
  · rw [if_pos g1, List.getElem?_append_left (by omega), List.getElem?_take, if_pos g1]
  · rw [if_neg g1, List.getElem?_append_right (by omega), e1]
    by_cases g2 : i < end0 + (endt - startt)
    · rw [if_pos g2, List.getElem?_append_left (by omega), List.getElem?_take, if_pos (by omega), List.getElem?_drop]
    · rw [if_neg g2, List.getElem?_append_right (by omega), e2]
      by_cases g3 : i < endt
      · rw [if_pos g3, List.getElem?_append_left (by omega), List.getElem?_take, if_pos (by omega), List.getElem?_drop]
        congr 1
        omega
      · rw [if_neg g3, List.getElem?_append_right (by omega), e3, List.getElem?_drop]
        congr 1
        omega

theorem moveBlock_length {β : Type} {end0 startt endt : ℕ} {l : List β} (h1 : end0 ≤ startt) (h2 : startt ≤ endt) (h3 : endt ≤ l.length) :
    (moveBlock end0 startt endt l).length = l.length := by
  unfold moveBlock
  simp only [List.length_append, List.length_take, List.length_drop]
  omega

theorem moveBlock_mem {β : Type} {end0 startt endt : ℕ} {l : List β} {v : β} (h : v ∈ moveBlock end0 startt endt l) : v ∈ l := by
  unfold moveBlock at h
  rcases List.mem_append.mp h with h | h
  · exact List.mem_of_mem_take h
  · rcases List.mem_append.mp h with h | h
    · exact List.mem_of_mem_drop (List.mem_of_mem_take h)
    · rcases List.mem_append.mp h with h | h
      · exact List.mem_of_mem_drop (List.mem_of_mem_take h)
      · exact List.mem_of_mem_drop h

theorem offsets_mono {n : ℕ} {cc : CornerConn} (hcc : CornerConsistent n cc) : ∀ {m k a b : ℕ}, cc.cttOffset[k]? = some a → cc.cttOffset[k + m]? = some b → a ≤ b := by
  intro m
  induction m with
  | zero => intro k a b h1 h2; rw [Nat.add_zero, h1, Option.some.injEq] at h2; omega
  | succ m ih =>
    intro k a b h1 h2
    have hlt : k + m < cc.cttOffset.length := by have := (List.getElem?_eq_some_iff.mp h2).1; omega
    have h3 := List.getElem?_eq_getElem hlt
    exact le_trans (ih h1 h3) (hcc.ordered _ _ _ h3 h2)

theorem offsets_le {n : ℕ} {cc : CornerConn} (hcc : CornerConsistent n cc) {k k' a b : ℕ} (hk : k ≤ k') (h1 : cc.cttOffset[k]? = some a)
    (h2 : cc.cttOffset[k']? = some b) : a ≤ b := by
  obtain ⟨m, rfl⟩ := Nat.exists_eq_add_of_le hk
  exact offsets_mono hcc h1 h2

theorem mergeCorners_spec {n : ℕ} {cc : CornerConn} (hcc : CornerConsistent n cc) {c0 c1 : ℕ} (h01 : c0 < c1) {x0 x1 : ℕ × ℕ}
    (hx0 : TreeCorner n x0) (hx1 : TreeCorner n x1) (hn0 : HasNumber cc x0 c0) (hn1 : HasNumber cc x1 c1) :
    ∃ cc', mergeCorners cc c0 c1 = some cc' ∧ CornerConsistent n cc' ∧ cc'.numCorners = cc.numCorners ∧
      (∀ y k, TreeCorner n y → (HasNumber cc' y k ↔ if k = c0 then HasNumber cc y c0 ∨ HasNumber cc y c1 else if k = c1 then False else HasNumber cc y k)) ∧
      ∀ k (y : ℕ × ℕ), (Listed cc' k y.1 y.2 ↔
        if k = c0 then Listed cc c0 y.1 y.2 ∨ Listed cc c1 y.1 y.2 else if k = c1 then False else Listed cc k y.1 y.2) := by
  have hca := hcc.arrays
  have hb := fun {k b : ℕ} (h : cc.cttOffset[k]? = some b) => hca.bound hcc.ordered h
  have hoff : ∀ k, k ≤ cc.numCorners → ∃ a, cc.cttOffset[k]? = some a := by
    intro k hk
    exact ⟨_, List.getElem?_eq_getElem (by rw [hca.offsets]; omega)⟩
  have h1n := hn1.1
  obtain ⟨start0, s0⟩ := hoff c0 (by omega)
  obtain ⟨end0, e0⟩ := hoff (c0 + 1) (by omega)
  obtain ⟨startt, s1⟩ := hoff c1 (by omega)
  obtain ⟨endt, e1⟩ := hoff (c1 + 1) (by omega)
  have o1 : start0 ≤ end0 := hcc.ordered _ _ _ s0 e0
  have o2 : end0 ≤ startt := offsets_le hcc (by omega) e0 s1
  have o3 : startt ≤ endt := hcc.ordered _ _ _ s1 e1
  have o4 := hb e1
  have hcl := hca.corners
  obtain ⟨es, m1, m2⟩ := mapM_pairs (l := List.range' startt (endt - startt)) (f := fun j =>
      (cc.cornerToTree[j]?).bind fun nctree => (cc.cornerToCorner[j]?).bind fun ncorner => some (nctree, ncorner)) (by
    intro j hj
    rw [List.mem_range'_1] at hj
    rw [List.getElem?_eq_getElem (show j < cc.cornerToTree.length by omega),
      List.getElem?_eq_getElem (show j < cc.cornerToCorner.length by omega)]
    exact ⟨_, rfl⟩)
  have hmem : ∀ e : ℕ × ℕ, e ∈ es ↔ Listed cc c1 e.1 e.2 := by
    rintro ⟨t', c'⟩
    rw [m2]
    constructor
    · rintro ⟨j, hj, hf⟩
      rw [List.mem_range'_1] at hj
      obtain ⟨z, hz, hf⟩ := Option.bind_eq_some_iff.mp hf
      obtain ⟨w, hw, hf⟩ := Option.bind_eq_some_iff.mp hf
      simp only [Option.some.injEq, Prod.mk.injEq] at hf
      rw [hf.1] at hz
      rw [hf.2] at hw
      exact ⟨startt, endt, j, s1, e1, hj.1, by omega, hz, hw⟩
    · rintro ⟨a', b', j, ha', hb', h4, h5, h6, h7⟩
      rw [s1, Option.some.injEq] at ha'
      rw [e1, Option.some.injEq] at hb'
      subst ha' hb'
      refine ⟨j, List.mem_range'_1.mpr ⟨h4, by omega⟩, ?_⟩
      rw [h6, h7]; rfl
  have hent : cc.treeToCorner.length = 4 * n := hca.entries (by omega)
  obtain ⟨r, r1, r2, r3⟩ := setCorners_spec c0 es cc.treeToCorner (by
    intro y hy
    obtain ⟨g1, g2⟩ := hcc.listed ((hmem y).mp hy)
    exact ⟨g2, by rw [hent]; omega⟩)
  -- numbers before
  have hnum1 : ∀ y : ℕ × ℕ, TreeCorner n y → (Listed cc c1 y.1 y.2 ↔ HasNumber cc y c1) := fun y hy =>
    ⟨fun h => hn1.of_listed hcc hx1 h, fun h => h.listed hcc hy⟩
  have hnum0 : ∀ y : ℕ × ℕ, TreeCorner n y → (Listed cc c0 y.1 y.2 ↔ HasNumber cc y c0) := fun y hy =>
    ⟨fun h => hn0.of_listed hcc hx0 h, fun h => h.listed hcc hy⟩
  set off' := cc.cttOffset.mapIdx fun c off => if c0 + 1 ≤ c ∧ c ≤ c1 then off + (endt - startt) else off with hoff'
  refine ⟨⟨cc.numCorners, r, off', moveBlock end0 startt endt cc.cornerToTree, moveBlock end0 startt endt cc.cornerToCorner⟩, ?_, ?_⟩
  · unfold mergeCorners
    simp only [s1, e1, Option.bind_eq_bind, Option.bind_some, m1, r1, e0, ← hoff']
  set cc' : CornerConn := ⟨cc.numCorners, r, off', moveBlock end0 startt endt cc.cornerToTree, moveBlock end0 startt endt cc.cornerToCorner⟩ with hcc'
  have hget : ∀ k, cc'.cttOffset[k]? = (cc.cttOffset[k]?).map fun off => if c0 + 1 ≤ k ∧ k ≤ c1 then off + (endt - startt) else off := by
    intro k
    show off'[k]? = _
    rw [hoff', List.getElem?_mapIdx]
  have htr : ∀ i, cc'.cornerToTree[i]? = cc.cornerToTree[oldPos end0 startt endt i]? := fun i => moveBlock_get o2 o3 o4 i
  have hco : ∀ i, cc'.cornerToCorner[i]? = cc.cornerToCorner[oldPos end0 startt endt i]? := fun i => moveBlock_get o2 o3 (by rw [hcl]; exact o4) i
  -- the positions of a list
  have hblock : ∀ k a b i, cc'.cttOffset[k]? = some a → cc'.cttOffset[k + 1]? = some b → a ≤ i → i < b → k ≠ c1 ∧
      ((k ≠ c0 ∧ ∃ a' b', cc.cttOffset[k]? = some a' ∧ cc.cttOffset[k + 1]? = some b' ∧ a' ≤ oldPos end0 startt endt i ∧ oldPos end0 startt endt i < b' ∧
          oldPos end0 startt endt i + a = i + a') ∨
       (k = c0 ∧ start0 ≤ oldPos end0 startt endt i ∧ oldPos end0 startt endt i < end0 ∧ oldPos end0 startt endt i = i) ∨
       (k = c0 ∧ startt ≤ oldPos end0 startt endt i ∧ oldPos end0 startt endt i < endt ∧ oldPos end0 startt endt i + end0 = startt + i)) := by
    intro k a b i h1 h2 h3 h4
    rw [hget] at h1 h2
    obtain ⟨a', ha', rfl⟩ := Option.map_eq_some_iff.mp h1
    obtain ⟨b', hb', rfl⟩ := Option.map_eq_some_iff.mp h2
    have hab := hcc.ordered _ _ _ ha' hb'
    rcases Nat.lt_trichotomy k c0 with hk | hk | hk
    · have q := offsets_le hcc (show k + 1 ≤ c0 + 1 by omega) hb' e0
      rw [if_neg (by omega)] at h3 h4
      refine ⟨by omega, Or.inl ⟨by omega, a', b', ha', hb', ?_⟩⟩
      have w : oldPos end0 startt endt i = i := by unfold oldPos; rw [if_pos (by omega)]
      rw [w, if_neg (by omega)]
      omega
    · subst hk
      rw [s0, Option.some.injEq] at ha'
      rw [e0, Option.some.injEq] at hb'
      subst ha' hb'
      rw [if_neg (by omega)] at h3
      rw [if_pos (by omega)] at h4
      refine ⟨by omega, Or.inr ?_⟩
      unfold oldPos
      by_cases g : i < end0
      · left
        rw [if_pos g]
        exact ⟨rfl, h3, g, rfl⟩
      · right
        rw [if_neg g, if_pos h4]
        exact ⟨rfl, by omega, by omega, by omega⟩
    · rcases Nat.lt_trichotomy k c1 with hk1 | hk1 | hk1
      · have q1 := offsets_le hcc (show c0 + 1 ≤ k by omega) e0 ha'
        have q2 := offsets_le hcc (show k + 1 ≤ c1 by omega) hb' s1
        rw [if_pos (by omega)] at h3 h4
        refine ⟨by omega, Or.inl ⟨by omega, a', b', ha', hb', ?_⟩⟩
        have w : oldPos end0 startt endt i = i - (endt - startt) := by
          unfold oldPos; rw [if_neg (by omega), if_neg (by omega), if_pos (by omega)]
        rw [w, if_pos (by omega)]
        omega
      · subst hk1
        exfalso
        rw [s1, Option.some.injEq] at ha'
        rw [e1, Option.some.injEq] at hb'
        subst ha' hb'
        rw [if_pos (by omega)] at h3
        rw [if_neg (by omega)] at h4
        omega
      · have q1 := offsets_le hcc (show c1 + 1 ≤ k by omega) e1 ha'
        rw [if_neg (by omega)] at h3 h4
        refine ⟨by omega, Or.inl ⟨by omega, a', b', ha', hb', ?_⟩⟩
        have w : oldPos end0 startt endt i = i := by
          unfold oldPos; rw [if_neg (by omega), if_neg (by omega), if_neg (by omega)]
        rw [w, if_neg (by omega)]
        omega
  have hL : ∀ k (y : ℕ × ℕ), (Listed cc' k y.1 y.2 ↔
        if k = c0 then Listed cc c0 y.1 y.2 ∨ Listed cc c1 y.1 y.2 else if k = c1 then False else Listed cc k y.1 y.2) := by
    intro k y
    constructor
    · rintro ⟨a, b, i, h1, h2, h3, h4, h5, h6⟩
      obtain ⟨hk1, h⟩ := hblock k a b i h1 h2 h3 h4
      rw [htr] at h5
      rw [hco] at h6
      rcases h with ⟨hk, a', b', g1, g2, g3, g4, -⟩ | ⟨hk, g1, g2, -⟩ | ⟨hk, g1, g2, -⟩
      · rw [if_neg hk, if_neg hk1]
        exact ⟨a', b', _, g1, g2, g3, g4, h5, h6⟩
      · rw [if_pos hk]
        exact Or.inl ⟨_, _, _, s0, e0, g1, g2, h5, h6⟩
      · rw [if_pos hk]
        exact Or.inr ⟨_, _, _, s1, e1, g1, g2, h5, h6⟩
    · intro h
      -- a position with the given old position
      have key : ∀ k a b i j, cc'.cttOffset[k]? = some a → cc'.cttOffset[k + 1]? = some b → a ≤ i → i < b → oldPos end0 startt endt i = j →
          cc.cornerToTree[j]? = some y.1 → cc.cornerToCorner[j]? = some y.2 → Listed cc' k y.1 y.2 := by
        intro k a b i j h1 h2 h3 h4 h5 h6 h7
        exact ⟨a, b, i, h1, h2, h3, h4, by rw [htr, h5]; exact h6, by rw [hco, h5]; exact h7⟩
      by_cases hk : k = c0
      · rw [if_pos hk] at h
        subst hk
        have t1 : cc'.cttOffset[k]? = some start0 := by rw [hget, s0, Option.map_some, if_neg (by omega)]
        have t2 : cc'.cttOffset[k + 1]? = some (end0 + (endt - startt)) := by rw [hget, e0, Option.map_some, if_pos (by omega)]
        rcases h with ⟨a, b, i, h1, h2, h3, h4, h5, h6⟩ | ⟨a, b, i, h1, h2, h3, h4, h5, h6⟩
        · rw [s0, Option.some.injEq] at h1
          rw [e0, Option.some.injEq] at h2
          subst h1 h2
          exact key k _ _ i i t1 t2 h3 (by omega) (by unfold oldPos; rw [if_pos h4]) h5 h6
        · rw [s1, Option.some.injEq] at h1
          rw [e1, Option.some.injEq] at h2
          subst h1 h2
          exact key k _ _ (end0 + (i - startt)) i t1 t2 (by omega) (by omega) (by
            unfold oldPos; rw [if_neg (by omega), if_pos (by omega)]; omega) h5 h6
      · rw [if_neg hk] at h
        by_cases hk1 : k = c1
        · rw [if_pos hk1] at h; exact h.elim
        · rw [if_neg hk1] at h
          obtain ⟨a, b, i, h1, h2, h3, h4, h5, h6⟩ := h
          rcases Nat.lt_trichotomy k c0 with g | g | g
          · have q := offsets_le hcc (show k + 1 ≤ c0 + 1 by omega) h2 e0
            exact key k a b i i (by rw [hget, h1, Option.map_some, if_neg (by omega)]) (by rw [hget, h2, Option.map_some, if_neg (by omega)]) h3 h4
              (by unfold oldPos; rw [if_pos (by omega)]) h5 h6
          · exact absurd g hk
          · rcases Nat.lt_trichotomy k c1 with g1 | g1 | g1
            · have q1 := offsets_le hcc (show c0 + 1 ≤ k by omega) e0 h1
              have q2 := offsets_le hcc (show k + 1 ≤ c1 by omega) h2 s1
              exact key k (a + (endt - startt)) (b + (endt - startt)) (i + (endt - startt)) i (by rw [hget, h1, Option.map_some, if_pos (by omega)])
                (by rw [hget, h2, Option.map_some, if_pos (by omega)]) (by omega) (by omega)
                (by unfold oldPos; rw [if_neg (by omega), if_neg (by omega), if_pos (by omega)]; omega) h5 h6
            · exact absurd g1 hk1
            · have q1 := offsets_le hcc (show c1 + 1 ≤ k by omega) e1 h1
              exact key k a b i i (by rw [hget, h1, Option.map_some, if_neg (by omega)]) (by rw [hget, h2, Option.map_some, if_neg (by omega)]) h3 h4
                (by unfold oldPos; rw [if_neg (by omega), if_neg (by omega), if_neg (by omega)]) h5 h6
  have hH : ∀ y k, TreeCorner n y → (HasNumber cc' y k ↔ if k = c0 then HasNumber cc y c0 ∨ HasNumber cc y c1 else if k = c1 then False else HasNumber cc y k) := by
    intro y k hy
    have hr := r3 y hy.2
    have hdef : HasNumber cc' y k ↔ k < cc.numCorners ∧ r[4 * y.1 + y.2]? = some (k : ℤ) := Iff.rfl
    rw [hdef, hr]
    by_cases hyl : y ∈ es
    · have g := (hnum1 y hy).mp ((hmem y).mp hyl)
      rw [if_pos hyl, Option.some.injEq]
      constructor
      · rintro ⟨-, h⟩
        rw [if_pos (by omega)]
        exact Or.inr g
      · intro h
        split at h
        · rename_i e; exact ⟨by omega, by rw [e]⟩
        · rename_i e
          split at h
          · exact h.elim
          · rename_i e'
            exact absurd (h.unique g) e'
    · have g : ¬ HasNumber cc y c1 := fun h => hyl ((hmem y).mpr ((hnum1 y hy).mpr h))
      rw [if_neg hyl]
      constructor
      · intro h
        split
        · rename_i e; subst e; exact Or.inl h
        · split
          · rename_i e; subst e; exact g h
          · exact h
      · intro h
        split at h
        · rename_i e; subst e; exact h.resolve_right g
        · split at h
          · exact h.elim
          · exact h
  refine ⟨?_, rfl, hH, hL⟩
  refine ⟨⟨fun _ => by show r.length = _; rw [r2, hent], by show off'.length = _; rw [hoff', List.length_mapIdx, hca.offsets], ?_, ?_⟩, ?_, ?_, ?_, ?_, ?_, ?_⟩
  · show cc'.cttOffset[cc.numCorners]? = _
    rw [hget, hca.trees, Option.map_some, if_neg (by omega)]
    show _ = some (moveBlock end0 startt endt cc.cornerToTree).length
    rw [moveBlock_length o2 o3 o4]
  · show (moveBlock end0 startt endt cc.cornerToCorner).length = (moveBlock end0 startt endt cc.cornerToTree).length
    rw [moveBlock_length o2 o3 o4, moveBlock_length o2 o3 (by rw [hcl]; exact o4), hcl]
  · intro k a b h1 h2
    rw [hget] at h1 h2
    obtain ⟨a', ha', rfl⟩ := Option.map_eq_some_iff.mp h1
    obtain ⟨b', hb', rfl⟩ := Option.map_eq_some_iff.mp h2
    have hab := hcc.ordered _ _ _ ha' hb'
    by_cases hk : k = c1
    · subst hk
      rw [s1, Option.some.injEq] at ha'
      rw [e1, Option.some.injEq] at hb'
      subst ha' hb'
      rw [if_pos (by omega), if_neg (by omega)]
      omega
    · by_cases g : c0 + 1 ≤ k ∧ k ≤ c1
      · rw [if_pos g, if_pos (by omega)]; omega
      · rw [if_neg g]; split <;> omega
  · intro t h; exact hcc.tree t (moveBlock_mem h)
  · intro c h; exact hcc.corner c (moveBlock_mem h)
  · intro h0 t c v h1 h2 h3
    have h3 : r[4 * t + c]? = some v := h3
    have hr := r3 (t, c) h2
    simp only at hr
    by_cases hyl : (t, c) ∈ es
    · rw [hr, if_pos hyl, Option.some.injEq] at h3
      right
      refine ⟨c0, h3.symm, hn0.1, (hL c0 (t, c)).mpr ?_⟩
      rw [if_pos rfl]
      exact Or.inr ((hmem _).mp hyl)
    · rw [hr, if_neg hyl] at h3
      rcases hcc.range h0 t c v h1 h2 h3 with g | ⟨k, g1, g2, g3⟩
      · exact Or.inl g
      · right
        refine ⟨k, g1, g2, (hL k (t, c)).mpr ?_⟩
        split
        · rename_i e; subst e; exact Or.inl g3
        · split
          · rename_i e; subst e; exact hyl ((hmem _).mpr g3)
          · exact g3
  · intro t c k a b i j h1 h2 h3 h4 h5 h6 h7 h8 h9 h10 h11 h12 h13 h14
    have hnum := (hH (t, c) k ⟨h1, h2⟩).mp ⟨h3, h4⟩
    obtain ⟨hk1, gi⟩ := hblock k a b i h5 h6 h7 h8
    obtain ⟨-, gj⟩ := hblock k a b j h5 h6 h9 h10
    rw [htr] at h11 h13
    rw [hco] at h12 h14
    have both : ∀ {p q : ℕ}, start0 ≤ p → p < end0 → startt ≤ q → q < endt → cc.cornerToTree[p]? = some t → cc.cornerToCorner[p]? = some c →
        cc.cornerToTree[q]? = some t → cc.cornerToCorner[q]? = some c → False := by
      intro p q q1 q2 q3 q4 q5 q6 q7 q8
      have u0 := (hnum0 (t, c) ⟨h1, h2⟩).mp ⟨_, _, p, s0, e0, q1, q2, q5, q6⟩
      have u1 := (hnum1 (t, c) ⟨h1, h2⟩).mp ⟨_, _, q, s1, e1, q3, q4, q7, q8⟩
      have := u0.unique u1
      omega
    have once := fun (k : ℕ) (hk : HasNumber cc (t, c) k) (a b p q : ℕ) => hcc.once t c k a b p q h1 h2 hk.1 hk.2
    rcases gi with ⟨hk, a', b', g1, g2, g3, g4, g5⟩ | ⟨hk, g1, g2, g3⟩ | ⟨hk, g1, g2, g3⟩
    · rcases gj with ⟨-, a'', b'', f1, f2, f3, f4, f5⟩ | ⟨hk', -⟩ | ⟨hk', -⟩
      · rw [g1, Option.some.injEq] at f1
        rw [g2, Option.some.injEq] at f2
        subst f1 f2
        rw [if_neg hk, if_neg hk1] at hnum
        have := once k hnum _ _ _ _ g1 g2 g3 g4 f3 f4 h11 h12 h13 h14
        omega
      · exact absurd hk' hk
      · exact absurd hk' hk
    · rcases gj with ⟨hk', -⟩ | ⟨-, f1, f2, f3⟩ | ⟨-, f1, f2, f3⟩
      · exact absurd hk hk'
      · have := once c0 ((hnum0 (t, c) ⟨h1, h2⟩).mp ⟨_, _, _, s0, e0, g1, g2, h11, h12⟩) _ _ _ _ s0 e0 g1 g2 f1 f2 h11 h12 h13 h14
        omega
      · exact (both g1 g2 f1 f2 h11 h12 h13 h14).elim
    · rcases gj with ⟨hk', -⟩ | ⟨-, f1, f2, f3⟩ | ⟨-, f1, f2, f3⟩
      · exact absurd hk hk'
      · exact (both f1 f2 g1 g2 h13 h14 h11 h12).elim
      · have := once c1 ((hnum1 (t, c) ⟨h1, h2⟩).mp ⟨_, _, _, s1, e1, g1, g2, h11, h12⟩) _ _ _ _ s1 e1 g1 g2 f1 f2 h11 h12 h13 h14
        omega
  · intro t c k t' c' h1 h2 h3 h4 h5
    have hnum := (hH (t, c) k ⟨h1, h2⟩).mp ⟨h3, h4⟩
    have h5' := (hL k (t', c')).mp h5
    have hv : TreeCorner n (t', c') := by
      split at h5'
      · rcases h5' with h | h
        · exact hcc.listed h
        · exact hcc.listed h
      · split at h5'
        · exact h5'.elim
        · exact hcc.listed h5'
    refine ((hH (t', c') k hv).mpr ?_).2
    split at hnum
    · rename_i e
      rw [if_pos e] at h5' ⊢
      exact h5'.imp (hnum0 _ hv).mp (hnum1 _ hv).mp
    · rename_i e
      rw [if_neg e] at h5' ⊢
      split at hnum
      · exact hnum.elim
      · rename_i e'
        rw [if_neg e'] at h5' ⊢
        exact hnum.of_listed hcc (x := (t, c)) (y := (t', c')) ⟨h1, h2⟩ h5'

end P4est
