import Verif.Lemmas.BalancedRun
import Verif.Props.Ghost
import Verif.Props.Balance

/-! # C67 - C69: search in a ghost layer, and the test for face balance -/

namespace P4est
open Spec

variable {d : ℕ}

/-! ### A binary search -/

/-- A binary search as `sc_array_bsearch` may do it. -/
def binSearch (f : Quad d → ℤ) (l : List (Quad d)) : ℕ → ℕ → ℕ → Option ℕ
  | 0, _, _ => none
  | n + 1, low, high =>
    if low < high then
      match l[(low + high) / 2]? with
      | none => none
      | some x =>
        if f x = 0 then some ((low + high) / 2)
        else if f x < 0 then binSearch f l n low ((low + high) / 2)
        else binSearch f l n ((low + high) / 2 + 1) high
    else none

theorem binSearch_finds {f : Quad d → ℤ} {l : List (Quad d)} : ∀ {n low high i : ℕ}, binSearch f l n low high = some i →
    ∃ h : i < l.length, f l[i] = 0 := by
  intro n
  induction n with
  | zero => intro low high i h; cases h
  | succ n ih =>
    intro low high i h
    rw [binSearch] at h
    split at h
    · split at h
      · cases h
      · rename_i x hx
        split at h
        · rename_i h0
          cases h
          obtain ⟨k1, k2⟩ := List.getElem?_eq_some_iff.mp hx
          exact ⟨k1, by rw [k2]; exact h0⟩
        · split at h
          · exact ih h
          · exact ih h
    · cases h

theorem binSearch_complete {f : Quad d → ℤ} {l : List (Quad d)}
    (hl : l.Pairwise fun a b => (f a ≤ 0 → f b ≤ 0) ∧ (f b ≥ 0 → f a ≥ 0)) : ∀ {n low high i : ℕ} {x : Quad d},
    l[i]? = some x → f x = 0 → low ≤ i → i < high → high ≤ l.length → high - low ≤ n → binSearch f l n low high ≠ none := by
  have hget : ∀ (i j : ℕ) (x y : Quad d), l[i]? = some x → l[j]? = some y → i < j → (f x ≤ 0 → f y ≤ 0) ∧ (f y ≥ 0 → f x ≥ 0) := by
    intro i j x y hx hy hij
    obtain ⟨h1, rfl⟩ := List.getElem?_eq_some_iff.mp hx
    obtain ⟨h2, rfl⟩ := List.getElem?_eq_some_iff.mp hy
    exact List.pairwise_iff_getElem.mp hl i j h1 h2 hij
  intro n
  induction n with
  | zero => intro low high i x hx h0 h1 h2 h3 h4; omega
  | succ n ih =>
    intro low high i x hx h0 h1 h2 h3 h4
    rw [binSearch, if_pos (by omega)]
    have hm : (low + high) / 2 < l.length := by omega
    rw [List.getElem?_eq_getElem hm]
    dsimp only
    have hm' := List.getElem?_eq_getElem hm
    split
    · simp
    · rename_i hne
      split
      · rename_i hlt
        refine ih hx h0 h1 ?_ (by omega) (by omega)
        by_contra hge
        rcases Nat.lt_or_ge ((low + high) / 2) i with c | c
        · have := (hget _ _ _ _ hm' hx c).2 (by omega)
          omega
        · have : i = (low + high) / 2 := by omega
          subst this
          rw [hm', Option.some.injEq] at hx
          rw [hx] at hlt
          omega
      · rename_i hge
        refine ih hx h0 ?_ h2 h3 (by omega)
        by_contra hlt
        rcases Nat.lt_or_ge i ((low + high) / 2) with c | c
        · have := (hget _ _ _ _ hx hm' c).1 (by omega)
          omega
        · have : i = (low + high) / 2 := by omega
          subst this
          rw [hm', Option.some.injEq] at hx
          rw [hx] at hne
          omega

theorem binSearch_searches : Searches (d := d) fun f l => binSearch f l l.length 0 l.length := by
  refine ⟨fun f l i h => binSearch_finds h, fun f l hl ⟨x, hx, h0⟩ => ?_⟩
  obtain ⟨i, hi, e⟩ := List.getElem_of_mem hx
  exact binSearch_complete hl (i := i) (x := x) (by rw [List.getElem?_eq_getElem hi, e]) h0 (by omega) hi le_rfl (by omega)

/-- A search for a range as `sc_bsearch_range` may do it. -/
def rangeSearch (f : Quad d → ℤ) (l : List (Quad d)) (n : ℕ) : ℕ :=
  match l.findIdx? fun x => f x < 0 with
  | none => n
  | some 0 => n
  | some (k + 1) => k

theorem rangeSearch_searches : SearchesRange (d := d) rangeSearch := by
  intro f l n hn hl
  unfold rangeSearch
  cases hc : l.findIdx? fun x => f x < 0 with
  | none =>
    right
    refine ⟨rfl, Or.inr ⟨l[n], List.getElem?_eq_getElem (by omega), ?_⟩⟩
    have := List.findIdx?_eq_none_iff.mp hc l[n] (List.getElem_mem _)
    simpa using this
  | some k =>
    rw [List.findIdx?_eq_some_iff_getElem] at hc
    obtain ⟨h1, h2, h3⟩ := hc
    cases k with
    | zero =>
      right
      exact ⟨rfl, Or.inl ⟨l[0], List.getElem?_eq_getElem h1, by simpa using h2⟩⟩
    | succ k =>
      left
      have hk : k < l.length := by omega
      refine ⟨l[k], l[k + 1], List.getElem?_eq_getElem hk, List.getElem?_eq_getElem h1, ?_, by simpa using h2⟩
      simpa using h3 k (by omega)

/-! ### C67 -/

/-- C67, `p4est_ghost_bsearch`: with a given tree, the search in a ghost layer finds a quadrant exactly if it is a ghost in this
tree, of the given rank if there is one; the result is its position.  The other positions do not match.
Partial: the tree must be given; see `C67_unknown_tree_misses`. -/
theorem C67_ghost_bsearch_partial (hd : 0 < d) (trees : List (List (Quad d))) (P : ℕ) (leaves : ℕ → List (ℕ × Quad d))
    (h : Distributed trees P leaves) (g : GhostLayer d) (hg : GhostTable trees P leaves g)
    (bs : (Quad d → ℤ) → List (Quad d) → Option ℕ) (hbs : Searches bs)
    (proc : Option ℕ) (hp : ∀ p, proc = some p → p < P) (t : ℕ) (ht : t < trees.length) (q : Quad d) (hq : Valid q) :
    ∃ res, ghostBsearch bs g proc (some t) q = some res ∧
      ∀ i, res = some i ↔ ∃ x, g.ghosts[i]? = some x ∧ x.1 = (t, q) ∧ ∀ p, proc = some p → x.1 ∈ leaves p :=
  ghostBsearch_spec hd h hg hbs hp ht hq

/-- C67, `p4est_ghost_contains`: with a given tree, the search finds the ghost in this tree, of the given rank if there is one, that
contains the quadrant, or none if there is no such ghost.
Partial: the tree must be given; see `C67_unknown_tree_misses`. -/
theorem C67_ghost_contains_partial (hd : 0 < d) (trees : List (List (Quad d))) (P : ℕ) (leaves : ℕ → List (ℕ × Quad d))
    (h : Distributed trees P leaves) (g : GhostLayer d) (hg : GhostTable trees P leaves g)
    (bsr : (Quad d → ℤ) → List (Quad d) → ℕ → ℕ) (hbs : SearchesRange bsr)
    (proc : Option ℕ) (hp : ∀ p, proc = some p → p < P) (t : ℕ) (ht : t < trees.length) (q : Quad d) (hq : Valid q) :
    ∃ res, ghostContains bsr g proc (some t) q = some res ∧
      ∀ i, res = some i ↔ ∃ x, g.ghosts[i]? = some x ∧ x.1.1 = t ∧ Cells q ⊆ Cells x.1.2 ∧ ∀ p, proc = some p → x.1 ∈ leaves p :=
  ghostContains_spec hd h hg hbs hp ht hq

/-! ### A ghost layer with two trees -/

/-- Two squares side by side. -/
def sideSquares : FaceConn := ⟨2, [0, 1, 0, 0, 0, 1, 1, 1], [0, 0, 2, 3, 1, 1, 2, 3]⟩

theorem sideSquares_consistent : FaceConsistent 2 sideSquares := by
  rw [← C37_face_checks (by norm_num) _ rfl rfl]
  intro t f ht hf
  have ht : t < 2 := ht
  interval_cases t <;> interval_cases f <;> decide +kernel

theorem sideSquares_sideBySide : SideBySide 2 sideSquares := by
  intro t ht f hf
  have ht : t < 2 := ht
  have hf : f < 4 := hf
  interval_cases t <;> interval_cases f <;> decide +kernel

/-- Both trees are refined once. -/
def sideTrees : List (List (Quad 2)) := [childrenv (root 2), childrenv (root 2)]

/-- Three ranks with five, one and two leaves. -/
def sideLeaves (p : ℕ) : List (ℕ × Quad 2) :=
  ((forestLeaves sideTrees).drop ([0, 5, 6].getD p 8)).take ([5, 1, 2].getD p 0)

theorem sideLeaves_distributed : Distributed sideTrees 3 sideLeaves where
  complete := by
    intro l hl
    have hl : l = childrenv (root 2) := by
      rcases List.mem_cons.mp hl with h | h
      · exact h
      · exact List.mem_singleton.mp h
    subst hl
    refine treeComplete_of_path ?_ (by decide +kernel)
    have h : ∀ q ∈ childrenv (root 2), isValid q = true := by decide +kernel
    exact fun q hq => isValid_iff.mp (h q hq)
  someTree := by simp [sideTrees]
  split := by decide +kernel

/-- The ghost layer of the last rank: the last leaf of the first tree and the first two of the second tree. -/
def sideGhosts : GhostLayer 2 :=
  ⟨[((0, child (root 2) 3), 3), ((1, child (root 2) 0), 4), ((1, child (root 2) 1), 0)], [0, 1, 3], [0, 2, 3, 3],
    [((1, child (root 2) 2), 0), ((1, child (root 2) 3), 1)], [0, 0, 2], [0, 1], [0, 1, 2, 2]⟩

theorem sideGhosts_table : GhostTable sideTrees 3 sideLeaves sideGhosts := by
  refine ⟨by decide +kernel, ⟨fun t => (sideGhosts.ghosts.drop ([0, 1].getD t 0)).take ([1, 2].getD t 0), ⟨rfl, rfl, rfl, ?_⟩, ?_⟩,
    ⟨fun p => (sideGhosts.ghosts.drop ([0, 2, 3].getD p 0)).take ([2, 1, 0].getD p 0), ⟨rfl, rfl, rfl, ?_⟩, ?_⟩⟩
  · intro i hi
    have hi : i < 2 := hi
    interval_cases i
    · exact ⟨0, 1, rfl, rfl, by omega, rfl⟩
    · exact ⟨1, 3, rfl, rfl, by omega, rfl⟩
  · intro t ht
    have ht : t < 2 := ht
    interval_cases t <;> decide +kernel
  · intro i hi
    interval_cases i
    · exact ⟨0, 2, rfl, rfl, by omega, rfl⟩
    · exact ⟨2, 3, rfl, rfl, by omega, rfl⟩
    · exact ⟨3, 3, rfl, rfl, by omega, rfl⟩
  · intro p hp
    interval_cases p <;> decide +kernel

/-- The hypotheses of C67 are met: the leaf of the first tree is found, and a child of it is found to be contained in it. -/
example : Distributed sideTrees 3 sideLeaves ∧ GhostTable sideTrees 3 sideLeaves sideGhosts ∧ Valid (child (root 2) 3) ∧
    ghostBsearch (fun f l => binSearch f l l.length 0 l.length) sideGhosts none (some 0) (child (root 2) 3) = some (some 0) ∧
    ghostBsearch (fun f l => binSearch f l l.length 0 l.length) sideGhosts (some 1) (some 1) (child (root 2) 1) = some (some 2) ∧
    ghostContains rangeSearch sideGhosts (some 0) (some 1) (child (child (root 2) 0) 3) = some (some 1) :=
  ⟨sideLeaves_distributed, sideGhosts_table, isValid_iff.mp (by decide +kernel), by decide +kernel, by decide +kernel, by decide +kernel⟩

/-- C67 is false if the tree is -1, which the documentation allows: the ghosts of several trees are not in the order of
`p4est_quadrant_compare`, and a binary search misses one of them. -/
theorem C67_unknown_tree_misses : ∃ (bs : (Quad 2 → ℤ) → List (Quad 2) → Option ℕ), Searches bs ∧
    ∃ (trees : List (List (Quad 2))) (P : ℕ) (leaves : ℕ → List (ℕ × Quad 2)) (g : GhostLayer 2), Distributed trees P leaves ∧
      GhostTable trees P leaves g ∧ ∃ x ∈ g.ghosts, ghostBsearch bs g none none x.1.2 = some none :=
  ⟨_, binSearch_searches, sideTrees, 3, sideLeaves, sideGhosts, sideLeaves_distributed, sideGhosts_table,
    ((0, child (root 2) 3), 3), by decide +kernel, by decide +kernel⟩

/-! ### C68 -/

/-- C68, `p4est_is_balanced` with `P4EST_CONNECT_FACE`: on a forest whose leaves differ by at most one level across each face the
test returns true on every rank, for any consistent connectivity and any distribution. -/
theorem C68_balanced_passes (hd : d = 2 ∨ d = 3) (conn : FaceConn) (hconn : FaceConsistent d conn)
    (trees : List (List (Quad d))) (hn : conn.numTrees = trees.length) (P : ℕ) (leaves : ℕ → List (ℕ × Quad d))
    (h : Distributed trees P leaves) (bs : (Quad d → ℤ) → List (Quad d) → Option ℕ) (hbs : Searches bs) (mem : Fin d → ℤ)
    (hbal : MeshBalanced conn trees) : isBalancedFace bs mem conn P leaves = some (List.replicate P true) :=
  balanced_passes hd hconn hn h hbal hbs mem

/-- C68, trees side by side without rotation: the test always returns, with the same result on every rank, and the result is
whether the leaves differ by at most one level across each face. -/
theorem C68_brick_exact (hd : d = 2 ∨ d = 3) (conn : FaceConn) (hconn : FaceConsistent d conn) (hst : SideBySide d conn)
    (trees : List (List (Quad d))) (hn : conn.numTrees = trees.length) (P : ℕ) (leaves : ℕ → List (ℕ × Quad d))
    (h : Distributed trees P leaves) (bs : (Quad d → ℤ) → List (Quad d) → Option ℕ) (hbs : Searches bs) (mem : Fin d → ℤ) :
    ∃ b, isBalancedFace bs mem conn P leaves = some (List.replicate P b) ∧ (b = true ↔ MeshBalanced conn trees) := by
  by_cases hbal : MeshBalanced conn trees
  · exact ⟨true, balanced_passes hd hconn hn h hbal hbs mem, by simp [hbal]⟩
  · obtain ⟨rs, hrs⟩ := sideBySide_ends hd hconn hn h hst hbs mem
    refine ⟨false, ?_, by simp [hbal]⟩
    rw [hrs, unbalanced_fails hd hconn hn h hbal hbs mem hrs]

theorem sideTrees_balanced : MeshBalanced sideSquares sideTrees := by
  have h : ∀ y ∈ forestLeaves sideTrees, y.2.level ≤ 1 := by decide +kernel
  intro x _ y hy _
  have := h y hy
  omega

/-- The first tree is refined at its center, the second tree not at all. -/
def steepTrees : List (List (Quad 2)) :=
  [(childrenv (child (root 2) 0)).take 3 ++ childrenv (child (child (root 2) 0) 3) ++ (childrenv (root 2)).drop 1, [root 2]]

/-- Three ranks with four, five and two leaves. -/
def steepLeaves (p : ℕ) : List (ℕ × Quad 2) :=
  ((forestLeaves steepTrees).drop ([0, 4, 9].getD p 11)).take ([4, 5, 2].getD p 0)

theorem steepTrees_complete : ∀ l ∈ steepTrees, TreeComplete l := by
  have h : ∀ l ∈ steepTrees, (∀ q ∈ l, isValid q = true) ∧ Path 0 l (2 ^ (2 * 30)) := by decide +kernel
  exact fun l hl => treeComplete_of_path (fun q hq => isValid_iff.mp ((h l hl).1 q hq)) (h l hl).2

theorem steepLeaves_distributed : Distributed steepTrees 3 steepLeaves where
  complete := steepTrees_complete
  someTree := by simp [steepTrees]
  split := by decide +kernel

theorem steepTrees_unbalanced : ¬ MeshBalanced sideSquares steepTrees := by
  intro h
  have := h (0, child (root 2) 1) (by decide +kernel) (0, child (child (child (root 2) 0) 3) 1) (by decide +kernel)
    ⟨![2 ^ 29, 2 ^ 29 - 2 ^ 28], (by intro i; fin_cases i <;> decide +kernel), ![2 ^ 29 - 1, 2 ^ 29 - 2 ^ 28],
      (by intro i; fin_cases i <;> decide +kernel), by
      refine ⟨?_, ?_, Or.inl ⟨rfl, 0, ?_, Or.inr ?_⟩⟩
      · intro i; fin_cases i <;> decide
      · intro i; fin_cases i <;> decide
      · intro j hj; fin_cases j
        · exact absurd rfl hj
        · rfl
      · decide⟩
  exact absurd this (by decide)

/-- The hypotheses of C68 are met by a balanced forest, on which the result is true, and by an unbalanced one, on which it is
false. -/
example : isBalancedFace (fun f l => binSearch f l l.length 0 l.length) (fun _ => 7) sideSquares 3 sideLeaves = some [true, true, true] ∧
    isBalancedFace (fun f l => binSearch f l l.length 0 l.length) (fun _ => 7) sideSquares 3 steepLeaves = some [false, false, false] := by
  refine ⟨C68_balanced_passes (Or.inl rfl) _ sideSquares_consistent sideTrees rfl 3 _ sideLeaves_distributed _ binSearch_searches _
    sideTrees_balanced, ?_⟩
  obtain ⟨b, h1, h2⟩ := C68_brick_exact (Or.inl rfl) _ sideSquares_consistent sideSquares_sideBySide steepTrees rfl 3 _
    steepLeaves_distributed _ binSearch_searches fun _ => 7
  cases b with
  | true => exact absurd (h2.mp rfl) steepTrees_unbalanced
  | false => exact h1

/-! ### C69 -/

/-- C69, `p4est_is_balanced` with `P4EST_CONNECT_FACE`, any consistent connectivity: if the test returns then it returns the same
on every rank, which is whether the leaves differ by at most one level across each face.
Partial: that the test returns is proved for balanced forests and for trees side by side (C68), and it is false otherwise;
see `C69_unbalanced_waits`. -/
theorem C69_is_balanced_partial (hd : d = 2 ∨ d = 3) (conn : FaceConn) (hconn : FaceConsistent d conn)
    (trees : List (List (Quad d))) (hn : conn.numTrees = trees.length) (P : ℕ) (leaves : ℕ → List (ℕ × Quad d))
    (h : Distributed trees P leaves) (bs : (Quad d → ℤ) → List (Quad d) → Option ℕ) (hbs : Searches bs) (mem : Fin d → ℤ)
    (rs : List Bool) (hrs : isBalancedFace bs mem conn P leaves = some rs) :
    ∃ b, rs = List.replicate P b ∧ (b = true ↔ MeshBalanced conn trees) := by
  by_cases hbal : MeshBalanced conn trees
  · rw [balanced_passes hd hconn hn h hbal hbs mem, Option.some.injEq] at hrs
    exact ⟨true, hrs.symm, by simp [hbal]⟩
  · exact ⟨false, unbalanced_fails hd hconn hn h hbal hbs mem hrs, by simp [hbal]⟩

/-! ### A forest on which the test does not return -/

/-- `quadrantFindOwner` with a bound for the number of turns of the search. -/
def quadrantFindOwnerFuel (mem : Fin d → ℤ) (conn : FaceConn) (gfp : List (GPos d)) (numProcs rank t face : ℕ) (q : Quad d) :
    Option ℤ :=
  if isInsideRoot q then ownerFuel gfp t q numProcs 0 (numProcs - 1) rank
  else do
    let ntree ← conn.treeToTree[2 * d * t + face]?
    let code ← conn.treeToFace[2 * d * t + face]?
    if ntree = t ∧ code = face then some (-1)
    else do
      match ← findFaceTransform d conn t face with
      | none => none
      | some (_, ft) => do
        let nq ← quadrantTransformFace mem q ft
        ownerFuel gfp ntree nq numProcs 0 (numProcs - 1) rank

theorem quadrantFindOwnerFuel_sound {mem : Fin d → ℤ} {conn : FaceConn} {gfp : List (GPos d)} {P r t f : ℕ} {q : Quad d} {v : ℤ}
    (h : quadrantFindOwnerFuel mem conn gfp P r t f q = some v) : quadrantFindOwner mem conn gfp P r t f q = some v := by
  unfold quadrantFindOwnerFuel at h
  unfold quadrantFindOwner
  split at h
  · rename_i c
    rw [if_pos c]
    exact ownerFuel_sound h
  · rename_i c
    rw [if_neg c]
    obtain ⟨nt, h1, h⟩ := Option.bind_eq_some_iff.mp h
    obtain ⟨code, h2, h⟩ := Option.bind_eq_some_iff.mp h
    rw [h1, h2]
    simp only [Option.bind_eq_bind, Option.bind_some]
    split at h
    · rename_i c1; rw [if_pos c1]; exact h
    · rename_i c1
      rw [if_neg c1]
      obtain ⟨o, h3, h⟩ := Option.bind_eq_some_iff.mp h
      rw [h3]
      simp only [Option.bind_some]
      cases o with
      | none => cases h
      | some p =>
        obtain ⟨nq, h4, h⟩ := Option.bind_eq_some_iff.mp h
        dsimp only at h4 ⊢
        rw [h4]
        exact ownerFuel_sound h

theorem smallStep_mono {o1 o2 : Quad d → Option ℤ} (ho : ∀ q v, o1 q = some v → o2 q = some v) {r : ℕ} {s : Option (ℤ × List ℕ)}
    {e : Quad d × Option (Quad d)} {s' : Option (ℤ × List ℕ)} (h : smallStep o1 r s e = some s') : smallStep o2 r s e = some s' := by
  cases s with
  | none => exact h
  | some s =>
    obtain ⟨e1, e2⟩ := e
    unfold smallStep at h ⊢
    obtain ⟨n0, h1, h⟩ := Option.bind_eq_some_iff.mp h
    simp only [ho _ _ h1, Option.bind_eq_bind, Option.bind_some]
    cases e2 with
    | none => exact h
    | some u =>
      obtain ⟨ur, h2, h⟩ := Option.bind_eq_some_iff.mp h
      simp only [ho _ _ h2, Option.bind_some]
      exact h

theorem foldlM_mono {β τ : Type} {f g : τ → β → Option τ} (hfg : ∀ s x s', f s x = some s' → g s x = some s') : ∀ {l : List β} {s s' : τ},
    l.foldlM f s = some s' → l.foldlM g s = some s' := by
  intro l
  induction l with
  | nil => intro s s' h; exact h
  | cons x l ih =>
    intro s s' h
    rw [List.foldlM_cons] at h ⊢
    obtain ⟨u, h1, h⟩ := Option.bind_eq_some_iff.mp h
    rw [hfg _ _ _ h1]
    exact ih h

/-- `smallTargets` with a bound for the number of turns of the searches. -/
def smallTargetsFuel (mem : Fin d → ℤ) (conn : FaceConn) (gfp : List (GPos d)) (numProcs rank : ℕ) (x : ℕ × Quad d) :
    Option (Option (List ℕ)) :=
  (List.range (2 * d)).foldlM (fun acc face => match acc with
    | none => some none
    | some ps => do
      let r ← (smallNeighbors x.2 face).foldlM (smallStep (quadrantFindOwnerFuel mem conn gfp numProcs rank x.1 face) rank)
        (some (-1, []))
      some (r.map fun s => ps ++ s.2)) (some [])

theorem smallTargetsFuel_sound {mem : Fin d → ℤ} {conn : FaceConn} {gfp : List (GPos d)} {P r : ℕ} {x : ℕ × Quad d} {res : Option (List ℕ)}
    (h : smallTargetsFuel mem conn gfp P r x = some res) : smallTargets mem conn gfp P r x = some res := by
  refine foldlM_mono (fun s f s' h => ?_) h
  cases s with
  | none => exact h
  | some ps =>
    dsimp only at h ⊢
    obtain ⟨u, h1, h⟩ := Option.bind_eq_some_iff.mp h
    have := foldlM_mono (g := smallStep (quadrantFindOwner mem conn gfp P r x.1 f) r)
      (fun s e s' h => smallStep_mono (fun q v hq => quadrantFindOwnerFuel_sound hq) h) h1
    rw [this]
    exact h

/-- Two squares that are connected at their left faces, one of them upside down. -/
def turnedSquares : FaceConn := ⟨2, [1, 0, 0, 0, 0, 1, 1, 1], [4, 1, 2, 3, 4, 1, 2, 3]⟩

theorem turnedSquares_consistent : FaceConsistent 2 turnedSquares := by
  rw [← C37_face_checks (by norm_num) _ rfl rfl]
  intro t f ht hf
  have ht : t < 2 := ht
  interval_cases t <;> interval_cases f <;> decide +kernel

/-- The second tree is refined twice at its first corner, the first tree not at all. -/
def turnedTrees : List (List (Quad 2)) := [[root 2], childrenv (child (root 2) 0) ++ (childrenv (root 2)).drop 1]

/-- Four ranks with one, two, two and three leaves. -/
def turnedLeaves (p : ℕ) : List (ℕ × Quad 2) :=
  ((forestLeaves turnedTrees).drop ([0, 1, 3, 5].getD p 8)).take ([1, 2, 2, 3].getD p 0)

theorem turnedLeaves_distributed : Distributed turnedTrees 4 turnedLeaves where
  complete := by
    have h : ∀ l ∈ turnedTrees, (∀ q ∈ l, isValid q = true) ∧ Path 0 l (2 ^ (2 * 30)) := by decide +kernel
    exact fun l hl => treeComplete_of_path (fun q hq => isValid_iff.mp ((h l hl).1 q hq)) (h l hl).2
  someTree := by simp [turnedTrees]
  split := by decide +kernel

/-- No check fails. -/
theorem turned_targets : ∀ r < 4, ∀ x ∈ turnedLeaves r, ∃ ps,
    smallTargets (fun _ => 0) turnedSquares (globalPartition turnedLeaves 4 2) 4 r x = some (some ps) := by
  have h : ∀ r < 4, ∀ x ∈ turnedLeaves r,
      ((smallTargetsFuel (fun _ => 0) turnedSquares (globalPartition turnedLeaves 4 2) 4 r x).bind id).isSome = true := by decide +kernel
  intro r hr x hx
  have := h r hr x hx
  cases hc : smallTargetsFuel (fun _ => 0) turnedSquares (globalPartition turnedLeaves 4 2) 4 r x with
  | none => rw [hc] at this; cases this
  | some o =>
    cases o with
    | none => rw [hc] at this; cases this
    | some ps => exact ⟨ps, smallTargetsFuel_sound hc⟩

/-- The first rank sends its leaf to the ranks 1 and 3. -/
theorem turned_root : smallTargets (fun _ => 0) turnedSquares (globalPartition turnedLeaves 4 2) 4 0 (0, root 2) = some (some [3, 1]) :=
  smallTargetsFuel_sound (by decide +kernel)

/-- Rank 2 sends a leaf to the first rank, among others. -/
theorem turned_second : smallTargets (fun _ => 0) turnedSquares (globalPartition turnedLeaves 4 2) 4 2 (1, child (child (root 2) 0) 2) =
    some (some [0, 1, 3]) :=
  smallTargetsFuel_sound (by decide +kernel)

/-- C69 fails on this forest, which is not balanced: no check ends the construction of the ghost layer, rank 2 has a message for
rank 0 and waits for one from it, but rank 0 has none for rank 2.  So the test does not return. -/
theorem C69_unbalanced_waits : FaceConsistent 2 turnedSquares ∧ Distributed turnedTrees 4 turnedLeaves ∧
    (∀ r < 4, ∀ x ∈ turnedLeaves r, ∃ ps,
      smallTargets (fun _ => 0) turnedSquares (globalPartition turnedLeaves 4 2) 4 r x = some (some ps)) ∧
    ∀ bs, Searches bs → isBalancedFace bs (fun _ => 0) turnedSquares 4 turnedLeaves = none := by
  refine ⟨turnedSquares_consistent, turnedLeaves_distributed, turned_targets, fun bs hbs => ?_⟩
  by_contra hne
  rcases ghostNewSmall_cases (Or.inl rfl) turnedSquares_consistent (trees := turnedTrees) rfl turnedLeaves_distributed (fun _ => 0) with
    ⟨-, r, hr, x, hx, -, e⟩ | ⟨e, hps⟩
  · obtain ⟨ps, hp⟩ := turned_targets r hr x hx
    have : some (some ps) = some none := hp.symm.trans e
    cases this
  · have hsome : ghostNewWith turnedSquares (globalPartition turnedLeaves 4 turnedTrees.length) 4 turnedLeaves (fun r x =>
        (smallTargets (fun _ => 0) turnedSquares (globalPartition turnedLeaves 4 turnedTrees.length) 4 r x).map fun o => o.getD []) ≠ none := by
      intro hnone
      rw [hnone] at e
      apply hne
      unfold isBalancedFace
      rw [e]
      rfl
    obtain ⟨gs, -, -, e3⟩ := layers_some (Or.inl rfl) turnedSquares_consistent rfl turnedLeaves_distributed (fun _ => 0) hps hsome
    obtain ⟨x, hx, ps, hp, hm⟩ := (e3 0 (by norm_num)).2 2 (by norm_num) (by norm_num) ⟨(1, child (child (root 2) 0) 2), by decide +kernel,
      ⟨(1, child (child (root 2) 0) 2), (1, child (child (root 2) 0) 3), _, by decide +kernel, by decide +kernel, rfl, by decide +kernel⟩,
      [0, 1, 3], turned_second, by simp⟩
    have hx : x = (0, root 2) := by
      have : turnedLeaves 0 = [(0, root 2)] := by decide +kernel
      rw [this] at hx
      exact List.mem_singleton.mp hx
    subst hx
    have : some (some [3, 1]) = some (some ps) := turned_root.symm.trans hp
    rw [Option.some.injEq, Option.some.injEq] at this
    rw [← this] at hm
    exact absurd hm (by decide)

/-- On the same connectivity the test returns for a balanced forest, so the hypotheses of C69 are met. -/
example : isBalancedFace (fun f l => binSearch f l l.length 0 l.length) (fun _ => 7) turnedSquares 3 sideLeaves = some [true, true, true] :=
  C68_balanced_passes (Or.inl rfl) _ turnedSquares_consistent sideTrees rfl 3 _ sideLeaves_distributed _ binSearch_searches _
    (by
      have h : ∀ y ∈ forestLeaves sideTrees, y.2.level ≤ 1 := by decide +kernel
      intro x _ y hy _
      have := h y hy
      omega)

end P4est
