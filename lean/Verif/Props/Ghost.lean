import Verif.Lemmas.GhostNew

/-! # C57: the ghost layer across faces -/

namespace P4est
open Spec

variable {d : ℕ}

/-- **C57.**  `p4est_ghost_new` with `P4EST_CONNECT_FACE` terminates on all ranks of every distributed forest, and
each rank `r` obtains
* as ghosts exactly the leaves of other ranks that have a common part of a face with a leaf of its own, in
  the order of the ranks and within a rank in the order of its leaves, each with its number there,
* `proc_offsets` and `tree_offsets` that cut the ghosts by owner and by tree,
* as mirrors exactly its own leaves that have a common part of a face with a leaf of another rank,
* `mirror_tree_offsets` that cut the mirrors by tree,
* `mirror_proc_offsets` that cut `mirror_proc_mirrors` into one piece per rank, such that the mirrors listed there
  for `p` are exactly the ghosts that `p` has from `r`, in the same order.

Partial: no rank may have one single leaf that is of the smallest size; see
`C57_ghost_single_cell_waits`. -/
theorem C57_ghost_face_partial (hd : d = 2 ∨ d = 3) (conn : FaceConn) (hconn : FaceConsistent d conn)
    (trees : List (List (Quad d))) (hn : conn.numTrees = trees.length) (P : ℕ) (leaves : ℕ → List (ℕ × Quad d))
    (h : Distributed trees P leaves) (hone : ∀ p < P, ∀ x, leaves p = [x] → x.2.level ≠ 29) (mem : Fin d → ℤ) :
    ∃ gs : List (GhostLayer d), ghostNewFace mem conn P leaves = some gs ∧ gs.length = P ∧
      ∀ r < P, ∃ g, gs[r]? = some g ∧
        g.ghosts = ghostsOf (ShareFace conn) leaves P r ∧
        CutInto g.ghosts g.procOffsets P (fun p => seenBy (ShareFace conn) leaves p r) ∧
        CutInto g.ghosts g.treeOffsets conn.numTrees (fun t => g.ghosts.filter fun x => decide (x.1.1 = t)) ∧
        g.mirrors = mirrorsOf (ShareFace conn) leaves P r ∧
        CutInto g.mirrors g.mirrorTreeOffsets conn.numTrees (fun t => g.mirrors.filter fun x => decide (x.1.1 = t)) ∧
        ∃ piece, CutInto g.mirrorProcMirrors g.mirrorProcOffsets P piece ∧
          ∀ p < P, (piece p).map (fun i => g.mirrors[i]?) = (seenBy (ShareFace conn) leaves r p).map some := by
  have hd0 : 0 < d := by omega
  obtain ⟨s, hs⟩ := h.segments hd0
  have hsymm : ∀ r < P, ∀ p < P, ∀ x ∈ leaves r, ∀ y ∈ leaves p, ShareFace conn x y → ShareFace conn y x := by
    rintro r hr p hp x hx y hy ⟨a, ha, b, hb, hab⟩
    exact ⟨b, hb, a, ha, sharesFacet_symm hd conn hconn (by rw [hn]; exact (hs.leaf r hr x hx).1) hab⟩
  have key := ghostNewWith_spec hd0 hn h hsymm (targets := fun r => allFaceTargets mem conn (globalPartition leaves P trees.length) P r)
    (fun r hr x hx => allFaceTargets_spec hd hconn hn h hone hr hx mem)
    (fun r hr x hx x0 xl h0 hl full hf hown p hp hpr y hy =>
      owned_no_neighbor hd hconn hn h hr hx h0 hl hf hown hp hpr hy)
  unfold ghostNewFace
  rw [hn]
  rw [hn] at key
  exact key

/-! ### A ghost layer -/

theorem twoSquares_consistent : FaceConsistent 2 twoSquares := by
  rw [← C37_face_checks (by norm_num) _ rfl rfl]
  intro t f ht hf
  have ht : t < 2 := ht
  interval_cases t <;> interval_cases f <;> decide +kernel

/-- The forest of `twoTrees` on `twoSquares` meets the hypotheses, and it has ghosts: the second leaf of rank 0 is a ghost of
rank 2. -/
example : FaceConsistent 2 twoSquares ∧ twoSquares.numTrees = twoTrees.length ∧ Distributed twoTrees 4 twoTreesLeaves ∧
    (∀ p < 4, ∀ x, twoTreesLeaves p = [x] → x.2.level ≠ 29) ∧
    (((0, child (root 2) 1), 1) : (ℕ × Quad 2) × ℕ) ∈ ghostsOf (ShareFace twoSquares) twoTreesLeaves 4 2 := by
  refine ⟨twoSquares_consistent, rfl, twoTrees_distributed, ?_, ?_⟩
  · intro p hp x hx
    have h1 : (twoTreesLeaves p).length = 1 := by rw [hx]; rfl
    interval_cases p <;> exact absurd h1 (by decide)
  · unfold ghostsOf
    rw [List.mem_flatMap]
    refine ⟨0, by simp, mem_seenBy.mpr ⟨by decide +kernel, ?_⟩⟩
    refine ⟨by norm_num, (0, child (root 2) 3), by decide +kernel, ![2 ^ 29, 2 ^ 29 - 1], ?_, ![2 ^ 29, 2 ^ 29], ?_, ?_⟩
    · intro i; fin_cases i <;> decide +kernel
    · intro i; fin_cases i <;> decide +kernel
    · refine ⟨?_, ?_, Or.inl ⟨rfl, 1, ?_, Or.inl ?_⟩⟩
      · intro i; fin_cases i <;> decide
      · intro i; fin_cases i <;> decide
      · intro j hj; fin_cases j
        · rfl
        · exact absurd rfl hj
      · decide

/-! ### A rank with one leaf of the smallest size -/

/-- `ownerLoop` with a bound for the number of turns. -/
def ownerFuel (gfp : List (GPos d)) (tree : ℤ) (q : Quad d) : ℕ → ℤ → ℤ → ℤ → Option ℤ
  | 0, _, _, _ => none
  | n + 1, low, high, guess =>
    if guess < 0 then none
    else do
      let cur ← gfp[guess.toNat]?
      if beginsBefore cur tree q then
        ownerFuel gfp tree q n low (guess - 1) ((low + (guess - 1) + 1).tdiv 2)
      else do
        let next ← gfp[guess.toNat + 1]?
        if beginsAfter next tree q then
          ownerFuel gfp tree q n (guess + 1) high ((guess + 1 + high).tdiv 2)
        else some guess

theorem ownerFuel_sound {gfp : List (GPos d)} {tree : ℤ} {q : Quad d} : ∀ {n : ℕ} {low high guess r : ℤ},
    ownerFuel gfp tree q n low high guess = some r → ownerLoop gfp tree q low high guess = some r := by
  intro n
  induction n with
  | zero => intro low high guess r h; cases h
  | succ n ih =>
    intro low high guess r h
    rw [ownerLoop]
    rw [ownerFuel] at h
    split at h
    · cases h
    · rename_i h1
      rw [if_neg h1]
      cases h2 : gfp[guess.toNat]? with
      | none => rw [h2] at h; cases h
      | some cur =>
        rw [h2] at h
        simp only [Option.bind_eq_bind, Option.bind_some] at h ⊢
        split at h
        · rename_i h3
          rw [if_pos h3]
          exact ih h
        · rename_i h3
          rw [if_neg h3]
          cases h4 : gfp[guess.toNat + 1]? with
          | none => rw [h4] at h; cases h
          | some next =>
            rw [h4] at h
            simp only [Option.bind_some] at h ⊢
            split at h
            · rename_i h5
              rw [if_pos h5]
              exact ih h
            · rename_i h5
              rw [if_neg h5]
              exact h

/-- `testAdd` with a bound for the number of turns of the searches. -/
def testAddFuel (gfp : List (GPos d)) (numProcs level : ℕ) (nq : Quad d) (nt touch rank : ℕ) : Option (List ℕ) :=
  (ownerFuel gfp nt nq numProcs 0 (numProcs - 1) rank).bind fun n0 =>
  if level = QMAXLEVEL then some (if n0 ≠ rank then [n0.toNat] else [])
  else (ownerFuel gfp nt (lastDesc nq QMAXLEVEL) numProcs 0 (numProcs - 1) n0).bind fun n1 =>
    if n0 = n1 then some (if n0 ≠ rank then [n0.toNat] else [])
    else (List.range' n0.toNat (n1.toNat + 1 - n0.toNat)).filterM (testProc gfp n0.toNat n1.toNat level touch rank)

theorem testAddFuel_sound {gfp : List (GPos d)} {numProcs level : ℕ} {nq : Quad d} {nt touch rank : ℕ} {ps : List ℕ}
    (h : testAddFuel gfp numProcs level nq nt touch rank = some ps) : testAdd gfp numProcs level nq nt touch rank = some ps := by
  unfold testAddFuel at h
  unfold testAdd findOwner
  obtain ⟨n0, h1, h⟩ := Option.bind_eq_some_iff.mp h
  rw [ownerFuel_sound h1]
  simp only [Option.bind_eq_bind, Option.bind_some]
  split at h
  · rename_i h2; rw [if_pos h2]; exact h
  · rename_i h2
    rw [if_neg h2]
    obtain ⟨n1, h3, h⟩ := Option.bind_eq_some_iff.mp h
    rw [ownerFuel_sound h3]
    exact h

/-- One square without neighbors. -/
def oneSquare : FaceConn := ⟨1, [0, 0, 0, 0], [0, 1, 2, 3]⟩

/-- The path of second children from the first child of the root down to the smallest size. -/
def cellPath (l : ℕ) : Quad 2 := ⟨![2 ^ 29 - 2 ^ (30 - l), 0], l⟩

/-- A tree that is refined along `cellPath`. -/
def cellTree : List (Quad 2) :=
  ((List.range 28).map fun k => child (cellPath (k + 1)) 0) ++ [cellPath 29] ++
    ((List.range 28).flatMap fun k => [child (cellPath (28 - k)) 2, child (cellPath (28 - k)) 3]) ++
    [child (root 2) 1, child (root 2) 2, child (root 2) 3]

/-- Five ranks: the second has only the smallest leaf, the fourth only its neighbor to the right. -/
def cellLeaves (p : ℕ) : List (ℕ × Quad 2) :=
  ((cellTree.drop ([0, 28, 29, 85, 86].getD p 88)).take ([28, 1, 56, 1, 2].getD p 0)).map fun q => (0, q)

instance Path.decidable : ∀ (a : ℕ) (ls : List (Quad d)) (b : ℕ), Decidable (Path a ls b)
  | a, [], b => inferInstanceAs (Decidable (a = b))
  | a, q :: ls, b => @instDecidableAnd _ _ (inferInstanceAs (Decidable (a = start q))) (Path.decidable (stop q) ls b)

theorem cellLeaves_distributed : Distributed [cellTree] 5 cellLeaves where
  complete := by
    simp only [List.mem_singleton, forall_eq]
    refine treeComplete_of_path ?_ (by decide +kernel)
    have h : ∀ q ∈ cellTree, isValid q = true := by decide +kernel
    exact fun q hq => isValid_iff.mp (h q hq)
  someTree := by simp
  split := by decide +kernel

theorem oneSquare_consistent : FaceConsistent 2 oneSquare := by
  rw [← C37_face_checks (by norm_num) _ rfl rfl]
  intro t f ht hf
  have ht : t < 1 := ht
  interval_cases t <;> interval_cases f <;> decide +kernel

theorem faceTargets_inside {mem : Fin d → ℤ} {conn : FaceConn} {gfp : List (GPos d)} {P r nt : ℕ} {q : Quad d} {f : ℕ}
    {ps : List ℕ} (h1 : isInsideRoot (faceNeighbor q f) = true)
    (h2 : testAddFuel gfp P q.level (faceNeighbor q f) nt (1 <<< (f ^^^ 1)) r = some ps) :
    faceTargets mem conn gfp P r nt q f = some ps := by
  unfold faceTargets
  dsimp only
  rw [if_pos h1]
  exact testAddFuel_sound h2

theorem faceTargets_boundary {mem : Fin d → ℤ} {conn : FaceConn} {gfp : List (GPos d)} {P r nt : ℕ} {q : Quad d} {f : ℕ}
    (h1 : isInsideRoot (faceNeighbor q f) = false) (h2 : findFaceTransform d conn nt f = some none) :
    faceTargets mem conn gfp P r nt q f = some [] := by
  unfold faceTargets
  dsimp only
  rw [if_neg (by simp [h1]), h2]
  rfl

theorem cell_targets (mem : Fin 2 → ℤ) :
    allFaceTargets mem oneSquare (globalPartition cellLeaves 5 1) 5 1 (0, cellPath 29) = some [0, 3, 2] := by
  have h0 := faceTargets_inside (mem := mem) (conn := oneSquare) (gfp := globalPartition cellLeaves 5 1) (P := 5) (r := 1) (nt := 0)
    (q := cellPath 29) (f := 0) (ps := [0]) (by decide +kernel) (by decide +kernel)
  have h1 := faceTargets_inside (mem := mem) (conn := oneSquare) (gfp := globalPartition cellLeaves 5 1) (P := 5) (r := 1) (nt := 0)
    (q := cellPath 29) (f := 1) (ps := [3]) (by decide +kernel) (by decide +kernel)
  have h2 := faceTargets_boundary (mem := mem) (conn := oneSquare) (gfp := globalPartition cellLeaves 5 1) (P := 5) (r := 1) (nt := 0)
    (q := cellPath 29) (f := 2) (by decide +kernel) (by decide +kernel)
  have h3 := faceTargets_inside (mem := mem) (conn := oneSquare) (gfp := globalPartition cellLeaves 5 1) (P := 5) (r := 1) (nt := 0)
    (q := cellPath 29) (f := 3) (ps := [2]) (by decide +kernel) (by decide +kernel)
  unfold allFaceTargets
  rw [show List.range (2 * 2) = [0, 1, 2, 3] from rfl]
  simp only [List.mapM_cons, List.mapM_nil, h0, h1, h2, h3]
  rfl

theorem side_targets (mem : Fin 2 → ℤ) :
    allFaceTargets mem oneSquare (globalPartition cellLeaves 5 1) 5 3 (0, child (root 2) 1) = some [2, 4] := by
  have h0 := faceTargets_inside (mem := mem) (conn := oneSquare) (gfp := globalPartition cellLeaves 5 1) (P := 5) (r := 3) (nt := 0)
    (q := child (root 2) 1) (f := 0) (ps := [2]) (by decide +kernel) (by decide +kernel)
  have h1 := faceTargets_boundary (mem := mem) (conn := oneSquare) (gfp := globalPartition cellLeaves 5 1) (P := 5) (r := 3) (nt := 0)
    (q := child (root 2) 1) (f := 1) (by decide +kernel) (by decide +kernel)
  have h2 := faceTargets_boundary (mem := mem) (conn := oneSquare) (gfp := globalPartition cellLeaves 5 1) (P := 5) (r := 3) (nt := 0)
    (q := child (root 2) 1) (f := 2) (by decide +kernel) (by decide +kernel)
  have h3 := faceTargets_inside (mem := mem) (conn := oneSquare) (gfp := globalPartition cellLeaves 5 1) (P := 5) (r := 3) (nt := 0)
    (q := child (root 2) 1) (f := 3) (ps := [4]) (by decide +kernel) (by decide +kernel)
  unfold allFaceTargets
  rw [show List.range (2 * 2) = [0, 1, 2, 3] from rfl]
  simp only [List.mapM_cons, List.mapM_nil, h0, h1, h2, h3]
  rfl

theorem mapM_mem {β γ : Type} {f : β → Option γ} : ∀ {l : List β} {ys : List γ}, l.mapM f = some ys →
    ∀ x ∈ l, ∃ y, f x = some y := by
  intro l
  induction l with
  | nil => intro ys _ x hx; simp at hx
  | cons a l ih =>
    intro ys h x hx
    rw [List.mapM_cons] at h
    obtain ⟨y, h1, h⟩ := Option.bind_eq_some_iff.mp h
    obtain ⟨zs, h2, -⟩ := Option.bind_eq_some_iff.mp h
    rcases List.mem_cons.mp hx with rfl | hx
    · exact ⟨y, h1⟩
    · exact ih h2 x hx

theorem mapM_get {β γ : Type} {f : β → Option γ} : ∀ {l : List β} {ys : List γ}, l.mapM f = some ys →
    ∀ {i : ℕ} {x}, l[i]? = some x → ys[i]? = f x := by
  intro l
  induction l with
  | nil => intro ys _ i x hx; simp at hx
  | cons a l ih =>
    intro ys h i x hx
    rw [List.mapM_cons] at h
    obtain ⟨y, h1, h⟩ := Option.bind_eq_some_iff.mp h
    obtain ⟨zs, h2, h⟩ := Option.bind_eq_some_iff.mp h
    have h : some (y :: zs) = some ys := h
    rw [Option.some.injEq] at h
    subst h
    cases i with
    | zero =>
      rw [List.getElem?_cons_zero, Option.some.injEq] at hx
      subst hx
      rw [h1]; rfl
    | succ i =>
      rw [List.getElem?_cons_succ] at hx ⊢
      exact ih h2 hx

theorem foldlM_mem {β τ : Type} {f : τ → β → Option τ} : ∀ {l : List β} {s s' : τ}, l.foldlM f s = some s' →
    ∀ x ∈ l, ∃ u u', f u x = some u' := by
  intro l
  induction l with
  | nil => intro s s' _ x hx; simp at hx
  | cons a l ih =>
    intro s s' h x hx
    rw [List.foldlM_cons] at h
    obtain ⟨u, h1, h⟩ := Option.bind_eq_some_iff.mp h
    rcases List.mem_cons.mp hx with rfl | hx
    · exact ⟨_, _, h1⟩
    · exact ih h x hx

/-- The buffers of a rank with one leaf. -/
theorem ghostLocal_single (hd : 0 < d) {conn : FaceConn} {trees : List (List (Quad d))} {P : ℕ}
    {leaves : ℕ → List (ℕ × Quad d)} (h : Distributed trees P leaves) {r : ℕ} (hr : r < P) {x : ℕ × Quad d} (hx : leaves r = [x])
    {targets : ℕ × Quad d → Option (List ℕ)} {ps : List ℕ} (ht : targets x = some ps) :
    ∃ full v st, fullTree (globalPartition leaves P trees.length) r x.1 x.1 x.1 = some full ∧
      neighborhoodOwned (globalPartition leaves P trees.length) P r x.1 full
        (treeContact (fun t f => conn.treeToTree.getD (2 * d * t + f) 0)
          (fun t f => conn.treeToFace.getD (2 * d * t + f) 0) x.1) x.2 = some v ∧
      ghostLocal conn (globalPartition leaves P trees.length) P r (leaves r) targets = some st ∧
      ∀ p, st.1.bufs p = if v = false ∧ p ∈ ps then [(x, 0)] else [] := by
  obtain ⟨s, hs⟩ := h.segments hd
  have hxm : x ∈ leaves r := by rw [hx]; simp
  obtain ⟨full, hf⟩ := fullTree_some hd h hr x.1 x.1 x.1
  obtain ⟨v, hv⟩ := neighborhoodOwned_some hd h hr (hs.leaf r hr x hxm).1 (hs.leaf r hr x hxm).2 full
    (treeContact (fun t f => conn.treeToTree.getD (2 * d * t + f) 0)
      (fun t f => conn.treeToFace.getD (2 * d * t + f) 0) x.1)
  have hps : ∀ y ∈ leaves r, targets y = some ps := by
    intro y hy; rw [hx] at hy; rw [List.mem_singleton.mp hy]; exact ht
  refine ⟨full, v, ?_⟩
  cases v with
  | false =>
    obtain ⟨st, e, g, -⟩ := ghostLocal_spec (conn := conn) (P := P) (r := r) (targets := targets) (S := fun _ p => p ∈ ps)
      (h.sorted.sublist (sublist_flatMap (List.mem_range.mpr hr) leaves)) (h.leaves_nodup hd hr)
      (fun a b t => fullTree_some hd h hr a b t)
      (fun y hy x0 xl h0 hl full' hf' => by
        rw [hx] at hy h0 hl
        rw [List.mem_singleton] at hy
        simp only [List.head?_cons, List.getLast?_singleton, Option.some.injEq] at h0 hl
        subst hy h0 hl
        rw [hf, Option.some.injEq] at hf'
        subst hf'
        exact ⟨false, hv, by simp⟩)
      (fun y hy => ⟨ps, hps y hy, fun _ => Iff.rfl⟩)
    refine ⟨st, hf, hv, e, fun p => ?_⟩
    rw [g.2.1 p, hx]
    by_cases c : p ∈ ps <;> simp [c]
  | true =>
    -- nothing is sent
    let none' : ℕ × Quad d → Option (List ℕ) := fun _ => some []
    obtain ⟨st, e, g, -⟩ := ghostLocal_spec (conn := conn) (P := P) (r := r) (targets := none') (S := fun _ _ => False)
      (h.sorted.sublist (sublist_flatMap (List.mem_range.mpr hr) leaves)) (h.leaves_nodup hd hr)
      (fun a b t => fullTree_some hd h hr a b t)
      (fun y hy x0 xl h0 hl full' hf' => by
        rw [hx] at hy h0 hl
        rw [List.mem_singleton] at hy
        simp only [List.head?_cons, List.getLast?_singleton, Option.some.injEq] at h0 hl
        subst hy h0 hl
        rw [hf, Option.some.injEq] at hf'
        subst hf'
        exact ⟨true, hv, by simp⟩)
      (fun y hy => ⟨[], rfl, by simp⟩)
    refine ⟨st, hf, hv, ?_, fun p => ?_⟩
    · rw [← e, hx]
      unfold ghostLocal
      simp only [List.head?_cons, List.getLast?_singleton]
      rw [show x.1 + 1 - x.1 = 1 by omega]
      simp only [List.range'_one, List.foldlM_cons, List.foldlM_nil, ghostTree, hf, Option.bind_eq_bind, Option.bind_some,
        List.zipIdx_singleton, List.filter_cons, decide_true, List.filter_nil, if_true, ghostLeaf, hv]
    · rw [g.2.1 p, hx]
      simp

/-- **C57**, the case left out: a tree with 88 leaves on five ranks, of which the second has one leaf of the smallest
size.  That rank waits forever for a message from the rank with the large leaf to its right. -/
theorem C57_ghost_single_cell_waits (mem : Fin 2 → ℤ) :
    FaceConsistent 2 oneSquare ∧ Distributed [cellTree] 5 cellLeaves ∧ cellLeaves 1 = [(0, cellPath 29)] ∧
    ghostNewFace mem oneSquare 5 cellLeaves = none := by
  refine ⟨oneSquare_consistent, cellLeaves_distributed, by decide +kernel, ?_⟩
  have e1 : cellLeaves 1 = [(0, cellPath 29)] := by decide +kernel
  have e3 : cellLeaves 3 = [(0, child (root 2) 1)] := by decide +kernel
  obtain ⟨full, v, st1, f1, v1, g1, b1⟩ := ghostLocal_single (by norm_num) (conn := oneSquare) cellLeaves_distributed
    (r := 1) (by norm_num) e1 (cell_targets mem)
  obtain ⟨-, v', st3, -, -, g3, b3⟩ := ghostLocal_single (by norm_num) (conn := oneSquare) cellLeaves_distributed
    (r := 3) (by norm_num) e3 (side_targets mem)
  have hv : v = false := by
    cases v with
    | false => rfl
    | true =>
      exfalso
      refine owned_no_neighbor (Or.inl rfl) oneSquare_consistent rfl cellLeaves_distributed (r := 1) (by norm_num)
        (x := (0, cellPath 29)) (x0 := (0, cellPath 29)) (xl := (0, cellPath 29)) (by rw [e1]; simp) (by rw [e1]; rfl)
        (by rw [e1]; rfl) f1 v1 (p := 3) (by norm_num) (by norm_num) (y := (0, child (root 2) 1)) (by rw [e3]; simp) ?_
      refine ⟨![2 ^ 29 - 1, 0], ?_, ![2 ^ 29, 0], ?_, ?_, ?_, Or.inl ⟨rfl, 0, ?_, Or.inl ?_⟩⟩
      · intro i; fin_cases i <;> decide +kernel
      · intro i; fin_cases i <;> decide +kernel
      · intro i; fin_cases i <;> decide
      · intro i; fin_cases i <;> decide
      · intro j hj; fin_cases j
        · exact absurd rfl hj
        · rfl
      · decide
  cases hres : ghostNewFace mem oneSquare 5 cellLeaves with
  | none => rfl
  | some gs =>
    exfalso
    unfold ghostNewFace ghostNewWith at hres
    obtain ⟨loc, h1, hres⟩ := Option.bind_eq_some_iff.mp hres
    have l1 : loc[1]? = some st1 := (mapM_get h1 (i := 1) rfl).trans g1
    have l3 : loc[3]? = some st3 := (mapM_get h1 (i := 3) rfl).trans g3
    obtain ⟨y, hy⟩ := mapM_mem hres (st1, 1) (List.mem_zipIdx_iff_getElem?.mpr l1)
    obtain ⟨z, hz, -⟩ := Option.bind_eq_some_iff.mp hy
    obtain ⟨u, u', hu⟩ := foldlM_mem hz 3 (by simp)
    simp only [l1, l3, b1, b3, hv] at hu
    simp at hu

end P4est
