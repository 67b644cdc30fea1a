import Verif.Lemmas.CornerFull
import Verif.Props.Ghost
import Verif.Props.CornerCheck

/-! # C58: the ghost layer across faces and corners in two dimensions -/

namespace P4est
open Spec

/-- **C58.**  `p4est_ghost_new` with `P4EST_CONNECT_FULL` terminates on all ranks of every distributed forest of squares,
and each rank `r` obtains as ghosts exactly the leaves of other ranks that have a common point with a leaf of
its own, in the order of the ranks and within a rank in the order of its leaves, each with its number there;
offsets, mirrors and the lists of mirrors per rank are as for C57.

Partial: no rank may have one single leaf of the smallest size, see `C57_ghost_single_cell_waits`, and each corner of
a tree that is the same as another one must lie on a connected face of the tree, see
`C58_ghost_corner_missing` and `C58_ghost_corner_waits`. -/
theorem C58_ghost_full_partial (conn : FaceConn) (hconn : FaceConsistent 2 conn) (cc : CornerConn)
    (hcc : CornerConsistent conn.numTrees cc) (hcf : CornersOnFaces conn cc) (trees : List (List (Quad 2)))
    (hn : conn.numTrees = trees.length) (P : ℕ) (leaves : ℕ → List (ℕ × Quad 2)) (h : Distributed trees P leaves)
    (hone : ∀ p < P, ∀ x, leaves p = [x] → x.2.level ≠ 29) (mem : Fin 2 → ℤ) :
    ∃ gs : List (GhostLayer 2), ghostNewFull mem conn cc P leaves = some gs ∧ gs.length = P ∧
      ∀ r < P, ∃ g, gs[r]? = some g ∧
        g.ghosts = ghostsOf (Meet conn cc) leaves P r ∧
        CutInto g.ghosts g.procOffsets P (fun p => seenBy (Meet conn cc) leaves p r) ∧
        CutInto g.ghosts g.treeOffsets conn.numTrees (fun t => g.ghosts.filter fun x => decide (x.1.1 = t)) ∧
        g.mirrors = mirrorsOf (Meet conn cc) leaves P r ∧
        CutInto g.mirrors g.mirrorTreeOffsets conn.numTrees (fun t => g.mirrors.filter fun x => decide (x.1.1 = t)) ∧
        ∃ piece, CutInto g.mirrorProcMirrors g.mirrorProcOffsets P piece ∧
          ∀ p < P, (piece p).map (fun i => g.mirrors[i]?) = (seenBy (Meet conn cc) leaves r p).map some := by
  obtain ⟨s, hs⟩ := h.segments (by norm_num)
  have hsymm : ∀ r < P, ∀ p < P, ∀ x ∈ leaves r, ∀ y ∈ leaves p, Meet conn cc x y → Meet conn cc y x := fun r hr p hp x hx y hy hm =>
    meet_symm hconn hcc (by rw [hn]; exact (hs.leaf r hr x hx).1) hm
  have key := ghostNewWith_spec (by norm_num) hn h hsymm
    (targets := fun r => allTargets mem conn cc (globalPartition leaves P trees.length) P r)
    (fun r hr x hx => allTargets_spec hconn hcc hn h hone hr hx mem)
    (fun r hr x hx x0 xl h0 hl full hf hown p hp hpr y hy =>
      owned_no_meet hconn hcf hn h hr hx h0 hl hf hown hp hpr hy)
  unfold ghostNewFull
  rw [hn]
  rw [hn] at key
  exact key

/-! ### A ghost layer -/

/-- The four children of a square, one on each rank. -/
def fourLeaves (r : ℕ) : List (ℕ × Quad 2) := ((childrenv (root 2)).drop r |>.take 1).map fun q => (0, q)

theorem four_distributed : Distributed [childrenv (root 2)] 4 fourLeaves where
  complete := by
    have h1 := children_path (root_valid (d := 2)).aligned (root_valid (d := 2)).int32 (by decide)
    rw [start_root, stop_root] at h1
    simp only [List.mem_singleton, forall_eq]
    refine treeComplete_of_path ?_ h1
    intro q hq
    exact (valid_child (by norm_num) root_valid (by decide) hq).1
  someTree := by simp
  split := by decide +kernel

/-- `torus` with its four children on four ranks meets the hypotheses, and the last child is a ghost of the first rank by
a corner of the tree. -/
example : FaceConsistent 2 torus ∧ CornerConsistent 1 torusCorners ∧ CornersOnFaces torus torusCorners ∧
    torus.numTrees = [childrenv (root 2)].length ∧ Distributed [childrenv (root 2)] 4 fourLeaves ∧
    (∀ p < 4, ∀ x, fourLeaves p = [x] → x.2.level ≠ 29) ∧
    (((0, child (root 2) 3), 0) : (ℕ × Quad 2) × ℕ) ∈ ghostsOf (Meet torus torusCorners) fourLeaves 4 0 ∧
    SameCorner torusCorners (0, 3) (0, 0) := by
  have hsame : SameCorner torusCorners (0, 3) (0, 0) :=
    ⟨0, by decide, rfl, 0, 4, 0, rfl, rfl, le_rfl, by norm_num, rfl, rfl⟩
  refine ⟨torus_consistent, torus_corners, ?_, rfl, four_distributed, ?_, ?_, hsame⟩
  · rintro t c t' c' hc hc' ⟨k, hk, h1, -⟩ -
    have ht : t = 0 := by
      have := (List.getElem?_eq_some_iff.mp h1).1
      simp only [torusCorners, List.length_cons, List.length_nil] at this
      omega
    subst ht
    refine ⟨if c.testBit 0 then 1 else 0, by split <;> norm_num, ?_, ?_⟩
    · interval_cases c <;> exact ⟨by intro i; fin_cases i <;> decide, by intro i; fin_cases i <;> decide⟩
    · interval_cases c <;> decide
  · intro p hp x hx
    have : x = (0, child (root 2) p) := by
      interval_cases p <;> (have h : fourLeaves _ = _ := hx; simpa [fourLeaves, childrenv, List.range_succ] using hx.symm)
    rw [this]
    simp [child, root]
  · unfold ghostsOf
    rw [List.mem_flatMap]
    refine ⟨3, by simp, mem_seenBy.mpr ⟨by decide +kernel, ?_⟩⟩
    refine ⟨by norm_num, (0, child (root 2) 0), by decide +kernel, Or.inr ⟨3, 0, by norm_num, by norm_num, hsame, ?_, ?_⟩⟩
    · intro i; fin_cases i <;> decide +kernel
    · intro i; fin_cases i <;> decide +kernel

/-! ### Trees that are connected at a corner only -/

/-- Two squares that are not connected across faces. -/
def apart : FaceConn := ⟨2, [0, 0, 0, 0, 1, 1, 1, 1], [0, 1, 2, 3, 0, 1, 2, 3]⟩

/-- The last corner of the first square is the first corner of the second. -/
def apartCorners : CornerConn := ⟨1, [-1, -1, -1, 0, 0, -1, -1, -1], [0, 2], [0, 1], [3, 0]⟩

/-- One leaf on each rank. -/
def apartLeaves (r : ℕ) : List (ℕ × Quad 2) := if r < 2 then [(r, root 2)] else []

theorem apart_consistent : FaceConsistent 2 apart := by
  rw [← C37_face_checks (by norm_num) _ rfl rfl]
  intro t f ht hf
  have ht : t < 2 := ht
  interval_cases t <;> interval_cases f <;> decide +kernel

theorem apart_corners : CornerConsistent 2 apartCorners :=
  (C59_corner_checks_partial apart apart_consistent (by decide) apartCorners ⟨fun _ => rfl, rfl, rfl, rfl⟩).1.mp (by decide +kernel)

theorem apart_distributed : Distributed [[root 2], [root 2]] 2 apartLeaves where
  complete := by
    have h2 : Path 0 [root 2] (2 ^ (2 * 30)) := ⟨start_root.symm, stop_root⟩
    simp only [List.mem_cons, List.not_mem_nil, or_false, forall_eq_or_imp, forall_eq]
    exact ⟨treeComplete_of_path (by simp only [List.mem_singleton, forall_eq]; exact root_valid) h2,
      treeComplete_of_path (by simp only [List.mem_singleton, forall_eq]; exact root_valid) h2⟩
  someTree := by simp
  split := by decide +kernel

/-- **C58**, a case left out: the leaves of two squares that are connected at a corner have a common point, but no rank
has a ghost.  `p4est_ghost_new` skips leaves of a rank that owns the whole tree unless they touch a connected
face of the tree. -/
theorem C58_ghost_corner_missing (mem : Fin 2 → ℤ) :
    FaceConsistent 2 apart ∧ CornerConsistent 2 apartCorners ∧ Distributed [[root 2], [root 2]] 2 apartLeaves ∧
    apartLeaves 0 = [(0, root 2)] ∧ apartLeaves 1 = [(1, root 2)] ∧ Meet apart apartCorners (0, root 2) (1, root 2) ∧
    (ghostNewFull mem apart apartCorners 2 apartLeaves).map (fun gs => gs.map fun g => g.ghosts) = some [[], []] := by
  refine ⟨apart_consistent, apart_corners, apart_distributed, rfl, rfl, ?_, ?_⟩
  · refine Or.inr ⟨3, 0, by norm_num, by norm_num, ⟨0, by decide, rfl, 0, 2, 1, rfl, rfl, by norm_num, by norm_num, rfl, rfl⟩, ?_, ?_⟩
    · intro i; fin_cases i <;> decide +kernel
    · intro i; fin_cases i <;> decide +kernel
  · rfl

/-- The two squares of `apart`, and a third one to the right of the second. -/
def apartThree : FaceConn := ⟨3, [0, 0, 0, 0, 1, 2, 1, 1, 1, 2, 2, 2], [0, 1, 2, 3, 0, 0, 2, 3, 1, 1, 2, 3]⟩

/-- The last corner of the first square is the first corner of the second. -/
def apartThreeCorners : CornerConn := ⟨1, [-1, -1, -1, 0, 0, -1, -1, -1, -1, -1, -1, -1], [0, 2], [0, 1], [3, 0]⟩

/-- One leaf on each rank. -/
def apartThreeLeaves (r : ℕ) : List (ℕ × Quad 2) := if r < 3 then [(r, root 2)] else []

theorem apartThree_consistent : FaceConsistent 2 apartThree := by
  rw [← C37_face_checks (by norm_num) _ rfl rfl]
  intro t f ht hf
  have ht : t < 3 := ht
  interval_cases t <;> interval_cases f <;> decide +kernel

theorem apartThree_corners : CornerConsistent 3 apartThreeCorners :=
  (C59_corner_checks_partial apartThree apartThree_consistent (by decide) apartThreeCorners ⟨fun _ => rfl, rfl, rfl, rfl⟩).1.mp
    (by decide +kernel)

theorem apartThree_distributed : Distributed [[root 2], [root 2], [root 2]] 3 apartThreeLeaves where
  complete := by
    have h2 : Path 0 [root 2] (2 ^ (2 * 30)) := ⟨start_root.symm, stop_root⟩
    have h3 := treeComplete_of_path (by simp only [List.mem_singleton, forall_eq]; exact root_valid) h2
    simp only [List.mem_cons, List.not_mem_nil, or_false, forall_eq_or_imp, forall_eq]
    exact ⟨h3, h3, h3⟩
  someTree := by simp
  split := by decide +kernel

/-- **C58**, a case left out: with a third square to the right of the second, the second rank does not skip its leaf, and
waits forever for a message from the first, which does. -/
theorem C58_ghost_corner_waits (mem : Fin 2 → ℤ) :
    FaceConsistent 2 apartThree ∧ CornerConsistent 3 apartThreeCorners ∧
    Distributed [[root 2], [root 2], [root 2]] 3 apartThreeLeaves ∧
    (∀ p < 3, ∀ x, apartThreeLeaves p = [x] → x.2.level ≠ 29) ∧
    ghostNewFull mem apartThree apartThreeCorners 3 apartThreeLeaves = none := by
  have hone : ∀ p < 3, ∀ x, apartThreeLeaves p = [x] → x.2.level ≠ 29 := by
    intro p hp x hx
    simp only [apartThreeLeaves, if_pos hp, List.cons.injEq, and_true] at hx
    rw [← hx]
    simp [root]
  refine ⟨apartThree_consistent, apartThree_corners, apartThree_distributed, hone, ?_⟩
  have e0 : apartThreeLeaves 0 = [(0, root 2)] := rfl
  have e1 : apartThreeLeaves 1 = [(1, root 2)] := rfl
  have hmeet : Meet apartThree apartThreeCorners (1, root 2) (0, root 2) := by
    refine Or.inr ⟨0, 3, by norm_num, by norm_num, ⟨0, by decide, rfl, 0, 2, 0, rfl, rfl, by norm_num, by norm_num, rfl, rfl⟩, ?_, ?_⟩
    · intro i; fin_cases i <;> decide +kernel
    · intro i; fin_cases i <;> decide +kernel
  obtain ⟨ps0, t0, -⟩ := allTargets_spec apartThree_consistent apartThree_corners rfl apartThree_distributed hone (r := 0) (by norm_num)
    (x := (0, root 2)) (by rw [e0]; simp) mem
  obtain ⟨ps1, t1, m1⟩ := allTargets_spec apartThree_consistent apartThree_corners rfl apartThree_distributed hone (r := 1) (by norm_num)
    (x := (1, root 2)) (by rw [e1]; simp) mem
  have hm : 0 ∈ ps1 := (m1 0).mpr ⟨by norm_num, by norm_num, (0, root 2), by rw [e0]; simp, hmeet⟩
  obtain ⟨full0, v0, st0, f0, o0, g0, b0⟩ := ghostLocal_single (by norm_num) (conn := apartThree) apartThree_distributed
    (r := 0) (by norm_num) e0 t0
  obtain ⟨full1, v1, st1, f1, o1, g1, b1⟩ := ghostLocal_single (by norm_num) (conn := apartThree) apartThree_distributed
    (r := 1) (by norm_num) e1 t1
  have hv0 : v0 = true := by
    rw [show full0 = (true, true) from (Option.some.inj (f0.symm.trans (by decide +kernel)))] at o0
    exact Option.some.inj (o0.symm.trans (by decide +kernel))
  have hv1 : v1 = false := by
    rw [show full1 = (true, true) from (Option.some.inj (f1.symm.trans (by decide +kernel)))] at o1
    exact Option.some.inj (o1.symm.trans (by decide +kernel))
  cases hres : ghostNewFull mem apartThree apartThreeCorners 3 apartThreeLeaves with
  | none => rfl
  | some gs =>
    exfalso
    unfold ghostNewFull ghostNewWith at hres
    obtain ⟨loc, h1, hres⟩ := Option.bind_eq_some_iff.mp hres
    have l0 : loc[0]? = some st0 := (mapM_get h1 (i := 0) rfl).trans g0
    have l1 : loc[1]? = some st1 := (mapM_get h1 (i := 1) rfl).trans g1
    obtain ⟨y, hy⟩ := mapM_mem hres (st1, 1) (List.mem_zipIdx_iff_getElem?.mpr l1)
    obtain ⟨z, hz, -⟩ := Option.bind_eq_some_iff.mp hy
    obtain ⟨u, u', hu⟩ := foldlM_mem hz 0 (by simp)
    simp only [l0, l1, b0, b1, hv0, hv1, hm] at hu
    simp at hu

end P4est
