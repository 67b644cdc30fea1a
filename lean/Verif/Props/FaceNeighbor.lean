import Verif.Props.Connectivity

/-! # C37: neighbors across the faces of trees -/

namespace P4est

open Spec

variable {d : ℕ}

/-- The entries of a consistent table. -/
theorem Spec.FaceConsistent.entries {conn : FaceConn} (h : FaceConsistent d conn) {t f : ℕ} (ht : t < conn.numTrees)
    (hf : f < 2 * d) : ∃ t' nf o, conn.treeToTree[2 * d * t + f]? = some t' ∧ conn.treeToFace[2 * d * t + f]? = some (nf + 2 * d * o) ∧
      t' < conn.numTrees ∧ nf < 2 * d ∧ o < 2 ^ (d - 1) := by
  have hlt : 2 * d * t + f < 2 * d * conn.numTrees := by
    have := Nat.mul_le_mul_left (2 * d) ht
    have e : 2 * d * t.succ = 2 * d * t + 2 * d := Nat.mul_succ _ _
    omega
  have h1 : conn.treeToTree[2 * d * t + f]? = some (conn.treeToTree[2 * d * t + f]'(by rw [h.trees]; exact hlt)) :=
    List.getElem?_eq_getElem _
  have h2 : conn.treeToFace[2 * d * t + f]? = some (conn.treeToFace[2 * d * t + f]'(by rw [h.faces]; exact hlt)) :=
    List.getElem?_eq_getElem _
  obtain ⟨r1, r2⟩ := h.range t f _ _ ht hf h1 h2
  set c := conn.treeToFace[2 * d * t + f]'(by rw [h.faces]; exact hlt)
  refine ⟨_, c % (2 * d), c / (2 * d), h1, by rw [h2, Nat.mod_add_div], r1, Nat.mod_lt _ (by omega), ?_⟩
  exact Nat.div_lt_of_lt_mul r2

theorem code_mod {d nf o : ℕ} (h : nf < 2 * d) : (nf + 2 * d * o) % (2 * d) = nf := by
  rw [Nat.add_mul_mod_self_left, Nat.mod_eq_of_lt h]

theorem code_div {d nf o : ℕ} (h : nf < 2 * d) : (nf + 2 * d * o) / (2 * d) = o := by
  rw [Nat.add_mul_div_left _ _ (by omega), Nat.div_eq_of_lt h, Nat.zero_add]

theorem isInsideRoot_iff {q : Quad d} : isInsideRoot q = true ↔ InRoot q := by
  unfold isInsideRoot InRoot
  simp only [decide_eq_true_eq]
  rfl

theorem neighbor_c (q : Quad d) (f : ℕ) (i : Fin d) : (faceNeighbor q f).c i =
    if (i : ℕ) = f / 2 then (if f % 2 = 1 then q.c i + side q else q.c i - side q) else q.c i := by
  unfold faceNeighbor
  simp only [qlen_eq_side]
  by_cases h : (i : ℕ) = f / 2
  · rw [if_pos h]
    by_cases h2 : f % 2 = 1
    · rw [if_neg (by omega), if_pos (by omega), if_pos h2]
    · rw [if_pos (by omega), if_neg h2]; ring
  · rw [if_neg h, if_neg (by omega), if_neg (by omega)]; ring

/-- The neighbor of a legal quadrant that is not in the tree is beyond the face. -/
theorem neighbor_beyond {q : Quad d} (hq : Valid q) {f : ℕ} (hf : f < 2 * d) (h : ¬ InRoot (faceNeighbor q f)) :
    Valid (⟨unacross f (faceNeighbor q f).c, q.level⟩ : Quad d) := by
  rw [valid_axis (show (⟨unacross f (faceNeighbor q f).c, q.level⟩ : Quad d).level ≤ 29 from hq.1)]
  have hv := (valid_axis hq.1).mp hq
  have hs := side_pos q
  have hR := side_dvd (show q.level ≤ 30 by have := hq.1; omega)
  intro i
  show InAxis (side q) (unacross f (faceNeighbor q f).c i)
  unfold unacross
  by_cases hi : (i : ℕ) = f / 2
  · rw [if_pos hi, neighbor_c, if_pos hi]
    have hout : ¬ (0 ≤ (faceNeighbor q f).c i ∧ (faceNeighbor q f).c i < 2 ^ 30) := by
      intro hin
      refine h fun j => ?_
      by_cases hj : (j : ℕ) = f / 2
      · rw [show j = i from Fin.ext (hj.trans hi.symm)]; exact hin
      · rw [neighbor_c, if_neg hj]; exact hq.2.2 j
    rw [neighbor_c, if_pos hi] at hout
    obtain ⟨h1, h2, h3⟩ := hv i
    have hle := Int.le_of_dvd (by norm_num) hR
    split
    · rename_i h4
      rw [if_pos h4] at hout
      refine ⟨dvd_sub (dvd_add h1 (dvd_refl _)) hR, by omega, by omega⟩
    · rename_i h4
      rw [if_neg h4] at hout
      refine ⟨dvd_add (dvd_sub h1 (dvd_refl _)) hR, by omega, by omega⟩
  · rw [if_neg hi, neighbor_c, if_neg hi]
    exact hv i

/-- The transformation takes the quadrant to the neighbor, seen from its neighbor's image. -/
theorem FTGood.neighbor {f nf : ℕ} {ft : FTransform} (h : FTGood d f nf ft) (q : Quad d) :
    faceNeighbor (⟨faceImage ft (-side q) (faceNeighbor q f).c, q.level⟩ : Quad d) nf = ⟨faceImage ft (-side q) q.c, q.level⟩ := by
  refine Quad.ext' ?_ rfl
  rw [h.all_target]
  have hs : side (⟨faceImage ft (-side q) (faceNeighbor q f).c, q.level⟩ : Quad d) = side q := rfl
  refine ⟨?_, ?_, fun hd => ?_⟩
  · rw [neighbor_c, if_neg (by rw [← h.tf]; exact h.tne)]
    show faceImage _ _ _ _ = faceImage _ _ _ _
    rw [h.image0, h.image0, neighbor_c, if_neg (by rw [← h.myf]; exact h.myne)]
  · rw [neighbor_c, if_pos h.tf, hs]
    show (if nf % 2 = 1 then faceImage _ _ _ _ + _ else faceImage _ _ _ _ - _) = faceImage _ _ _ _
    rw [h.image2, h.image2, neighbor_c, if_pos h.myf, normal_eq h.rev, normal_eq h.rev]
    split <;> split <;> ring
  · rw [neighbor_c, if_neg (by rw [← h.tf]; exact (h.t1 hd).2.2)]
    show faceImage _ _ _ _ = faceImage _ _ _ _
    rw [h.image1 hd, h.image1 hd, neighbor_c, if_neg (by rw [← h.myf]; exact (h.my1 hd).2.2)]

theorem neighbor_box (q : Quad d) (f : ℕ) :
    Box (faceNeighbor q f) = move (fun i => faceNormal f i * side q) '' Box q := by
  have hc : ∀ i, (faceNeighbor q f).c i = q.c i + faceNormal f i * side q := by
    intro i
    unfold faceNeighbor faceNormal
    simp only [qlen_eq_side]
    split
    · ring
    · split <;> ring
  have hs : side (faceNeighbor q f) = side q := rfl
  ext y
  constructor
  · intro hy
    refine ⟨fun i => y i - faceNormal f i * side q, fun i => ?_, by funext i; unfold move; ring⟩
    have := hy i
    rw [hc i, hs] at this
    constructor <;> linarith [this.1, this.2]
  · rintro ⟨x, hx, rfl⟩ i
    have := hx i
    rw [hc i, hs]
    unfold move
    constructor <;> linarith [this.1, this.2]

/-- C37. p4est_quadrant_face_neighbor_extra for a legal quadrant `q` of tree `t` and its face `f`, in a mesh
of trees with consistent face tables.  Either it returns a tree `t'` and a legal quadrant `r` of the same size:
then `r` covers, in the coordinates of `t'`, the points of `q` moved by its length across `f`; here the
coordinates of `t'` are those of `t` if the neighbor is in the same tree, and otherwise come from
the gluing of `t` and `t'` at face `f` with the orientation of the tables.  The function called for `r` and the
face that it returned leads back to `t` and `q` and the face `f`.  Or it returns nothing: then `q` lies at face
`f` of the tree, which is on the boundary of the domain. -/
theorem C37_face_neighbor_extra (hd : d = 2 ∨ d = 3) (conn : FaceConn) (hconn : FaceConsistent d conn) (q : Quad d) (hq : Valid q)
    (t f : ℕ) (ht : t < conn.numTrees) (hf : f < 2 * d) :
    ∃ res, (∀ mem, faceNeighborExtra mem conn q t f = some res) ∧
      (res = none → (∃ x ∈ Box q, OnFace f x) ∧ conn.treeToTree[2 * d * t + f]? = some t ∧ conn.treeToFace[2 * d * t + f]? = some f) ∧
      ∀ t' r code, res = some (t', r, code) → t' < conn.numTrees ∧ Valid r ∧ r.level = q.level ∧
        (∃ T, ((t' = t ∧ T = id) ∨ ∃ nf o, conn.treeToTree[2 * d * t + f]? = some t' ∧
            conn.treeToFace[2 * d * t + f]? = some (nf + 2 * d * o) ∧ nf < 2 * d ∧ (t' ≠ t ∨ nf ≠ f) ∧ Glues f nf o T) ∧
          Box r = T '' (move (fun i => faceNormal f i * side q) '' Box q)) ∧
        ∃ code', (∀ mem, faceNeighborExtra mem conn r t' (code % (2 * d)) = some (some (t, q, code'))) ∧ code' % (2 * d) = f := by
  by_cases hin : isInsideRoot (faceNeighbor q f) = true
  · -- in the same tree
    refine ⟨some (t, faceNeighbor q f, f ^^^ 1), fun mem => ?_, fun h => (by cases h), ?_⟩
    · unfold faceNeighborExtra
      dsimp only
      rw [if_pos hin]
    · intro t' r code h
      cases h
      obtain ⟨_, n2, _, n4⟩ := C14_face_neighbor q hq f
      have hx := xor_one_eq f
      have hlt : f ^^^ 1 < 2 * d := by rw [hx]; split <;> omega
      refine ⟨ht, ⟨hq.1, n2.2.1, isInsideRoot_iff.mp hin⟩, rfl, ⟨id, Or.inl ⟨rfl, rfl⟩, ?_⟩, f, fun mem => ?_, Nat.mod_eq_of_lt hf⟩
      · rw [Set.image_id]; exact neighbor_box q f
      · rw [Nat.mod_eq_of_lt hlt]
        unfold faceNeighborExtra
        dsimp only
        rw [n4, if_pos (isInsideRoot_iff.mpr hq.2.2)]
        congr 3
        rw [Nat.xor_assoc]; simp
  · obtain ⟨t', nf, o, e1, e2, ht', hnf, ho⟩ := hconn.entries ht hf
    have hout : ¬ InRoot (faceNeighbor q f) := fun h => hin (isInsideRoot_iff.mpr h)
    have hbeyond := neighbor_beyond hq hf hout
    have hfind : findFaceTransform d conn t f = if t' = t ∧ nf = f then some none else
        (expandFaceInternal d f nf o).map fun ft => some (t', ft) := by
      unfold findFaceTransform
      rw [e1, e2]
      simp only [Option.bind_eq_bind, Option.bind_some]
      rw [code_mod hnf, code_div hnf]
    by_cases hb : t' = t ∧ nf = f
    · refine ⟨none, fun mem => ?_, fun _ => ⟨?_, ?_, ?_⟩, fun t' r code h => (by cases h)⟩
      · unfold faceNeighborExtra
        dsimp only
        rw [if_neg hin, hfind, if_pos hb]
        rfl
      · -- the quadrant touches the face
        have hv := (valid_axis hq.1).mp hq
        have hw := (valid_axis (show (⟨unacross f (faceNeighbor q f).c, q.level⟩ : Quad d).level ≤ 29 from hq.1)).mp hbeyond
        have hs := side_pos q
        have hR := side_dvd (show q.level ≤ 30 by have := hq.1; omega)
        have hle : ∀ i, q.c i + side q ≤ 2 ^ 30 := by
          intro i
          obtain ⟨⟨k, hk⟩, h2, h3⟩ := hv i
          obtain ⟨m, hm⟩ := hR
          rw [hk] at h3 ⊢
          rw [hm] at h3 ⊢
          have h4 : k < m := lt_of_mul_lt_mul_left h3 hs.le
          have h5 : side q * (k + 1) ≤ side q * m := Int.mul_le_mul_of_nonneg_left (by omega) hs.le
          have h6 : side q * (k + 1) = side q * k + side q := by ring
          omega
        refine ⟨fun i => if f % 2 = 1 then q.c i + side q else q.c i, fun i => ?_, fun i => ?_, fun i hi => ?_⟩
        · dsimp only; split <;> omega
        · obtain ⟨h1, h2, h3⟩ := hv i
          have := hle i
          dsimp only
          split <;> omega
        · obtain ⟨h1, h2, h3⟩ := hv i
          obtain ⟨g1, g2, g3⟩ := hw i
          have := hle i
          dsimp only at g1 g2 g3
          unfold unacross at g1 g2 g3
          rw [if_pos hi, neighbor_c, if_pos hi] at g1 g2 g3
          dsimp only
          split
          · rename_i h4
            simp only [if_pos h4] at g2
            omega
          · rename_i h4
            simp only [if_neg h4] at g3
            exact Int.eq_zero_of_dvd_of_nonneg_of_lt h2 (by omega) h1
      · rw [e1, hb.1]
      · rw [e2, hb.2]
        rw [hb.1] at e1
        rw [hb.2] at e2
        rw [hconn.boundary t f o ht hf e1 e2]
        simp
    · obtain ⟨ft, he, h⟩ := expand_good hd hf hnf ho
      obtain ⟨ft', he', h'⟩ := expand_good hd hnf hf ho
      have hi := expand_inverse hd hf hnf ho he he'
      have hi' := expand_inverse hd hnf hf ho he' he
      set r : Quad d := ⟨faceImage ft (-side q) (faceNeighbor q f).c, q.level⟩ with hr
      have hrv : Valid r := by
        have := (h.valid_into (⟨unacross f (faceNeighbor q f).c, q.level⟩ : Quad d) hq.1).mp hbeyond
        dsimp only at this
        rw [across_unacross] at this
        exact this
      obtain ⟨b1, b2⟩ := hconn.back t f t' nf o ht hf hnf e1 e2
      refine ⟨some (t', r, nf + 2 * d * o), fun mem => ?_, fun h => (by cases h), ?_⟩
      · unfold faceNeighborExtra
        dsimp only
        rw [if_neg hin, hfind, if_neg hb, he]
        simp only [Option.map_some, Option.bind_some]
        rw [h.quadrant mem (show (faceNeighbor q f).level ≤ 29 from hq.1), Nat.mul_comm t, e2]
        rfl
      · intro t'' r' code hres
        cases hres
        refine ⟨ht', hrv, rfl, ⟨faceImage ft 0, Or.inr ⟨nf, o, e1, e2, hnf, ?_, (expand_glues hd hf hnf ho he).2⟩, ?_⟩,
          f + 2 * d * o, fun mem => ?_, code_mod hf⟩
        · by_cases c : t' = t
          · exact Or.inr fun c' => hb ⟨c, c'⟩
          · exact Or.inl c
        · rw [← neighbor_box]
          ext y
          constructor
          · intro hy
            refine ⟨faceImage ft' 0 y, ?_, hi'.image h' h 0 y⟩
            rw [h.box, hi'.image h' h]; exact hy
          · rintro ⟨x, hx, rfl⟩
            exact (h.box _ x).mp hx
        · rw [code_mod hnf]
          have hn := h.neighbor q
          have hnout : isInsideRoot (faceNeighbor r nf) ≠ true := by
            rw [hr, hn]
            intro hc
            rw [isInsideRoot_iff] at hc
            have hval := (h'.valid_into (⟨unacross nf (faceImage ft (-side q) q.c), q.level⟩ : Quad d) hq.1)
            have hs' : side (⟨unacross nf (faceImage ft (-side q) q.c), q.level⟩ : Quad d) = side q := rfl
            rw [hs'] at hval
            dsimp only at hval
            rw [across_unacross, hi.image h h'] at hval
            have hval := hval.mpr hq
            have k1 := hc ⟨ft.target2, h.t2⟩
            have k2 := hval.2.2 ⟨ft.target2, h.t2⟩
            dsimp only at k1 k2
            unfold unacross at k2
            rw [if_pos h.tf] at k2
            split at k2 <;> omega
          have hfind' : findFaceTransform d conn t' nf = some (some (t, ft')) := by
            unfold findFaceTransform
            rw [b1, b2]
            simp only [Option.bind_eq_bind, Option.bind_some]
            rw [code_mod hf, code_div hf, if_neg (fun c => hb ⟨c.1.symm, c.2.symm⟩), he']
            rfl
          unfold faceNeighborExtra
          dsimp only
          rw [if_neg hnout, hfind']
          simp only [Option.bind_some]
          rw [h'.quadrant mem (show (faceNeighbor r nf).level ≤ 29 from hq.1), Nat.mul_comm t', b2]
          simp only [Option.map_some, Option.bind_some]
          congr 4
          show (⟨faceImage ft' (-side q) (faceNeighbor r nf).c, q.level⟩ : Quad d) = q
          rw [hr, hn]
          dsimp only
          rw [hi.image h h']

/-- C37. The checks that p4est_connectivity_is_valid makes on the faces accept exactly the consistent tables. -/
theorem C37_face_checks (hd : 0 < d) (conn : FaceConn) (h1 : conn.treeToTree.length = 2 * d * conn.numTrees)
    (h2 : conn.treeToFace.length = 2 * d * conn.numTrees) :
    (∀ t f, t < conn.numTrees → f < 2 * d → faceCheck d conn t f = some true) ↔ FaceConsistent d conn := by
  have hlt : ∀ t f, t < conn.numTrees → f < 2 * d → 2 * d * t + f < 2 * d * conn.numTrees := by
    intro t f ht hf
    have := Nat.mul_le_mul_left (2 * d) ht
    have e : 2 * d * t.succ = 2 * d * t + 2 * d := Nat.mul_succ _ _
    omega
  have hsplit : ∀ c : ℕ, c = c % (2 * d) + 2 * d * (c / (2 * d)) := fun c => (Nat.mod_add_div c (2 * d)).symm
  constructor
  · intro h
    have key : ∀ t f t' nf o, t < conn.numTrees → f < 2 * d → nf < 2 * d → conn.treeToTree[2 * d * t + f]? = some t' →
        conn.treeToFace[2 * d * t + f]? = some (nf + 2 * d * o) → t' < conn.numTrees ∧ nf + 2 * d * o < 2 * d * 2 ^ (d - 1) ∧
          (t' = t → nf = f → o = 0) ∧
          (t' ≠ t ∨ nf ≠ f → conn.treeToTree[2 * d * t' + nf]? = some t ∧ conn.treeToFace[2 * d * t' + nf]? = some (f + 2 * d * o)) := by
      intro t f t' nf o ht hf hnf e1 e2
      have := h t f ht hf
      unfold faceCheck at this
      rw [Nat.mul_comm t, e1, e2] at this
      simp only [Option.bind_eq_bind, Option.bind_some] at this
      rw [code_mod hnf, code_div hnf] at this
      split at this
      · simp at this
      rename_i c1
      push Not at c1
      split at this
      · simp at this
      rename_i c2
      push Not at c2
      refine ⟨c1.1, c1.2, fun a b => c2 a b, fun c => ?_⟩
      rw [if_pos c, Nat.mul_comm t'] at this
      cases e3 : conn.treeToTree[2 * d * t' + nf]? with
      | none => rw [e3] at this; simp at this
      | some x =>
        cases e4 : conn.treeToFace[2 * d * t' + nf]? with
        | none => rw [e3, e4] at this; simp at this
        | some y =>
          rw [e3, e4] at this
          simp at this
          rw [this.1, this.2]; exact ⟨rfl, rfl⟩
    refine ⟨h1, h2, fun t f t' c ht hf e1 e2 => ?_, fun t f t' nf o ht hf hnf e1 e2 => ?_, fun t f o ht hf e1 e2 => ?_⟩
    · rw [hsplit c] at e2 ⊢
      obtain ⟨a, b, _, _⟩ := key t f t' _ _ ht hf (Nat.mod_lt _ (by omega)) e1 e2
      exact ⟨a, b⟩
    · obtain ⟨_, _, a, b⟩ := key t f t' nf o ht hf hnf e1 e2
      by_cases c : t' ≠ t ∨ nf ≠ f
      · exact b c
      · push Not at c
        obtain ⟨rfl, rfl⟩ := c
        exact ⟨e1, e2⟩
    · exact (key t f t f o ht hf hf e1 e2).2.2.1 rfl rfl
  · intro h t f ht hf
    obtain ⟨t', nf, o, e1, e2, ht', hnf, ho⟩ := h.entries ht hf
    obtain ⟨b1, b2⟩ := h.back t f t' nf o ht hf hnf e1 e2
    unfold faceCheck
    rw [Nat.mul_comm t, e1, e2]
    simp only [Option.bind_eq_bind, Option.bind_some]
    rw [code_mod hnf, code_div hnf, Nat.mul_comm t', b1, b2]
    have hc := (h.range t f _ _ ht hf e1 e2).2
    rw [if_neg (by push Not; exact ⟨ht', hc⟩), if_neg]
    · split
      · simp
      · rfl
    · rintro ⟨a, b, c⟩
      rw [a] at e1
      rw [b] at e2
      exact c (h.boundary t f o ht hf e1 e2)

/-- A mesh that meets the hypotheses: two squares, the right face of the first glued to the upper face of the
second in the opposite direction, all other faces on the boundary. -/
def twoSquares : FaceConn := ⟨2, [0, 1, 0, 0, 1, 1, 1, 0], [0, 3 + 4, 2, 3, 0, 1, 2, 1 + 4]⟩

example : FaceConsistent 2 twoSquares := by
  rw [← C37_face_checks (by norm_num) _ rfl rfl]
  intro t f ht hf
  have ht : t < 2 := ht
  interval_cases t <;> interval_cases f <;> decide +kernel

example : faceNeighborExtra (fun _ => 5) twoSquares (⟨![2 ^ 29, 0], 1⟩ : Quad 2) 0 1 = some (some (1, ⟨![2 ^ 29, 2 ^ 29], 1⟩, 7)) ∧
    faceNeighborExtra (fun _ => 5) twoSquares (⟨![2 ^ 29, 2 ^ 29], 1⟩ : Quad 2) 1 3 = some (some (0, ⟨![2 ^ 29, 0], 1⟩, 5)) ∧
    faceNeighborExtra (fun _ => 5) twoSquares (⟨![2 ^ 29, 0], 1⟩ : Quad 2) 0 2 = some none ∧
    Valid (⟨![2 ^ 29, 0], 1⟩ : Quad 2) := by
  refine ⟨by decide +kernel, by decide +kernel, by decide +kernel, ?_⟩
  rw [← isValid_iff]
  decide +kernel

end P4est
