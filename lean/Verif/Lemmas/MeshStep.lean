import Verif.Lemmas.MeshFace

/-! # One call of the callback of the mesh for faces -/

namespace P4est
open Spec

variable {d : ℕ}

/-- The input for the mesh of one rank. -/
structure MeshWorld (conn : FaceConn) (forest : List (ℕ × Quad d)) (rt : RankTrees (Quad d)) (mine : List (ℕ × Quad d)) (g : GhostLayer d) :
    Prop where
  dim : d = 2 ∨ d = 3
  consistent : FaceConsistent d conn
  split : forestLeaves rt.trees = mine
  nodup : mine.Nodup
  cover : ∀ t b, t < conn.numTrees → InTree b → ∃ q, (t, q) ∈ forest ∧ b ∈ Cells q
  all : ∀ x ∈ mine, ∀ y ∈ forest, ShareFace conn x y → y ∈ mine ∨ y ∈ ghostArg (some g)

section Step

variable {conn : FaceConn} {forest : List (ℕ × Quad d)} {rt : RankTrees (Quad d)} {mine : List (ℕ × Quad d)} {g : GhostLayer d}
  {m : Mesh} {done : (ℕ × Quad d) × ℕ → Prop}

/-- Something is known next to a local leaf. -/
theorem MeshWorld.known (W : MeshWorld conn forest rt mine g) {z : ℕ × Quad d} (hz : z ∈ mine) {f e o : ℕ} {u v : ℕ × Quad d}
    (j : Joined conn f e o u v) (hu : u.1 = z.1) (hsub : Cells u.2 ⊆ Cells z.2) {x : FaceSlot d}
    (hx : SlotShows (knownBy rt (some g)) v.1 v.2 x) : x.quad ≠ none := by
  rcases hx with ⟨n, -, rfl⟩ | ⟨n, -, rfl⟩ | ⟨rfl, hx⟩
  · simp
  · simp
  · exfalso
    obtain ⟨a, ha⟩ : ∃ a, CellAtFace f u.2 a := layer_nonempty u.2 f
    obtain ⟨b, hb, hf⟩ := j.same.2.2.2.1 a ha
    obtain ⟨q, hq, hbq⟩ := W.cover v.1 b j.tree' hf.2.1
    have hs : ShareFace conn z (v.1, q) := ⟨a, hsub ha.1, b, hbq, by rw [← hu]; exact facetOf_shares j.face j.face' hf⟩
    have hk : (knownBy rt (some g)).Has (v.1, q) := by
      rcases W.all z hz _ hq hs with h | h
      · left
        rw [← W.split, mem_forest_iff] at h
        exact h
      · right
        exact h
    exact Set.disjoint_left.mp (hx _ hk rfl) hbq hb.1

theorem slot_mine (W : MeshWorld conn forest rt mine g) {t : ℕ} {q : Quad d} {x : FaceSlot d}
    (hx : SlotShows (knownBy rt (some g)) t q x) (hg : x.isGhost = false) : (t, q) ∈ mine ∧ x.quad = some q := by
  rcases hx with ⟨n, h1, rfl⟩ | ⟨n, h1, rfl⟩ | ⟨rfl, -⟩
  · refine ⟨?_, rfl⟩
    rw [← W.split, mem_forest_iff]
    exact List.mem_of_getElem? h1
  · cases hg
  · cases hg

theorem mem_slotFaces {t f : ℕ} {q : Quad d} {x : FaceSlot d} (hq : x.quad = some q) {e : (ℕ × Quad d) × ℕ} :
    e ∈ slotFaces t f x ↔ x.isGhost = false ∧ e = ((t, q), f) := by
  unfold slotFaces
  rw [hq]
  cases x.isGhost <;> simp

/-- At the boundary of the domain. -/
theorem step_outside (W : MeshWorld conn forest rt mine g) (I : MeshInv conn mine (ghostArg (some g)) m done) {info : FaceInfo d}
    {s : FaceSide d} {a : Quad d} {x : FaceSlot d} (hs : s.face < 2 * d) (hdata : s.data = .full x)
    (boundary : info.treeBoundary = true) (orientation : info.orientation = 0)
    (tree : conn.treeToTree[2 * d * s.tree + s.face]? = some s.tree) (face : conn.treeToFace[2 * d * s.tree + s.face]? = some s.face)
    (at_face : ∀ b, CellAtFace s.face a b → AtFace s.face b) (hx : SlotShows (knownBy rt (some g)) s.tree a x) (hl : x.isGhost = false) :
    ∃ m', meshOutside rt m info s = some m' ∧ MeshInv conn mine (ghostArg (some g)) m' (fun e => e ∈ sideFaces s ∨ done e) ∧
      m'.rest = m.rest := by
  have hq := (slot_mine W hx hl).2
  obtain ⟨j, h1, -, -, h2⟩ := slot_number W.split I.num hx (by rw [hq]; simp)
  obtain ⟨m', k1, k2, k3⟩ := I.put W.dim W.nodup (h2 hl) hs
    (.outside (q := (j : ℤ)) (v := (s.face : ℤ)) (half := m.quadToHalf) at_face tree face rfl rfl)
  refine ⟨m', ?_, k2.congr fun e => ?_, k3⟩
  · unfold meshOutside
    rw [hdata]
    dsimp only
    rw [if_pos ⟨orientation, boundary, hl⟩, h1]
    exact k1
  · unfold sideFaces
    rw [hdata]
    simp only [SideData.slots, List.flatMap_cons, List.flatMap_nil, List.append_nil]
    rw [mem_slotFaces hq]
    simp [hl]

theorem joined_entry {f e o : ℕ} {u v : ℕ × Quad d} (j : Joined conn f e o u v) {L : List (ℕ × Quad d)} {half : List (List ℕ)} {i n : ℕ}
    (hn : L[n]? = some v) : FaceEntry conn L half i u f (n : ℤ) (2 * d * o + e) :=
  .same n v e o j.face' j.orientation rfl hn j.same j.oriented (by push_cast; ring)

/-- Two leaves of the same size. -/
theorem step_same (W : MeshWorld conn forest rt mine g) (I : MeshInv conn mine (ghostArg (some g)) m done) {o : ℕ}
    {s s' : FaceSide d} {a a' : Quad d} {x x' : FaceSlot d} (hdata : s.data = .full x) (hdata' : s'.data = .full x')
    (j : Joined conn s.face s'.face o (s.tree, a) (s'.tree, a')) (hx : SlotShows (knownBy rt (some g)) s.tree a x)
    (hx' : SlotShows (knownBy rt (some g)) s'.tree a' x') (hl : x.isGhost = false ∨ x'.isGhost = false)
    (hnd : (sideFaces s ++ sideFaces s').Nodup) (hfree : ∀ e ∈ sideFaces s ++ sideFaces s', ¬ done e) :
    ∃ m', meshSame rt m o s s' x x' = some m' ∧
      MeshInv conn mine (ghostArg (some g)) m' (fun e => e ∈ sideFaces s ++ sideFaces s' ∨ done e) ∧ m'.rest = m.rest := by
  have j' := j.symm W.dim W.consistent
  have hq : x.quad ≠ none ∧ x'.quad ≠ none := by
    rcases hl with h | h
    · obtain ⟨h1, h2⟩ := slot_mine W hx h
      exact ⟨by rw [h2]; simp, W.known h1 j rfl le_rfl hx'⟩
    · obtain ⟨h1, h2⟩ := slot_mine W hx' h
      exact ⟨W.known h1 j' rfl le_rfl hx, by rw [h2]; simp⟩
  obtain ⟨n, e1, e2, e3, e4⟩ := slot_number W.split I.num hx hq.1
  obtain ⟨n', e1', e2', e3', e4'⟩ := slot_number W.split I.num hx' hq.2
  have hm1 : ∀ e, e ∈ sideFaces s ↔ x.isGhost = false ∧ e = ((s.tree, a), s.face) := by
    intro e
    unfold sideFaces
    rw [hdata]
    simp only [SideData.slots, List.flatMap_cons, List.flatMap_nil, List.append_nil]
    exact mem_slotFaces e3
  have hm2 : ∀ e, e ∈ sideFaces s' ↔ x'.isGhost = false ∧ e = ((s'.tree, a'), s'.face) := by
    intro e
    unfold sideFaces
    rw [hdata']
    simp only [SideData.slots, List.flatMap_cons, List.flatMap_nil, List.append_nil]
    exact mem_slotFaces e3'
  unfold meshSame
  rw [if_neg (by rcases hl with h | h <;> simp [h]), e1, e1']
  simp only [Option.bind_eq_bind, Option.bind_some]
  -- the first side
  obtain ⟨m1, k1, k2, k3⟩ : ∃ m1, (ifLocal x.isGhost m fun m => meshWrite d m n s.face n' (2 * d * o + s'.face)) = some m1 ∧
      MeshInv conn mine (ghostArg (some g)) m1 (fun e => e ∈ sideFaces s ∨ done e) ∧ m1.rest = m.rest := by
    unfold ifLocal
    by_cases c : x.isGhost = true
    · rw [if_pos c]
      refine ⟨m, rfl, I.congr fun e => ?_, rfl⟩
      rw [hm1]
      simp [c]
    · rw [if_neg c]
      have c : x.isGhost = false := by simpa using c
      obtain ⟨m1, k1, k2, k3⟩ := I.write W.dim W.nodup (e4 c) j.face
        (hfree _ (List.mem_append_left _ ((hm1 _).mpr ⟨c, rfl⟩))) (joined_entry j e2')
      refine ⟨m1, k1, k2.congr fun e => ?_, k3⟩
      rw [hm1]
      simp [c]
  rw [k1]
  simp only [Option.bind_some]
  unfold ifLocal
  by_cases c : x'.isGhost = true
  · rw [if_pos c]
    refine ⟨m1, rfl, k2.congr fun e => ?_, k3⟩
    rw [List.mem_append, hm2]
    simp [c]
  · rw [if_neg c]
    have c : x'.isGhost = false := by simpa using c
    have hmem := (hm2 _).mpr ⟨c, rfl⟩
    obtain ⟨m2, l1, l2, l3⟩ := k2.write W.dim W.nodup (e4' c) j.face' (fun hc => by
      rcases hc with hc | hc
      · exact (List.nodup_append.mp hnd).2.2 _ hc _ hmem rfl
      · exact hfree _ (List.mem_append_right _ hmem) hc) (joined_entry j' e2)
    refine ⟨m2, l1, l2.congr fun e => ?_, l3.trans k3⟩
    rw [List.mem_append, hm2 e]
    constructor
    · rintro (h | h | h)
      · exact Or.inl (Or.inr ⟨c, h⟩)
      · exact Or.inl (Or.inl h)
      · exact Or.inr h
    · rintro ((h | h) | h)
      · exact Or.inr (Or.inl h)
      · exact Or.inl h.2
      · exact Or.inr (Or.inr h)

/-- What is known about the small quadrant at corner `h` of the face of the large one. -/
structure HalfAt (conn : FaceConn) (rt : RankTrees (Quad d)) (mine gl : List (ℕ × Quad d)) (m : Mesh) (o : ℕ) (s s' : FaceSide d)
    (a a' : Quad d) (x : FaceSlot d) (xs : List (FaceSlot d)) (h pos k k' : ℕ) (y : FaceSlot d) (i : ℕ) : Prop where
  pos_lt : pos < 2 ^ (d - 1)
  touches : faceNeighborFaceCorner d h s.face s'.face o = some pos
  back : faceNeighborFaceCorner d pos s'.face s.face o = some h
  corner : faceCorner d s.face h = some k
  corner' : faceCorner d s'.face pos = some k'
  joined : Joined conn s.face s'.face o (s.tree, kid a k) (s'.tree, kid a' k')
  slot : xs[pos]? = some y
  quad : y.isGhost = false → y.quad = some (kid a' k')
  number : (x.isGhost && y.isGhost) = false → slotNumber m rt s'.tree y = some i ∧ (mine ++ gl)[i]? = some (s'.tree, kid a' k') ∧
    (y.isGhost = false → mine[i]? = some (s'.tree, kid a' k'))

theorem half_at (W : MeshWorld conn forest rt mine g) (hm : m.localNum = mine.length) {o : ℕ} {s s' : FaceSide d} {a a' : Quad d}
    {x : FaceSlot d} {xs : List (FaceSlot d)} (j : Joined conn s.face s'.face o (s.tree, a) (s'.tree, a'))
    (hx : SlotShows (knownBy rt (some g)) s.tree a x) (hlev : a'.level < 29)
    (hxs : ∀ i < 2 ^ (d - 1), ∃ k y, faceCorner d s'.face i = some k ∧ xs[i]? = some y ∧
      SlotShows (knownBy rt (some g)) s'.tree (kid a' k) y) {h : ℕ} (hh : h < 2 ^ (d - 1)) :
    ∃ pos k k' y i, HalfAt conn rt mine (ghostArg (some g)) m o s s' a a' x xs h pos k k' y i := by
  have hl : a.level < 29 := by have := j.same.2.2.1; dsimp only at this; omega
  obtain ⟨pos, k, k', e1, e2, e3, e4, e5, e6⟩ := j.kid W.dim W.consistent hl hh
  obtain ⟨k2, y, e7, e8, e9⟩ := hxs pos e1
  obtain rfl : k2 = k' := by rw [e5] at e7; exact (Option.some.inj e7).symm
  have hq : (x.isGhost && y.isGhost) = false → y.quad ≠ none := by
    intro c
    rw [Bool.and_eq_false_iff] at c
    rcases c with c | c
    · have := (slot_mine W hx c).1
      refine W.known this e6 rfl ?_ e9
      exact (kid_subset (by have := W.dim; omega) j.same.1 hl (faceCorner_lt e4)).1
    · rw [(slot_mine W e9 c).2]; simp
  by_cases c : (x.isGhost && y.isGhost) = false
  · obtain ⟨i, n1, n2, n3, n4⟩ := slot_number W.split hm e9 (hq c)
    exact ⟨pos, k, k2, y, i, e1, e2, e3, e4, e5, e6, e8, fun _ => n3, fun _ => ⟨n1, n2, n4⟩⟩
  · exact ⟨pos, k, k2, y, 0, e1, e2, e3, e4, e5, e6, e8, fun c' => absurd (by simp [c']) c, fun c' => absurd c' c⟩

theorem kid_inj_face (hd : d = 2 ∨ d = 3) {a : Quad d} (ha : Valid a) (hl : a.level < 29) {k k' : ℕ} (hk : k < 2 ^ d) (hk' : k' < 2 ^ d)
    (h : kid a k = kid a k') : k = k' := by
  refine Nat.eq_of_testBit_eq fun i => ?_
  by_cases hi : i < d
  · have h1 := congrFun (congrArg Quad.c h) ⟨i, hi⟩
    rw [kid_c, kid_c, ← h] at h1
    have hs := side_pos (kid a k)
    dsimp only at h1
    cases c1 : k.testBit i <;> cases c2 : k'.testBit i <;> simp [c1, c2] at h1 ⊢ <;> omega
  · have hle : 2 ^ d ≤ 2 ^ i := Nat.pow_le_pow_right (by omega) (by omega)
    rw [Nat.testBit_lt_two_pow (by omega), Nat.testBit_lt_two_pow (by omega)]

/-- A large leaf and the small ones. -/
theorem step_hang (W : MeshWorld conn forest rt mine g) (I : MeshInv conn mine (ghostArg (some g)) m done) {o : ℕ}
    {s s' : FaceSide d} {a a' : Quad d} {x : FaceSlot d} {xs : List (FaceSlot d)} (hdata : s.data = .full x) (hdata' : s'.data = .hanging xs)
    (j : Joined conn s.face s'.face o (s.tree, a) (s'.tree, a')) (hx : SlotShows (knownBy rt (some g)) s.tree a x) (hxq : x.quad ≠ none)
    (hlev : a'.level < 29) (hlen : xs.length = 2 ^ (d - 1))
    (hxs : ∀ i < 2 ^ (d - 1), ∃ k y, faceCorner d s'.face i = some k ∧ xs[i]? = some y ∧
      SlotShows (knownBy rt (some g)) s'.tree (kid a' k) y)
    (hfree : ∀ e, e ∈ sideFaces s ∨ e ∈ sideFaces s' → ¬ done e) :
    ∃ m', meshHang rt m o s s' x xs = some m' ∧
      MeshInv conn mine (ghostArg (some g)) m' (fun e => e ∈ sideFaces s ∨ e ∈ sideFaces s' ∨ done e) ∧ m'.rest = m.rest := by
  have hd := W.dim
  have hla : a.level = a'.level := j.same.2.2.1
  have hv' : Valid a' := j.same.2.1
  obtain ⟨n, e1, e2, e3, e4⟩ := slot_number W.split I.num hx hxq
  have hex : ∀ h, ∃ pos k k' y i, h < 2 ^ (d - 1) → HalfAt conn rt mine (ghostArg (some g)) m o s s' a a' x xs h pos k k' y i := by
    intro h
    by_cases hh : h < 2 ^ (d - 1)
    · obtain ⟨pos, k, k', y, i, H⟩ := half_at W I.num j hx hlev hxs hh
      exact ⟨pos, k, k', y, i, fun _ => H⟩
    · exact ⟨0, 0, 0, ⟨none, 0, false⟩, 0, fun c => absurd c hh⟩
  choose pos k k' y i H using hex
  have hm1 : ∀ e, e ∈ sideFaces s ↔ x.isGhost = false ∧ e = ((s.tree, a), s.face) := by
    intro e
    unfold sideFaces
    rw [hdata]
    simp only [SideData.slots, List.flatMap_cons, List.flatMap_nil, List.append_nil]
    exact mem_slotFaces e3
  have hm2 : ∀ e, e ∈ sideFaces s' ↔ ∃ h < 2 ^ (d - 1), (y h).isGhost = false ∧ e = ((s'.tree, kid a' (k' h)), s'.face) := by
    intro e
    unfold sideFaces
    rw [hdata', List.mem_flatMap]
    simp only [SideData.slots]
    constructor
    · rintro ⟨z, hz, he⟩
      obtain ⟨p, hp, rfl⟩ := List.mem_iff_getElem.mp hz
      have hp' : p < 2 ^ (d - 1) := by omega
      obtain ⟨-, p', -, -, -, -, -, -, q4, -, q5⟩ := touch hd j.face' j.face j.orientation hp'
      have HH := H p' q4
      have hpp : pos p' = p := by
        have := HH.touches
        rw [q5] at this
        exact (Option.some.inj this).symm
      have hy : xs[p] = y p' := by
        have := HH.slot
        rw [hpp, List.getElem?_eq_getElem hp] at this
        exact Option.some.inj this
      rw [hy] at he
      by_cases c : (y p').isGhost = false
      · exact ⟨p', q4, c, ((mem_slotFaces (HH.quad c)).mp he).2⟩
      · exfalso
        have c : (y p').isGhost = true := by simpa using c
        unfold slotFaces at he
        rw [c] at he
        simp at he
    · rintro ⟨h, hh, hg, rfl⟩
      have HH := H h hh
      refine ⟨y h, List.mem_of_getElem? HH.slot, (mem_slotFaces (HH.quad hg)).mpr ⟨hg, rfl⟩⟩
  have hnum : (List.range (2 ^ (d - 1))).mapM (halfNumber rt m o s s' x xs) =
      some ((List.range (2 ^ (d - 1))).map fun h => if x.isGhost && (y h).isGhost then none else some (i h)) := by
    refine mapM_some fun h hh => ?_
    have HH := H h (List.mem_range.mp hh)
    unfold halfNumber
    rw [HH.touches]
    simp only [Option.bind_eq_bind, Option.bind_some]
    rw [HH.slot]
    simp only [Option.bind_some]
    by_cases c : (x.isGhost && (y h).isGhost) = true
    · rw [if_pos c, if_pos c]
    · rw [if_neg c, if_neg c, (HH.number (by simpa using c)).1]
      rfl
  set jls := (List.range (2 ^ (d - 1))).map fun h => if x.isGhost && (y h).isGhost then none else some (i h) with hjls
  unfold meshHang
  rw [e1]
  simp only [Option.bind_eq_bind, Option.bind_some]
  rw [hnum]
  simp only [Option.bind_some]
  -- the large one
  obtain ⟨m1, k1, k2, k3⟩ : ∃ m1, (ifLocal x.isGhost m fun m => meshLarge m o s s' n jls) = some m1 ∧
      MeshInv conn mine (ghostArg (some g)) m1 (fun e => e ∈ sideFaces s ∨ done e) ∧ m1.rest = m.rest := by
    unfold ifLocal
    by_cases c : x.isGhost = true
    · rw [if_pos c]
      refine ⟨m, rfl, I.congr fun e => ?_, rfl⟩
      rw [hm1]
      simp [c]
    · rw [if_neg c]
      have c : x.isGhost = false := by simpa using c
      set ns := (List.range (2 ^ (d - 1))).map i with hns
      have hall : jls.mapM id = some ns := by
        rw [hjls, hns]
        have : ((List.range (2 ^ (d - 1))).map fun h => if x.isGhost && (y h).isGhost then none else some (i h)) =
            ns.map some := by
          rw [hns, List.map_map]
          refine List.map_congr_left fun h _ => ?_
          simp [c]
        rw [this]
        exact (mapM_some (g := fun z => z.getD 0) (l := ns.map some) (f := id) (by
          intro z hz
          obtain ⟨u, -, rfl⟩ := List.mem_map.mp hz
          rfl)).trans (by rw [List.map_map]; simp [Function.comp_def, hns])
      have hent : FaceEntry conn (mine ++ ghostArg (some g)) (m.quadToHalf ++ [ns]) n (s.tree, a) s.face (m.quadToHalf.length : ℤ)
          (2 * d * ((o : ℤ) - 2 ^ (d - 1)) + s'.face) := by
        refine .half m.quadToHalf.length s'.tree ns s'.face o j.face' j.orientation rfl ?_ ?_ ?_ j.oriented (by push_cast; ring)
        · rw [List.getElem?_append_right le_rfl, Nat.sub_self]
          rfl
        · rw [hns, List.length_map, List.length_range]
        · intro h hh
          have HH := H h hh
          refine ⟨i h, kid a' (k' h), k h, ?_, (HH.number (by simp [c])).2.1, HH.corner, HH.joined.same⟩
          rw [hns, List.getElem?_map, List.getElem?_range hh]
          rfl
      obtain ⟨m2, l1, l2, l3⟩ := (I.append [ns]).write hd W.nodup (e4 c) j.face (hfree _ (Or.inl ((hm1 _).mpr ⟨c, rfl⟩))) hent
      obtain ⟨m3, l4, l5⟩ := write_half l1
      refine ⟨m2, ?_, l2.congr fun e => ?_, l3⟩
      · unfold meshLarge
        beta_reduce
        rw [l4]
        simp only [Option.bind_eq_bind, Option.bind_some]
        rw [hall]
        simp only [Option.bind_some]
        rw [l5]
      · rw [hm1]
        simp [c]
  rw [k1]
  simp only [Option.bind_some]
  -- the small ones
  have hfold : ∀ N ≤ 2 ^ (d - 1), ∃ m', (List.range N).foldlM (meshSmall o s s' n xs jls) m1 = some m' ∧
      MeshInv conn mine (ghostArg (some g)) m' (fun e => (∃ h < N, (y h).isGhost = false ∧ e = ((s'.tree, kid a' (k' h)), s'.face)) ∨
        e ∈ sideFaces s ∨ done e) ∧ m'.rest = m.rest := by
    intro N
    induction N with
    | zero =>
      intro _
      refine ⟨m1, rfl, k2.congr fun e => ?_, k3⟩
      simp
    | succ N ih =>
      intro hN
      obtain ⟨m2, l1, l2, l3⟩ := ih (by omega)
      have HH := H N hN
      rw [List.range_succ, List.foldlM_append, l1]
      simp only [Option.bind_eq_bind, Option.bind_some, List.foldlM_cons, List.foldlM_nil]
      unfold meshSmall
      rw [HH.touches]
      simp only [Option.bind_eq_bind, Option.bind_some]
      rw [HH.slot]
      simp only [Option.bind_some]
      by_cases c : (y N).isGhost = true
      · rw [if_pos c]
        refine ⟨m2, rfl, l2.congr fun e => ?_, l3⟩
        refine or_congr_left ⟨fun ⟨h, hh, h2⟩ => ⟨h, by omega, h2⟩, fun ⟨h, hh, h1, h2⟩ => ?_⟩
        refine ⟨h, ?_, h1, h2⟩
        by_contra hc
        obtain rfl : h = N := by omega
        rw [c] at h1
        cases h1
      · rw [if_neg c]
        have c : (y N).isGhost = false := by simpa using c
        obtain ⟨p1, p2, p3⟩ := HH.number (by simp [c])
        have hj : jls[N]? = some (some (i N)) := by
          rw [hjls, List.getElem?_map, List.getElem?_range hN]
          simp [c]
        rw [hj]
        simp only [Option.bind_some]
        have js := HH.joined.symm hd W.consistent
        have hent : FaceEntry conn (mine ++ ghostArg (some g)) m2.quadToHalf (i N) (s'.tree, kid a' (k' N)) s'.face (n : ℤ)
            (2 * d * (o + (N + 1) * 2 ^ (d - 1)) + s.face) :=
          .double n (s.tree, a) s.face o N (k N) j.face j.orientation hN rfl e2 HH.corner js.same js.oriented (by push_cast; ring)
        have hfr : ¬ ((∃ h < N, (y h).isGhost = false ∧ ((s'.tree, kid a' (k' N)), s'.face) = ((s'.tree, kid a' (k' h)), s'.face)) ∨
            ((s'.tree, kid a' (k' N)), s'.face) ∈ sideFaces s ∨ done ((s'.tree, kid a' (k' N)), s'.face)) := by
          intro hc
          rcases hc with ⟨h, hh, h1, h2⟩ | h | h
          · have H2 := H h (by omega)
            have h3 : kid a' (k' N) = kid a' (k' h) := (Prod.ext_iff.mp (Prod.ext_iff.mp h2).1).2
            have h4 := kid_inj_face hd hv' hlev (faceCorner_lt HH.corner') (faceCorner_lt H2.corner') h3
            have h5 := HH.corner'
            rw [h4] at h5
            have h6 := faceCorner_inj hd j.face' HH.pos_lt H2.pos_lt h5 H2.corner'
            have h7 := HH.back
            rw [h6, H2.back, Option.some.injEq] at h7
            omega
          · obtain ⟨-, h⟩ := (hm1 _).mp h
            have h3 : kid a' (k' N) = a := (Prod.ext_iff.mp (Prod.ext_iff.mp h).1).2
            have h4 : (kid a' (k' N)).level = a'.level + 1 := rfl
            rw [h3] at h4
            omega
          · exact hfree _ (Or.inr ((hm2 _).mpr ⟨N, hN, c, rfl⟩)) h
        obtain ⟨m3, q1, q2, q3⟩ := l2.write hd W.nodup (p3 c) j.face' hfr hent
        · refine ⟨m3, by rw [q1]; rfl, q2.congr fun e => ?_, q3.trans l3⟩
          constructor
          · rintro (h | ⟨h, hh, h2⟩ | h)
            · exact Or.inl ⟨N, by omega, c, h⟩
            · exact Or.inl ⟨h, by omega, h2⟩
            · exact Or.inr h
          · rintro (⟨h, hh, h1, h2⟩ | h)
            · by_cases hc : h = N
              · subst hc
                exact Or.inl h2
              · exact Or.inr (Or.inl ⟨h, by omega, h1, h2⟩)
            · exact Or.inr (Or.inr h)
  obtain ⟨m', l1, l2, l3⟩ := hfold _ le_rfl
  refine ⟨m', l1, l2.congr fun e => ?_, l3⟩
  rw [hm2]
  exact or_left_comm

end Step

end P4est
