import Verif.Lemmas.IterateGeom

/-! # The search on volumes -/

namespace P4est
open Spec

variable {d : ℕ}

/-! ### Which call comes first -/

/-- The volume callback for the leaf is among the calls. -/
def Shown (l : List (IterCall d)) (x : ℕ × Quad d) : Prop := ∃ n, IterCall.volume x.1 x.2 n ∈ l

/-- Each call lists only local leaves whose volume was shown before. -/
def AfterVolumes (l : List (IterCall d)) : Prop :=
  ∀ pre c post, l = pre ++ c :: post → ∀ e ∈ localFaces c, Shown pre e.1

theorem AfterVolumes.nil : AfterVolumes ([] : List (IterCall d)) := by
  intro pre c post h
  simp at h

theorem AfterVolumes.append {l m : List (IterCall d)} (hl : AfterVolumes l)
    (hm : ∀ pre c post, m = pre ++ c :: post → ∀ e ∈ localFaces c, Shown (l ++ pre) e.1) : AfterVolumes (l ++ m) := by
  intro pre c post h e he
  rcases List.append_eq_append_iff.mp h with ⟨x, h1, h2⟩ | ⟨x, h1, h2⟩
  · rw [h1]
    exact hm x c post h2 e he
  · cases x with
    | nil =>
      rw [List.append_nil] at h1
      rw [List.nil_append] at h2
      have := hm [] c post h2.symm e he
      rwa [List.append_nil, h1] at this
    | cons y x =>
      rw [List.cons_append, List.cons.injEq] at h2
      exact hl pre c x (by rw [h1, h2.1]) e he

theorem Shown.mono {l m : List (IterCall d)} {x : ℕ × Quad d} (h : Shown l x) (hs : l ⊆ m) : Shown m x := by
  obtain ⟨n, hn⟩ := h
  exact ⟨n, hs hn⟩

theorem AfterVolumes.and {l m : List (IterCall d)} (hl : AfterVolumes l) (hm : AfterVolumes m) : AfterVolumes (l ++ m) :=
  hl.append fun pre c post h e he => (hm pre c post h e he).mono (by simp)

theorem AfterVolumes.faces {l m : List (IterCall d)} (hl : AfterVolumes l) (hm : ∀ c ∈ m, ∀ e ∈ localFaces c, Shown l e.1) :
    AfterVolumes (l ++ m) :=
  hl.append fun pre c post h e he => (hm c (by rw [h]; simp) e he).mono (by simp)

theorem AfterVolumes.flatten {ls : List (List (IterCall d))} (h : ∀ l ∈ ls, AfterVolumes l) : AfterVolumes ls.flatten := by
  induction ls with
  | nil => exact .nil
  | cons l ls ih =>
    rw [List.flatten_cons]
    exact (h l (by simp)).and (ih fun m hm => h m (by simp [hm]))

/-! ### Pairs of faces and children -/

/-- The faces of children inside their parent, as pairs of face and child, in the order of the searches. -/
def facePairs (d dir pos : ℕ) : List (ℕ × ℕ) :=
  [(2 * dir + 1, (entry (faceCornersTable d) (2 * dir) pos).getD 0), (2 * dir, (entry (faceCornersTable d) (2 * dir + 1) pos).getD 0)]

def allPairs (d : ℕ) : List (ℕ × ℕ) :=
  (List.range d).flatMap fun dir => (List.range (2 ^ (d - 1))).flatMap fun pos => facePairs d dir pos

theorem allPairs_spec2 : (allPairs 2).Nodup ∧ (∀ f : Fin 4, ∀ k : Fin 4, ((f : ℕ), (k : ℕ)) ∈ allPairs 2 ↔ ¬ OnFaceBit f k) ∧
    ∀ x ∈ allPairs 2, x.1 < 4 ∧ x.2 < 4 := by decide +kernel

theorem allPairs_spec3 : (allPairs 3).Nodup ∧ (∀ f : Fin 6, ∀ k : Fin 8, ((f : ℕ), (k : ℕ)) ∈ allPairs 3 ↔ ¬ OnFaceBit f k) ∧
    ∀ x ∈ allPairs 3, x.1 < 6 ∧ x.2 < 8 := by decide +kernel

theorem allPairs_spec (hd : d = 2 ∨ d = 3) : (allPairs d).Nodup ∧ (∀ f < 2 * d, ∀ k < 2 ^ d, (f, k) ∈ allPairs d ↔ ¬ OnFaceBit f k) ∧
    ∀ x ∈ allPairs d, x.1 < 2 * d ∧ x.2 < 2 ^ d := by
  rcases hd with rfl | rfl
  · exact ⟨allPairs_spec2.1, fun f hf k hk => allPairs_spec2.2.1 ⟨f, hf⟩ ⟨k, hk⟩, allPairs_spec2.2.2⟩
  · exact ⟨allPairs_spec3.1, fun f hf k hk => allPairs_spec3.2.1 ⟨f, hf⟩ ⟨k, hk⟩, allPairs_spec3.2.2⟩

theorem row_childList2 : ∀ f : Fin 4, ∃ l, (faceCornersTable 2)[(f : ℕ)]? = some l ∧ l.length = 2 ∧ l.Nodup ∧ (∀ k ∈ l, k < 4) ∧
    ∀ k : Fin 4, (k : ℕ) ∈ l ↔ OnFaceBit f k := by
  intro f
  have h : ∀ f : Fin 4, (match (faceCornersTable 2)[(f : ℕ)]? with
    | some l => decide (l.length = 2 ∧ l.Nodup ∧ (∀ k ∈ l, k < 4) ∧ ∀ k : Fin 4, (k : ℕ) ∈ l ↔ OnFaceBit f k)
    | none => false) = true := by decide +kernel
  have := h f
  split at this
  · rename_i l e
    exact ⟨l, e, of_decide_eq_true this⟩
  · cases this

theorem row_childList3 : ∀ f : Fin 6, ∃ l, (faceCornersTable 3)[(f : ℕ)]? = some l ∧ l.length = 4 ∧ l.Nodup ∧ (∀ k ∈ l, k < 8) ∧
    ∀ k : Fin 8, (k : ℕ) ∈ l ↔ OnFaceBit f k := by
  intro f
  have h : ∀ f : Fin 6, (match (faceCornersTable 3)[(f : ℕ)]? with
    | some l => decide (l.length = 4 ∧ l.Nodup ∧ (∀ k ∈ l, k < 8) ∧ ∀ k : Fin 8, (k : ℕ) ∈ l ↔ OnFaceBit f k)
    | none => false) = true := by decide +kernel
  have := h f
  split at this
  · rename_i l e
    exact ⟨l, e, of_decide_eq_true this⟩
  · cases this

theorem row_childList (hd : d = 2 ∨ d = 3) {f : ℕ} (hf : f < 2 * d) : ∃ l, (faceCornersTable d)[f]? = some l ∧ ChildList d f l := by
  rcases hd with rfl | rfl
  · obtain ⟨l, h1, h2, h3, h4, h5⟩ := row_childList2 ⟨f, hf⟩
    exact ⟨l, h1, h2, h3, fun k => ⟨fun hk => ⟨h4 k hk, (h5 ⟨k, h4 k hk⟩).mp hk⟩, fun hk => (h5 ⟨k, hk.1⟩).mpr hk.2⟩⟩
  · obtain ⟨l, h1, h2, h3, h4, h5⟩ := row_childList3 ⟨f, hf⟩
    exact ⟨l, h1, h2, h3, fun k => ⟨fun hk => ⟨h4 k hk, (h5 ⟨k, h4 k hk⟩).mp hk⟩, fun hk => (h5 ⟨k, hk.1⟩).mpr hk.2⟩⟩

/-! ### Windows one after the other -/

theorem windows_concat {β : Type} (arr : List β) (T : ℕ → ℕ) : ∀ n, (∀ k < n, T k ≤ T (k + 1)) → T n ≤ arr.length →
    (List.range n).flatMap (fun k => ((arr.drop (T k)).take (T (k + 1) - T k)).zipIdx (T k)) =
      ((arr.drop (T 0)).take (T n - T 0)).zipIdx (T 0) ∧ T 0 ≤ T n := by
  intro n
  induction n with
  | zero => intro _ _; simp
  | succ n ih =>
    intro h hn
    have hnn := h n (by omega)
    obtain ⟨h1, h2⟩ := ih (fun k hk => h k (by omega)) (by omega)
    refine ⟨?_, by omega⟩
    rw [List.range_succ, List.flatMap_append, h1, List.flatMap_cons, List.flatMap_nil, List.append_nil]
    have e : (arr.drop (T 0)).take (T (n + 1) - T 0) =
        (arr.drop (T 0)).take (T n - T 0) ++ (arr.drop (T n)).take (T (n + 1) - T n) := by
      have e1 : T (n + 1) - T 0 = (T n - T 0) + (T (n + 1) - T n) := by omega
      rw [e1, List.take_add, List.drop_drop]
      congr 3
      omega
    rw [e, List.zipIdx_append, List.length_take, List.length_drop]
    congr 2
    omega

section World

variable {conn : FaceConn} {Leaf : ℕ → Quad d → Prop} {Lt Gt : ℕ → List (Quad d)} {G : List (Quad d)} {goff : ℕ → ℕ}

/-- Face `e.2` of the local leaf `e.1` of tree `t` lies inside the area. -/
def Inner (Lt : ℕ → List (Quad d)) (e : (ℕ × Quad d) × ℕ) (t : ℕ) (a : Quad d) : Prop :=
  e.1.1 = t ∧ e.2 < 2 * d ∧ e.1.2 ∈ Lt t ∧ Cells e.1.2 ⊆ Cells a ∧ ¬ OnSide e.2 e.1.2 a

/-- An area of one tree with its windows. -/
structure VolArea (conn : FaceConn) (Lt Gt : ℕ → List (Quad d)) (G : List (Quad d)) (goff : ℕ → ℕ) (t : ℕ) (a : Quad d)
    (loc gho : Window) : Prop where
  tree : t < conn.numTrees
  valid : Valid a
  loc : AreaWin (Lt t) 0 (Lt t).length (Lt t) a loc
  gho : AreaWin G (goff t) (goff (t + 1)) (Gt t) a gho
  free : ∀ q, Kn Lt Gt t q → ¬ Cells a ⊂ Cells q

/-- The areas between which a tree is searched. -/
def InnerSpots (t dir : ℕ) (X : List (Spot d)) : Prop :=
  ∃ x y : Spot d, X = [x, y] ∧ InnerPair t dir x y ∧
    (∀ k ∈ x.toChild, k < 2 ^ d ∧ OnFaceBit x.face k) ∧ ∀ k ∈ y.toChild, k < 2 ^ d ∧ OnFaceBit y.face k

/-- A call for a face inside tree `t`. -/
def InnerCall (Lt Gt : ℕ → List (Quad d)) (G : List (Quad d)) (goff : ℕ → ℕ) (t : ℕ) (c : FaceInfo d) : Prop :=
  ∃ dir, CallOk Lt Gt G goff (InnerSpots t dir) 0 false c

theorem entry_eq {T : List (List ℕ)} {f i k : ℕ} {l : List ℕ} (h : T[f]? = some l) (e : entry T f i = some k) : l[i]? = some k := by
  unfold entry at e
  rw [h] at e
  simpa using e

theorem volumeFace_spec (hd : d = 2 ∨ d = 3) (hconn : FaceConsistent d conn) (W : IterWorld conn Leaf Lt Gt) {t : ℕ} {a : Quad d}
    {loc gho : Window} (h : VolArea conn Lt Gt G goff t a loc gho) (hl : a.level < 29) (hn : ¬ Kn Lt Gt t a) {dir pos : ℕ}
    (hdir : dir < d) (hpos : pos < 2 ^ (d - 1)) :
    ∃ calls, volumeFace G t (Lt t) (a.level + 1) (iterTier (Lt t) a.level loc) (iterTier G a.level gho) dir pos = some calls ∧
      (∀ c ∈ calls, InnerCall Lt Gt G goff t c) ∧
      ∀ e, (calls.flatMap fun c => localFaces (.face c)).count e =
        ((facePairs d dir pos).map fun x => ind (AtSide Lt e t x.1 (kid a x.2))).sum := by
  have hd0 : 0 < d := by omega
  obtain ⟨k, k', h1, h2, h3, h4, h5⟩ := inner_table hd hdir hpos
  obtain ⟨up, u1, u2⟩ := row_childList hd (f := 2 * dir + 1) (by omega)
  obtain ⟨lo, l1, l2⟩ := row_childList hd (f := 2 * dir) (by omega)
  obtain ⟨wl, x1, x2⟩ := h.loc.tier hd0 h.valid hl (fun q hq => W.valid _ q (W.loc _ q hq)) (W.lsort _) (fun c => hn (Or.inl c)) h4
  obtain ⟨wg, x3, x4⟩ := h.gho.tier hd0 h.valid hl (fun q hq => W.valid _ q (W.gho _ q hq)) (W.gsort _) (fun c => hn (Or.inr c)) h4
  obtain ⟨wl', y1, y2⟩ := h.loc.tier hd0 h.valid hl (fun q hq => W.valid _ q (W.loc _ q hq)) (W.lsort _) (fun c => hn (Or.inl c)) h3
  obtain ⟨wg', y3, y4⟩ := h.gho.tier hd0 h.valid hl (fun q hq => W.valid _ q (W.gho _ q hq)) (W.gsort _) (fun c => hn (Or.inr c)) h3
  set s0 : IterSide d := ⟨t, 2 * dir + 1, up, Lt t, wl, wg⟩ with hs0
  set s1 : IterSide d := ⟨t, 2 * dir, lo, Lt t, wl', wg'⟩ with hs1
  have ev : volumeFace G t (Lt t) (a.level + 1) (iterTier (Lt t) a.level loc) (iterTier G a.level gho) dir pos =
      faceIterate G 0 false 31 (a.level + 1) ([(s0, kid a k'), (s1, kid a k)].map Prod.fst) := by
    unfold volumeFace
    rw [u1, l1]
    simp only [Option.bind_eq_bind, Option.bind_some]
    rw [entry_eq u1 h1, entry_eq l1 h2]
    simp only [Option.bind_some]
    rw [x1, x3, y1, y3]
    rfl
  have A0 : SideArea conn Lt Gt G goff s0 (kid a k') :=
    ⟨h.tree, by show 2 * dir + 1 < _; omega, u2, kid_valid h.valid hl _, rfl, x2, x4, free_kid hd0 W h.valid hl hn h.free h4⟩
  have A1 : SideArea conn Lt Gt G goff s1 (kid a k) :=
    ⟨h.tree, by show 2 * dir < _; omega, l2, kid_valid h.valid hl _, rfl, y2, y4, free_kid hd0 W h.valid hl hn h.free h3⟩
  have hpair : InnerPair t dir (spot (s0, kid a k')) (spot (s1, kid a k)) := by
    refine ⟨hdir, rfl, rfl, rfl, rfl, u1.symm, l1.symm, kid_valid h.valid hl _, kid_valid h.valid hl _, ?_⟩
    show kid a k = faceNeighbor (kid a k') (2 * dir + 1)
    have hs := side_kid hl k
    have hs' : side (kid a k') = side (kid a k) := rfl
    refine congrArg₂ Quad.mk (funext fun j => ?_) rfl
    show (kid a k).c j = (faceNeighbor (kid a k') (2 * dir + 1)).c j
    rw [neighbor_c, kid_c, kid_c, hs']
    obtain ⟨b1, b2⟩ := h5 j j.2
    have c1 : (2 * dir + 1) / 2 = dir := by omega
    have c2 : (2 * dir + 1) % 2 = 1 := by omega
    rw [c1, c2, b1]
    by_cases hj : (j : ℕ) = dir
    · have b3 := b2 hj
      simp only [hj, if_true] at b3 ⊢
      simp [b3]
    · simp [hj]
  obtain ⟨calls, c1, c2, c3⟩ := faceIterate_spec hd W (inner_search (dir := dir) hd hconn W h.tree) 0 false 31 (a.level + 1)
    [(s0, kid a k'), (s1, kid a k)] (by omega) (by omega) ⟨_, _, rfl, hpair, fun k hk => (u2.mem k).mp hk, fun k hk => (l2.mem k).mp hk⟩ (by
      intro z hz
      simp only [List.mem_cons, List.not_mem_nil, or_false] at hz
      rcases hz with rfl | rfl
      · exact ⟨A0, rfl⟩
      · exact ⟨A1, rfl⟩)
  refine ⟨calls, by rw [ev]; exact c1, fun c hc => ⟨dir, c2 c hc⟩, fun e => ?_⟩
  rw [c3]
  unfold facePairs
  rw [h1, h2]
  rfl

theorem count_parts {β γ : Type} [BEq γ] {F : β → List γ} {e : γ} {g : ℕ → ℕ} {l : List ℕ} {parts : List (List β)}
    (h : List.Forall₂ (fun i calls => (calls.flatMap F).count e = g i) l parts) :
    (parts.flatten.flatMap F).count e = (l.map g).sum := by
  induction h with
  | nil => rfl
  | cons g1 g2 ih => rw [List.flatten_cons, List.flatMap_append, List.count_append, ih, g1, List.map_cons, List.sum_cons]

theorem sum_flatMap' {β : Type} (l : List β) (f : β → List ℕ) : (l.flatMap f).sum = (l.map fun x => (f x).sum).sum := by
  induction l with
  | nil => rfl
  | cons x l ih => rw [List.flatMap_cons, List.sum_append, ih, List.map_cons, List.sum_cons]

theorem volumeFaces_spec (hd : d = 2 ∨ d = 3) (hconn : FaceConsistent d conn) (W : IterWorld conn Leaf Lt Gt) {t : ℕ} {a : Quad d}
    {loc gho : Window} (h : VolArea conn Lt Gt G goff t a loc gho) (hl : a.level < 29) (hn : ¬ Kn Lt Gt t a) :
    ∃ calls, volumeFaces G t (Lt t) (a.level + 1) (iterTier (Lt t) a.level loc) (iterTier G a.level gho) = some calls ∧
      (∀ c ∈ calls, InnerCall Lt Gt G goff t c) ∧
      ∀ e, (calls.flatMap fun c => localFaces (.face c)).count e = ((allPairs d).map fun x => ind (AtSide Lt e t x.1 (kid a x.2))).sum := by
  unfold volumeFaces
  obtain ⟨parts, e1, h1⟩ := mapM_range_forall2 d (f := fun dir => do
      let ls ← (List.range (2 ^ (d - 1))).mapM
        (volumeFace G t (Lt t) (a.level + 1) (iterTier (Lt t) a.level loc) (iterTier G a.level gho) dir)
      some ls.flatten)
    (P := fun dir calls => (∀ c ∈ calls, InnerCall Lt Gt G goff t c) ∧ ∀ e, (calls.flatMap fun c => localFaces (.face c)).count e =
      ((List.range (2 ^ (d - 1))).map fun pos => ((facePairs d dir pos).map fun x => ind (AtSide Lt e t x.1 (kid a x.2))).sum).sum) (by
    intro dir hdir
    obtain ⟨ls, e2, h2⟩ := mapM_range_forall2 (2 ^ (d - 1)) (f := volumeFace G t (Lt t) (a.level + 1) (iterTier (Lt t) a.level loc)
        (iterTier G a.level gho) dir)
      (P := fun pos calls => (∀ c ∈ calls, InnerCall Lt Gt G goff t c) ∧ ∀ e, (calls.flatMap fun c => localFaces (.face c)).count e =
        ((facePairs d dir pos).map fun x => ind (AtSide Lt e t x.1 (kid a x.2))).sum)
      fun pos hpos => volumeFace_spec hd hconn W h hl hn hdir hpos
    refine ⟨ls.flatten, by simp only [Option.bind_eq_bind]; rw [e2]; rfl, ?_, fun e => ?_⟩
    · intro c hc
      obtain ⟨l, hl, hc⟩ := List.mem_flatten.mp hc
      obtain ⟨i, -, hi⟩ := forall2_mem_right h2 hl
      exact hi.1 c hc
    · exact count_parts (h2.imp fun i l hi => hi.2 e))
  refine ⟨parts.flatten, ?_, ?_, fun e => ?_⟩
  · simp only [Option.bind_eq_bind] at e1 ⊢
    rw [e1]
    rfl
  · intro c hc
    obtain ⟨l, hl, hc⟩ := List.mem_flatten.mp hc
    obtain ⟨i, -, hi⟩ := forall2_mem_right h1 hl
    exact hi.1 c hc
  · rw [count_parts (h1.imp fun i l hi => hi.2 e)]
    unfold allPairs
    rw [List.map_flatMap, sum_flatMap']
    congr 1
    apply List.map_congr_left
    intro dir _
    rw [List.map_flatMap, sum_flatMap']

/-- Each inner face of a leaf is an inner face of a child, or a face between children. -/
theorem inner_split (hd : d = 2 ∨ d = 3) (W : IterWorld conn Leaf Lt Gt) {t : ℕ} {a : Quad d} (ha : Valid a) (hl : a.level < 29)
    (hn : a ∉ Lt t) (e : (ℕ × Quad d) × ℕ) :
    ((List.range (2 ^ d)).map fun k => ind (Inner Lt e t (kid a k))).sum +
      ((allPairs d).map fun x => ind (AtSide Lt e t x.1 (kid a x.2))).sum = ind (Inner Lt e t a) := by
  have hd0 : 0 < d := by omega
  obtain ⟨p1, p2, p3⟩ := allPairs_spec hd
  by_cases hin : e.1.1 = t ∧ e.2 < 2 * d ∧ e.1.2 ∈ Lt t ∧ Cells e.1.2 ⊆ Cells a
  · obtain ⟨h1, h2, h3, h4⟩ := hin
    have hv := W.valid t _ (W.loc t _ h3)
    obtain ⟨-, hk, hu⟩ := kid_of_ssubset hd0 ha hv (valid_ssubset_of_ne hd0 ha hv h4 fun c => hn (c ▸ h3))
    set k := ancestorId e.1.2 (a.level + 1) with hkdef
    have hs := (hu _ hk).mpr rfl
    have hon := onSide_kid h2 hl hs
    have s1 : ((List.range (2 ^ d)).map fun k => ind (Inner Lt e t (kid a k))).sum = ind (¬ OnSide e.2 e.1.2 (kid a k)) := by
      refine ind_sum _ List.nodup_range _ _ ?_ ?_
      · intro hno
        exact ⟨k, List.mem_range.mpr hk, h1, h2, h3, hs, hno⟩
      · rintro j hj ⟨-, -, -, j1, j2⟩
        have hjk := (hu j (List.mem_range.mp hj)).mp j1
        refine ⟨by rw [← hjk]; exact j2, ?_⟩
        rintro i hi ⟨-, -, -, i1, -⟩
        rw [hjk, (hu i (List.mem_range.mp hi)).mp i1]
    have s2 : ((allPairs d).map fun x => ind (AtSide Lt e t x.1 (kid a x.2))).sum =
        ind (OnSide e.2 e.1.2 (kid a k) ∧ ¬ OnFaceBit e.2 k) := by
      refine ind_sum _ p1 _ _ ?_ ?_
      · rintro ⟨g1, g2⟩
        exact ⟨(e.2, k), (p2 _ h2 _ hk).mpr g2, h1, rfl, h3, hs, g1⟩
      · rintro ⟨f, j⟩ hj ⟨-, j1, -, j2, j3⟩
        obtain ⟨-, b2⟩ := p3 _ hj
        dsimp only at j1 j2 j3 b2
        have hjk := (hu j b2).mp j2
        subst hjk
        subst j1
        refine ⟨⟨j3, (p2 _ h2 _ hk).mp hj⟩, ?_⟩
        rintro ⟨f', i⟩ hi ⟨-, i1, -, i2, -⟩
        obtain ⟨-, b3⟩ := p3 _ hi
        dsimp only at i1 i2 b3
        rw [← i1, (hu i b3).mp i2]
    rw [s1, s2]
    have hgoal : Inner Lt e t a ↔ ¬ OnSide e.2 e.1.2 a := ⟨fun h => h.2.2.2.2, fun h => ⟨h1, h2, h3, h4, h⟩⟩
    rw [ind_congr hgoal, ind_congr (not_congr hon)]
    by_cases c1 : OnSide e.2 e.1.2 (kid a k)
    · by_cases c2 : OnFaceBit e.2 k
      · rw [ind_false (by tauto), ind_false (by tauto), ind_false (by tauto)]
      · rw [ind_false (by tauto), ind_true ⟨c1, c2⟩, ind_true (by tauto)]
    · rw [ind_true c1, ind_false (by tauto), ind_true (by tauto)]
  · rw [ind_sum_zero, ind_sum_zero, ind_false]
    · rintro ⟨h1, h2, h3, h4, -⟩
      exact hin ⟨h1, h2, h3, h4⟩
    · rintro ⟨f, k⟩ hx ⟨h1, h2, h3, h4, -⟩
      obtain ⟨b1, b2⟩ := p3 _ hx
      dsimp only at h2 h4 b1 b2
      exact hin ⟨h1, by omega, h3, h4.trans (kid_subset hd0 ha hl b2).1⟩
    · rintro k hk ⟨h1, h2, h3, h4, -⟩
      exact hin ⟨h1, h2, h3, h4.trans (kid_subset hd0 ha hl (List.mem_range.mp hk)).1⟩

/-- The volumes of a window. -/
def volumesOf (t : ℕ) (L : List (Quad d)) (w : Window) : List ((ℕ × Quad d) × ℕ) :=
  (((L.drop w.first).take w.count).zipIdx w.first).map fun x => ((t, x.1), x.2)

/-- What the search on volumes does in an area. -/
structure VolOk (Lt Gt : ℕ → List (Quad d)) (G : List (Quad d)) (goff : ℕ → ℕ) (v : Bool) (t : ℕ) (a : Quad d) (loc : Window)
    (calls : List (IterCall d)) : Prop where
  volumes : calls.filterMap volumeOf = if v then volumesOf t (Lt t) loc else []
  faces : ∀ c, IterCall.face c ∈ calls → InnerCall Lt Gt G goff t c
  count : ∀ e, (calls.flatMap localFaces).count e = ind (Inner Lt e t a)
  after : v = true → AfterVolumes calls

theorem shown_iff {l : List (IterCall d)} {x : ℕ × Quad d} : Shown l x ↔ ∃ n, (x, n) ∈ l.filterMap volumeOf := by
  unfold Shown
  refine exists_congr fun n => ?_
  rw [List.mem_filterMap]
  constructor
  · intro h
    exact ⟨_, h, rfl⟩
  · rintro ⟨c, hc, he⟩
    cases c with
    | volume t q m =>
      simp only [volumeOf, Option.some.injEq, Prod.mk.injEq] at he
      obtain ⟨h1, h2⟩ := he
      subst h1
      subst h2
      exact hc
    | face i => simp [volumeOf] at he

theorem VolOk.shown {v : Bool} {t : ℕ} {a : Quad d} {loc : Window} {calls : List (IterCall d)} (h : VolOk Lt Gt G goff v t a loc calls)
    (hw : AreaWin (Lt t) 0 (Lt t).length (Lt t) a loc) (hv : v = true) {q : Quad d} (hq : q ∈ Lt t) (hs : Cells q ⊆ Cells a) :
    Shown calls (t, q) := by
  rw [shown_iff, h.volumes, if_pos hv]
  unfold volumesOf
  rw [hw.eq]
  obtain ⟨i, hi, e⟩ := List.mem_iff_getElem.mp (mem_inside.mpr ⟨hq, hs⟩)
  refine ⟨loc.first + i, List.mem_map.mpr ⟨(q, loc.first + i), ?_, rfl⟩⟩
  rw [List.mk_mem_zipIdx_iff_le_and_getElem?_sub]
  refine ⟨by omega, ?_⟩
  rw [show loc.first + i - loc.first = i by omega, List.getElem?_eq_getElem hi, e]

theorem filterMap_faces (l : List (FaceInfo d)) : (l.map IterCall.face).filterMap volumeOf = [] := by
  rw [List.filterMap_eq_nil_iff]
  intro c hc
  obtain ⟨i, -, rfl⟩ := List.mem_map.mp hc
  rfl

theorem volumeIterate_spec (hd : d = 2 ∨ d = 3) (hconn : FaceConsistent d conn) (W : IterWorld conn Leaf Lt Gt) (v : Bool) (t : ℕ) :
    ∀ (fuel : ℕ) (a : Quad d) (loc gho : Window), 30 ≤ a.level + fuel → VolArea conn Lt Gt G goff t a loc gho →
    ∃ calls, volumeIterate v G t (Lt t) fuel a.level loc gho = some calls ∧ VolOk Lt Gt G goff v t a loc calls := by
  have hd0 : 0 < d := by omega
  intro fuel
  induction fuel with
  | zero => intro a loc gho h1 h2; have := h2.valid.1; omega
  | succ fuel ih =>
    intro a loc gho h1 h
    have hw := h.loc
    unfold volumeIterate
    by_cases hc : loc.count = 0
    · rw [if_pos hc]
      refine ⟨[], rfl, ⟨?_, by simp, fun e => ?_, fun _ => .nil⟩⟩
      · unfold volumesOf
        rw [hc]
        simp
      · rw [ind_false]
        · rfl
        · rintro ⟨-, -, h3, h4, -⟩
          have := mem_inside.mpr ⟨h3, h4⟩
          rw [hw.count_zero.mp hc] at this
          cases this
    · rw [if_neg hc, hw.test.1, h.gho.test.1]
      simp only [Option.bind_eq_bind, Option.bind_some]
      by_cases ha : a ∈ Lt t
      · have hi := (inside_known W (W.loc t a ha) (W.loc t) (W.lsort t)).1 ha
        rw [hi]
        simp only [List.head?_cons, areaSlot, if_true]
        have hcount : ∀ e : (ℕ × Quad d) × ℕ, ¬ Inner Lt e t a := by
          rintro e ⟨-, -, h3, h4, h5⟩
          have := W.sub (W.loc t _ h3) (W.loc t a ha) h4
          exact h5 (this ▸ onSide_self _ _)
        refine ⟨_, rfl, ⟨?_, ?_, fun e => ?_, fun _ => ?_⟩⟩
        · cases v with
          | false => rfl
          | true =>
            unfold volumesOf
            rw [hw.eq, hi]
            rfl
        · intro c hc
          split_ifs at hc <;> simp at hc
        · rw [ind_false (hcount e)]
          split_ifs <;> rfl
        · split_ifs
          · intro pre c post hpre e he
            have hm : c ∈ pre ++ c :: post := by simp
            rw [← hpre] at hm
            simp only [Option.map_some, Option.toList_some, List.mem_singleton] at hm
            subst hm
            cases he
      · have hne : inside (Lt t) a ≠ [] := fun c => hc (hw.count_zero.mpr c)
        obtain ⟨q, hq⟩ := List.exists_mem_of_ne_nil _ hne
        obtain ⟨q1, q2⟩ := mem_inside.mp hq
        have hqv := W.valid _ q (W.loc _ q q1)
        have hssub := valid_ssubset_of_ne hd0 h.valid hqv q2 fun c => ha (c ▸ q1)
        have hlev := ((valid_ssubset_iff hd0 h.valid hqv).mp hssub).1
        have hl : a.level < 29 := by have := hqv.1; omega
        have hK : ¬ Kn Lt Gt t a := by
          rintro (c | c)
          · exact ha c
          · have := W.sub (W.loc t q q1) (W.gho t a c) q2
            exact ha (this ▸ q1)
        have hno : ∀ (L : List (Quad d)) (w : Window) (g : Bool), (∀ q ∈ L, Kn Lt Gt t q) →
            areaSlot a.level w g (inside L a).head? = none := by
          intro L w g hL
          cases hi : (inside L a).head? with
          | none => rfl
          | some q =>
            obtain ⟨q1, q2⟩ := mem_inside.mp (List.mem_of_mem_head? hi)
            unfold areaSlot
            dsimp only
            rw [if_neg]
            intro hlev
            have hne : q ≠ a := fun c => hK (c ▸ hL q q1)
            have := ((valid_ssubset_iff hd0 h.valid (W.valid _ q (W.leaf (hL q q1)))).mp
              (valid_ssubset_of_ne hd0 h.valid (W.valid _ q (W.leaf (hL q q1))) q2 hne)).1
            omega
        rw [hno _ _ _ fun q hq => Or.inl hq, hno _ _ _ fun q hq => Or.inr hq]
        dsimp only
        obtain ⟨T, t0, t1, hT⟩ := hw.tiers hd0 h.valid hl (fun q hq => W.valid _ q (W.loc _ q hq)) (W.lsort _) ha
        obtain ⟨parts, e1, hp⟩ := mapM_range_forall2 (2 ^ d) (f := fun k => do
            let l ← tierWindow (iterTier (Lt t) a.level loc) k
            let g ← tierWindow (iterTier G a.level gho) k
            volumeIterate v G t (Lt t) fuel (a.level + 1) l g)
          (P := fun k calls => k < 2 ^ d ∧ VolOk Lt Gt G goff v t (kid a k) ⟨T k, T (k + 1) - T k⟩ calls) (fun k hk => by
            obtain ⟨-, k1, k2⟩ := hT k hk
            obtain ⟨wg, k3, k4⟩ := h.gho.tier hd0 h.valid hl (fun q hq => W.valid _ q (W.gho _ q hq)) (W.gsort _)
              (fun c => hK (Or.inr c)) hk
            obtain ⟨calls, c1, c2⟩ := ih (kid a k) _ wg (by show 30 ≤ a.level + 1 + fuel; omega)
              ⟨h.tree, kid_valid h.valid hl _, k2, k4, free_kid hd0 W h.valid hl hK h.free hk⟩
            refine ⟨calls, ?_, hk, c2⟩
            simp only [Option.bind_eq_bind]
            rw [k1, k3]
            exact c1)
        simp only [Option.bind_eq_bind] at e1
        rw [e1]
        simp only [Option.bind_some]
        obtain ⟨fs, e2, hf, hfc⟩ := volumeFaces_spec hd hconn W h hl hK
        rw [e2]
        simp only [Option.bind_some]
        have hvol : parts.flatten.filterMap volumeOf = if v then volumesOf t (Lt t) loc else [] := by
          have hgen : ∀ (l : List ℕ) (parts : List (List (IterCall d))),
              List.Forall₂ (fun k calls => k < 2 ^ d ∧ VolOk Lt Gt G goff v t (kid a k) ⟨T k, T (k + 1) - T k⟩ calls) l parts →
              parts.flatten.filterMap volumeOf = if v then l.flatMap (fun k => volumesOf t (Lt t) ⟨T k, T (k + 1) - T k⟩) else [] := by
            intro l parts hh
            induction hh with
            | nil => simp
            | cons g1 g2 ih3 =>
              rw [List.flatten_cons, List.filterMap_append, ih3, g1.2.volumes]
              cases v <;> simp
          rw [hgen _ _ hp]
          have hTn : T (2 ^ d) ≤ (Lt t).length := by rw [t1]; exact hw.high
          have hcat := (windows_concat (Lt t) T (2 ^ d) (fun k hk => (hT k hk).1) hTn).1
          rw [t0, t1] at hcat
          rw [show loc.first + loc.count - loc.first = loc.count by omega] at hcat
          unfold volumesOf
          rw [← hcat, List.map_flatMap]
        have hafter : v = true → AfterVolumes parts.flatten := fun hv => AfterVolumes.flatten fun l hl => by
          obtain ⟨k, -, hk⟩ := forall2_mem_right hp hl
          exact hk.2.after hv
        have hmapfaces : (fs.map IterCall.face).flatMap localFaces = fs.flatMap fun c => localFaces (.face c) := List.flatMap_map _ _ _
        refine ⟨_, rfl, ⟨?_, ?_, fun e => ?_, fun hv => ?_⟩⟩
        · rw [List.filterMap_append, hvol, filterMap_faces, List.append_nil]
        · intro c hc
          rcases List.mem_append.mp hc with hc | hc
          · obtain ⟨l, hl, hc⟩ := List.mem_flatten.mp hc
            obtain ⟨k, -, hk⟩ := forall2_mem_right hp hl
            exact hk.2.faces c hc
          · obtain ⟨i, hi, he⟩ := List.mem_map.mp hc
            cases he
            exact hf _ hi
        · rw [List.flatMap_append, List.count_append, hmapfaces, hfc, count_parts (hp.imp fun k l hk => hk.2.count e)]
          exact inner_split hd W h.valid hl ha e
        · refine (hafter hv).faces fun c hc e he => ?_
          obtain ⟨i, hi, rfl⟩ := List.mem_map.mp hc
          have hpos : 0 < (fs.flatMap fun c => localFaces (.face c)).count e :=
            List.count_pos_iff.mpr (List.mem_flatMap.mpr ⟨i, hi, he⟩)
          rw [hfc] at hpos
          have : ∃ x ∈ allPairs d, AtSide Lt e t x.1 (kid a x.2) := by
            by_contra hnone
            push Not at hnone
            rw [ind_sum_zero _ _ hnone] at hpos
            omega
          obtain ⟨x, hx, g1, g2, g3, g4, g5⟩ := this
          have hb := ((allPairs_spec hd).2.2 x hx).2
          have hin := mem_inside.mpr ⟨g3, g4.trans (kid_subset hd0 h.valid hl hb).1⟩
          rw [shown_iff, hvol, if_pos hv]
          unfold volumesOf
          rw [hw.eq]
          obtain ⟨n, hn, en⟩ := List.mem_iff_getElem.mp hin
          refine ⟨loc.first + n, List.mem_map.mpr ⟨(e.1.2, loc.first + n), ?_, ?_⟩⟩
          · rw [List.mk_mem_zipIdx_iff_le_and_getElem?_sub]
            refine ⟨by omega, ?_⟩
            rw [show loc.first + n - loc.first = n by omega, List.getElem?_eq_getElem hn, en]
          · rw [← g1]

end World

end P4est
