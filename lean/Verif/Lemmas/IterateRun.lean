import Verif.Lemmas.IterateTree

/-! # The loop over the trees -/

namespace P4est
open Spec

variable {d : ℕ}

section World

variable {conn : FaceConn} {Leaf : ℕ → Quad d → Prop} {Lt Gt : ℕ → List (Quad d)} {G : List (Quad d)} {goff : ℕ → ℕ}

/-- The faces of tree `t` that are searched. -/
def ownedFaces (d : ℕ) (owned : ℕ → ℕ → Bool) (t : ℕ) : List ℕ := (List.range (2 * d)).filter (owned t)

/-- The sides of the searched faces of one tree. -/
def ownedSides (d : ℕ) (conn : FaceConn) (owned : ℕ → ℕ → Bool) (t : ℕ) : List (ℕ × ℕ) :=
  (ownedFaces d owned t).flatMap fun f => pairSides d conn (t, f)

/-- All the volumes of a tree. -/
def treeVolumes (Lt : ℕ → List (Quad d)) (t : ℕ) : List ((ℕ × Quad d) × ℕ) := (Lt t).zipIdx.map fun x => ((t, x.1), x.2)

/-- What is done for one tree. -/
structure TreeOk (conn : FaceConn) (Lt Gt : ℕ → List (Quad d)) (G : List (Quad d)) (goff : ℕ → ℕ) (v : Bool) (owned : ℕ → ℕ → Bool)
    (t : ℕ) (calls : List (IterCall d)) : Prop where
  volumes : calls.filterMap volumeOf = if v then treeVolumes Lt t else []
  faces : ∀ c, IterCall.face c ∈ calls → InnerCall Lt Gt G goff t c ∨ ∃ f, f ∈ ownedFaces d owned t ∧ TreeCall conn Lt Gt G goff (t, f) c
  count : ∀ e, (calls.flatMap localFaces).count e =
    ind (Inner Lt e t (root d)) + ((ownedSides d conn owned t).map fun y => ind (AtSide Lt e y.1 y.2 (root d))).sum
  split : ∃ (vs : List (IterCall d)) (fs : List (FaceInfo d)), calls = vs ++ fs.map IterCall.face ∧ (v = true → AfterVolumes vs ∧ ∀ q ∈ Lt t, Shown vs (t, q)) ∧
    ∀ c ∈ fs, ∀ e ∈ localFaces (.face c), e.1.2 ∈ Lt e.1.1 ∧ e.1.1 ≤ t

theorem ind_sum_pos {β : Type} {l : List β} {P : β → Prop} (h : 0 < (l.map fun x => ind (P x)).sum) : ∃ x ∈ l, P x := by
  by_contra hn
  push Not at hn
  rw [ind_sum_zero l P hn] at h
  omega

theorem pairSides_mem {x y : ℕ × ℕ} (h : y ∈ pairSides d conn x) : y = x ∨ y = faceMate d conn x := by
  unfold pairSides at h
  split at h
  · simp at h; exact Or.inl h
  · simp at h; tauto

theorem iterTree_spec (hd : d = 2 ∨ d = 3) (hconn : FaceConsistent d conn) {rt : RankTrees (Quad d)} {offsets : List ℕ}
    (W : IterWorld conn Leaf Lt Gt) (A : IterArrays conn rt.trees offsets Lt Gt G goff) (v : Bool) {owned : ℕ → ℕ → Bool}
    (howned : ∀ x : ℕ × ℕ, owned x.1 x.2 = true → IsFace d conn x ∧ faceTop d conn x = x) {t : ℕ} (ht : t < conn.numTrees)
    (hlast : ∀ q ∈ Lt t, (t : ℤ) ≤ rt.last) :
    ∃ calls, iterTree v conn rt G offsets owned t = some calls ∧ TreeOk conn Lt Gt G goff v owned t calls := by
  have hV := root_area W A ht
  have hroot : (root d).level = 0 := rfl
  have hzero : ∀ q ∈ Lt t, Cells q ⊆ Cells (root d) := fun q hq => subset_root (W.valid t q (W.loc t q hq))
  -- the volumes
  obtain ⟨vs, e1, v1, v2, v3, v4⟩ : ∃ vs, iterTreeVolume v rt G offsets t = some vs ∧ vs.filterMap volumeOf = (if v then treeVolumes Lt t else []) ∧
      (∀ c, IterCall.face c ∈ vs → InnerCall Lt Gt G goff t c) ∧
      (∀ e, (vs.flatMap localFaces).count e = ind (Inner Lt e t (root d))) ∧
      (v = true → AfterVolumes vs ∧ ∀ q ∈ Lt t, Shown vs (t, q)) := by
    unfold iterTreeVolume
    by_cases hc : (t : ℤ) ≤ rt.last
    · rw [if_pos hc, A.trees t ht, A.window t ht]
      simp only [Option.bind_eq_bind, Option.bind_some]
      obtain ⟨calls, c1, c2⟩ := volumeIterate_spec hd hconn W v t 31 (root d) _ _ (by omega) hV
      refine ⟨calls, c1, ?_, c2.faces, c2.count, fun hv => ⟨c2.after hv, fun q hq => c2.shown hV.loc hv hq (hzero q hq)⟩⟩
      rw [c2.volumes]
      unfold volumesOf treeVolumes
      simp
    · rw [if_neg hc]
      have hnil : Lt t = [] := by
        rw [List.eq_nil_iff_forall_not_mem]
        exact fun q hq => hc (hlast q hq)
      refine ⟨[], rfl, ?_, by simp, fun e => ?_, fun _ => ⟨.nil, by simp [hnil]⟩⟩
      · unfold treeVolumes
        simp [hnil]
      · rw [ind_false]
        · rfl
        · rintro ⟨-, -, h, -⟩
          simp [hnil] at h
  -- the faces
  obtain ⟨fs, f1, f2⟩ := mapM_forall2 (f := treeFace conn rt.trees G offsets t) (g := id)
    (P := fun f calls => (∀ c ∈ calls, TreeCall conn Lt Gt G goff (t, f) c) ∧
      ∀ e, (calls.flatMap fun c => localFaces (.face c)).count e =
        ((pairSides d conn (t, f)).map fun y => ind (AtSide Lt e y.1 y.2 (root d))).sum)
    (ownedFaces d owned t) (by
      intro f hf
      obtain ⟨h1, h2⟩ := howned (t, f) (List.mem_filter.mp hf).2
      exact treeFace_spec hd hconn W A h1 h2)
  rw [List.map_id] at f1
  have hcount : ∀ e, (fs.flatten.flatMap fun c => localFaces (.face c)).count e =
      ((ownedSides d conn owned t).map fun y => ind (AtSide Lt e y.1 y.2 (root d))).sum := by
    intro e
    rw [count_parts (g := fun f => ((pairSides d conn (t, f)).map fun y => ind (AtSide Lt e y.1 y.2 (root d))).sum)
      (f2.imp fun _ _ h => h.2 e)]
    unfold ownedSides
    rw [List.map_flatMap, sum_flatMap']
  unfold iterTree
  rw [e1]
  simp only [Option.bind_eq_bind, Option.bind_some]
  unfold ownedFaces at f1
  rw [f1]
  refine ⟨_, rfl, ?_, ?_, ?_, vs, fs.flatten, rfl, v4, ?_⟩
  · rw [List.filterMap_append, v1, filterMap_faces, List.append_nil]
  · intro c hc
    rcases List.mem_append.mp hc with hc | hc
    · exact Or.inl (v2 c hc)
    · right
      obtain ⟨i, hi, he⟩ := List.mem_map.mp hc
      cases he
      obtain ⟨calls, h1, h2⟩ := List.mem_flatten.mp hi
      obtain ⟨f, hf, h3⟩ := forall2_mem_right f2 h1
      exact ⟨f, hf, h3.1 c h2⟩
  · intro e
    rw [List.flatMap_append, List.count_append, v3, List.flatMap_map _ _ _, hcount]
  · intro c hc e he
    have hpos : 0 < (fs.flatten.flatMap fun c => localFaces (.face c)).count e :=
      List.count_pos_iff.mpr (List.mem_flatMap.mpr ⟨c, hc, he⟩)
    rw [hcount] at hpos
    obtain ⟨y, hy, h1, h2, h3, -⟩ := ind_sum_pos hpos
    refine ⟨h1 ▸ h3, ?_⟩
    obtain ⟨f, hf, hyf⟩ := List.mem_flatMap.mp hy
    have := mate_le (howned (t, f) (List.mem_filter.mp hf).2).2
    rcases pairSides_mem hyf with rfl | rfl
    · exact h1.le
    · rw [h1]
      dsimp only at this ⊢
      omega

/-! ### All trees -/

theorem after_run {v : Bool} {owned : ℕ → ℕ → Bool} (hv : v = true) : ∀ (n first : ℕ) (parts : List (List (IterCall d))),
    List.Forall₂ (TreeOk conn Lt Gt G goff v owned) (List.range' first n) parts → ∀ acc : List (IterCall d), AfterVolumes acc →
    (∀ t < first, ∀ q ∈ Lt t, Shown acc (t, q)) → AfterVolumes (acc ++ parts.flatten) := by
  intro n
  induction n with
  | zero =>
    intro first parts h acc ha _
    cases h
    simpa using ha
  | succ n ih =>
    intro first parts h acc ha hs
    rw [List.range'_succ] at h
    cases h with
    | cons h1 h2 =>
      rename_i calls rest
      rw [List.flatten_cons, ← List.append_assoc]
      obtain ⟨vs, fs, rfl, k1, k2⟩ := h1.split
      obtain ⟨k3, k4⟩ := k1 hv
      have hsh : ∀ t < first + 1, ∀ q ∈ Lt t, Shown (acc ++ vs) (t, q) := by
        intro t ht q hq
        by_cases c : t < first
        · exact (hs t c q hq).mono (by simp)
        · obtain rfl : t = first := by omega
          exact (k4 q hq).mono (by simp)
      refine ih (first + 1) rest h2 _ ?_ ?_
      · rw [← List.append_assoc]
        refine (ha.and k3).faces ?_
        intro c hc e he
        obtain ⟨i, hi, rfl⟩ := List.mem_map.mp hc
        obtain ⟨g1, g2⟩ := k2 i hi e he
        exact hsh e.1.1 (by omega) e.1.2 g1
      · intro t ht q hq
        exact (hsh t ht q hq).mono (by simp)

theorem parts_volumes {v : Bool} {owned : ℕ → ℕ → Bool} {l : List ℕ} {parts : List (List (IterCall d))}
    (h : List.Forall₂ (TreeOk conn Lt Gt G goff v owned) l parts) :
    parts.flatten.filterMap volumeOf = if v then l.flatMap (treeVolumes Lt) else [] := by
  induction h with
  | nil => cases v <;> rfl
  | cons h1 h2 ih =>
    rw [List.flatten_cons, List.filterMap_append, ih, h1.volumes, List.flatMap_cons]
    cases v <;> rfl

theorem sides_nodup (hconn : FaceConsistent d conn) {owned : ℕ → ℕ → Bool}
    (howned : ∀ x : ℕ × ℕ, owned x.1 x.2 = true → IsFace d conn x ∧ faceTop d conn x = x) (first n : ℕ) :
    ((List.range' first n).flatMap (ownedSides d conn owned)).Nodup := by
  have htop : ∀ x : ℕ × ℕ, owned x.1 x.2 = true → ∀ y ∈ pairSides d conn x, faceTop d conn y = x := by
    intro x hx y hy
    obtain ⟨h1, h2⟩ := howned x hx
    rcases pairSides_mem hy with rfl | rfl
    · exact h2
    · rw [top_mate hconn h1, h2]
  have hmem : ∀ t, ∀ y ∈ ownedSides d conn owned t, ∃ f, owned t f = true ∧ faceTop d conn y = (t, f) := by
    intro t y hy
    obtain ⟨f, hf, hyf⟩ := List.mem_flatMap.mp hy
    have ho := (List.mem_filter.mp hf).2
    exact ⟨f, ho, htop (t, f) ho y hyf⟩
  rw [List.nodup_flatMap]
  constructor
  · intro t _
    unfold ownedSides
    rw [List.nodup_flatMap]
    constructor
    · intro f _
      unfold pairSides
      split
      · simp
      · rename_i c
        simp only [List.nodup_cons, List.mem_singleton, List.not_mem_nil, not_false_eq_true, List.nodup_nil, and_true]
        exact c
    · have hn : (ownedFaces d owned t).Nodup := List.Nodup.filter _ List.nodup_range
      refine hn.imp_of_mem ?_
      intro f g hf hg hne
      rw [Function.onFun, List.disjoint_left]
      intro y hy1 hy2
      have h1 := htop (t, f) (List.mem_filter.mp hf).2 y hy1
      have h2 := htop (t, g) (List.mem_filter.mp hg).2 y hy2
      rw [h1] at h2
      exact hne (Prod.ext_iff.mp h2).2
  · have hn : (List.range' first n).Nodup := List.nodup_range'
    refine hn.imp ?_
    intro t u hne
    rw [Function.onFun, List.disjoint_left]
    intro y hy1 hy2
    obtain ⟨f, -, h1⟩ := hmem t y hy1
    obtain ⟨g, -, h2⟩ := hmem u y hy2
    rw [h1] at h2
    exact hne (Prod.ext_iff.mp h2).1

/-- Each face of each local leaf is listed once. -/
theorem run_count (hconn : FaceConsistent d conn) (W : IterWorld conn Leaf Lt Gt) {v : Bool} {owned : ℕ → ℕ → Bool}
    (howned : ∀ x : ℕ × ℕ, owned x.1 x.2 = true → IsFace d conn x ∧ faceTop d conn x = x) {first n : ℕ}
    (hloc : ∀ t, ∀ q ∈ Lt t, first ≤ t ∧ t < first + n ∧ t < conn.numTrees)
    (hrange : ∀ x : ℕ × ℕ, owned x.1 x.2 = true → first ≤ x.1 ∧ x.1 < first + n)
    (htouch : ∀ t, ∀ q ∈ Lt t, ∀ f < 2 * d, OnSide f q (root d) →
      owned (faceTop d conn (t, f)).1 (faceTop d conn (t, f)).2 = true)
    {parts : List (List (IterCall d))} (h : List.Forall₂ (TreeOk conn Lt Gt G goff v owned) (List.range' first n) parts)
    (e : (ℕ × Quad d) × ℕ) :
    (parts.flatten.flatMap localFaces).count e = ind (e.1.2 ∈ Lt e.1.1 ∧ e.2 < 2 * d) := by
  rw [count_parts (g := fun t => ind (Inner Lt e t (root d)) +
    ((ownedSides d conn owned t).map fun y => ind (AtSide Lt e y.1 y.2 (root d))).sum) (h.imp fun _ _ k => k.count e), sum_map_add']
  have h1 : ((List.range' first n).map fun t => ind (Inner Lt e t (root d))).sum =
      ind (e.1.2 ∈ Lt e.1.1 ∧ e.2 < 2 * d ∧ ¬ OnSide e.2 e.1.2 (root d)) := by
    refine ind_sum _ List.nodup_range' _ _ ?_ ?_
    · rintro ⟨k1, k2, k3⟩
      refine ⟨e.1.1, ?_, rfl, k2, k1, subset_root (W.valid _ _ (W.loc _ _ k1)), k3⟩
      have := hloc _ _ k1
      rw [List.mem_range'_1]
      omega
    · rintro t - ⟨k1, k2, k3, -, k4⟩
      refine ⟨⟨k1 ▸ k3, k2, k4⟩, ?_⟩
      rintro u - ⟨m1, -⟩
      rw [← m1, k1]
  have h2 : ((List.range' first n).map fun t =>
      ((ownedSides d conn owned t).map fun y => ind (AtSide Lt e y.1 y.2 (root d))).sum).sum =
      ind (e.1.2 ∈ Lt e.1.1 ∧ e.2 < 2 * d ∧ OnSide e.2 e.1.2 (root d)) := by
    have : ((List.range' first n).map fun t =>
        ((ownedSides d conn owned t).map fun y => ind (AtSide Lt e y.1 y.2 (root d))).sum).sum =
        (((List.range' first n).flatMap (ownedSides d conn owned)).map fun y => ind (AtSide Lt e y.1 y.2 (root d))).sum := by
      rw [List.map_flatMap, sum_flatMap']
    rw [this]
    refine ind_sum _ (sides_nodup hconn howned first n) _ _ ?_ ?_
    · rintro ⟨k1, k2, k3⟩
      have k4 := hloc _ _ k1
      have hf : IsFace d conn (e.1.1, e.2) := ⟨k4.2.2, k2⟩
      have k5 := htouch _ _ k1 _ k2 k3
      have k6 := hrange _ k5
      have k7 := (howned _ k5).1
      refine ⟨(e.1.1, e.2), List.mem_flatMap.mpr ⟨_, by rw [List.mem_range'_1]; exact k6, List.mem_flatMap.mpr
        ⟨(faceTop d conn (e.1.1, e.2)).2, List.mem_filter.mpr ⟨List.mem_range.mpr k7.2, k5⟩, ?_⟩⟩, rfl, rfl, k1,
        subset_root (W.valid _ _ (W.loc _ _ k1)), k3⟩
      show (e.1.1, e.2) ∈ pairSides d conn (faceTop d conn (e.1.1, e.2))
      rcases top_or (d := d) (conn := conn) (e.1.1, e.2) with c | c
      · rw [c]
        unfold pairSides
        split <;> simp
      · rw [c]
        unfold pairSides
        rw [mate_mate hconn hf]
        split
        · rename_i c2
          simp [← c2]
        · simp
    · rintro y hy ⟨k1, k2, k3, -, k4⟩
      obtain ⟨t, -, hy'⟩ := List.mem_flatMap.mp hy
      obtain ⟨f, hf, hyf⟩ := List.mem_flatMap.mp hy'
      obtain ⟨m1, m2⟩ := howned (t, f) (List.mem_filter.mp hf).2
      have hface : IsFace d conn y := by
        rcases pairSides_mem hyf with rfl | rfl
        · exact m1
        · obtain ⟨o, -, -, m3, -⟩ := mate_entries hconn m1
          exact m3
      refine ⟨⟨k1 ▸ k3, k2 ▸ hface.2, by rw [k2]; exact k4⟩, ?_⟩
      rintro z - ⟨n1, n2, -⟩
      exact Prod.ext (by rw [← n1, k1]) (by rw [← n2, k2])
  rw [h1, h2]
  by_cases c1 : e.1.2 ∈ Lt e.1.1 ∧ e.2 < 2 * d
  · by_cases c2 : OnSide e.2 e.1.2 (root d)
    · have g1 : ¬ (e.1.2 ∈ Lt e.1.1 ∧ e.2 < 2 * d ∧ ¬ OnSide e.2 e.1.2 (root d)) := by tauto
      rw [ind_true c1, ind_false g1, ind_true ⟨c1.1, c1.2, c2⟩]
    · have g1 : ¬ (e.1.2 ∈ Lt e.1.1 ∧ e.2 < 2 * d ∧ OnSide e.2 e.1.2 (root d)) := by tauto
      rw [ind_true c1, ind_false g1, ind_true ⟨c1.1, c1.2, c2⟩]
  · rw [ind_false c1, ind_false (by tauto), ind_false (by tauto)]

end World

end P4est
