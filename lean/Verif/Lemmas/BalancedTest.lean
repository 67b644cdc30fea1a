import Verif.Lemmas.BalancedTable

/-! # The test for face balance -/

namespace P4est
open Spec

variable {d : ℕ}

section

variable {conn : FaceConn} {trees : List (List (Quad d))} {P : ℕ} {leaves : ℕ → List (ℕ × Quad d)}

/-! ### The search for a neighbor -/

/-- The rank knows the leaf. -/
def Sees (leaves : ℕ → List (ℕ × Quad d)) (r : ℕ) (g : GhostLayer d) (z : ℕ × Quad d) : Prop := z ∈ leaves r ∨ ∃ x ∈ g.ghosts, x.1 = z

theorem sees_leaf (h : Distributed trees P leaves) {g : GhostLayer d} (hg : GhostTable trees P leaves g) {r : ℕ} (hr : r < P)
    {z : ℕ × Quad d} (hz : Sees leaves r g z) : z ∈ forestLeaves trees := by
  rcases hz with hz | ⟨x, hx, rfl⟩
  · exact h.mem_forest.mpr ⟨r, hr, hz⟩
  · exact hg.order.subset (List.mem_map_of_mem hx)

theorem lookUp_spec (hd : 0 < d) (h : Distributed trees P leaves) {g : GhostLayer d} (hg : GhostTable trees P leaves g)
    {bs : (Quad d → ℤ) → List (Quad d) → Option ℕ} (hbs : Searches bs) {r : ℕ} (hr : r < P) {t : ℕ} (ht : t < trees.length)
    {q : Quad d} (hq : Valid q) :
    ∃ v, lookUp bs (globalPartition leaves P trees.length) P r (leaves r) g t q = some v ∧ (v = true ↔ Sees leaves r g (t, q)) := by
  obtain ⟨p, hp, o1, o2, o3, -⟩ := C27_find_owner hd trees P leaves h t ht q (valid_inTree hq) r hr
  have howner : ∀ p' < P, (t, q) ∈ leaves p' → p' = p := fun p' hp' hm => o2 p' hp' ⟨_, hm, rfl, corner_mem _⟩
  unfold lookUp
  rw [o3]
  simp only [Option.bind_eq_bind, Option.bind_some]
  by_cases hpr : p = r
  · subst hpr
    rw [if_pos rfl]
    refine ⟨_, rfl, ?_⟩
    change (bs (compare q) (leavesIn (leaves p) t)).isSome = true ↔ _
    have hvv : ∀ y ∈ leavesIn (leaves p) t, Valid y := fun y hy =>
      forest_valid h (h.mem_forest.mpr ⟨p, hp, mem_leavesIn.mp hy⟩)
    constructor
    · intro hv
      obtain ⟨j, hj⟩ := Option.isSome_iff_exists.mp hv
      obtain ⟨hl, h0⟩ := hbs.1 _ _ _ hj
      have := (compare_eq_zero_iff hd hq.int32 (hvv _ (List.getElem_mem hl)).int32).mp h0
      left
      rw [this]
      exact mem_leavesIn.mp (List.getElem_mem hl)
    · intro hs
      have hmem : (t, q) ∈ leaves p := by
        obtain ⟨p', hp', hm⟩ := h.mem_forest.mp (sees_leaf h hg hr hs)
        rw [← howner p' hp' hm]
        exact hm
      rw [Option.isSome_iff_ne_none]
      refine hbs.2 _ _ (sorted_for hd hq hvv ?_) ⟨q, mem_leavesIn.mpr hmem, (compare_eq_zero_iff hd hq.int32 hq.int32).mpr rfl⟩
      exact (forest_sorted h t).sublist (leavesIn_sublist (h.sublist hp) t)
  · rw [if_neg (by exact_mod_cast hpr)]
    obtain ⟨res, e1, e2⟩ := ghostBsearch_spec hd h hg hbs (proc := some p) (fun p' hp' => by cases hp'; exact hp) ht hq
    simp only [Int.toNat_natCast]
    rw [e1]
    simp only [Option.bind_some]
    refine ⟨_, rfl, ?_⟩
    constructor
    · intro hv
      obtain ⟨i, hi⟩ := Option.isSome_iff_exists.mp hv
      obtain ⟨x, hx, hxq, -⟩ := (e2 i).mp hi
      exact Or.inr ⟨x, List.mem_of_getElem? hx, hxq⟩
    · rintro (hm | ⟨x, hx, hxq⟩)
      · exact absurd (howner r hr hm).symm hpr
      · obtain ⟨i, hi, e⟩ := List.getElem_of_mem hx
        have hi' : g.ghosts[i]? = some x := by rw [List.getElem?_eq_getElem hi, e]
        obtain ⟨p', hp', hm⟩ := h.mem_forest.mp (hg.order.subset (List.mem_map_of_mem hx))
        have : res = some i := (e2 i).mpr ⟨x, hi', hxq, fun p'' hp'' => by
          cases hp''
          rw [← howner p' hp' (by rw [← hxq]; exact hm)]
          exact hm⟩
        rw [this]; rfl

/-- The leaf across a face of `K` is known. -/
def SeesAcross (conn : FaceConn) (leaves : ℕ → List (ℕ × Quad d)) (r : ℕ) (g : GhostLayer d) (t f : ℕ) (K : Quad d) : Prop :=
  ∃ t' n, Across conn t f K t' n ∧ Sees leaves r g (t', n)

theorem exists_spec (hd : d = 2 ∨ d = 3) (hconn : FaceConsistent d conn) (hn : conn.numTrees = trees.length)
    (h : Distributed trees P leaves) {g : GhostLayer d} (hg : GhostTable trees P leaves g)
    {bs : (Quad d → ℤ) → List (Quad d) → Option ℕ} (hbs : Searches bs) {r : ℕ} (hr : r < P) {t f : ℕ} (ht : t < trees.length)
    (hf : f < 2 * d) {K : Quad d} (hK : Valid K) (mem : Fin d → ℤ) :
    ∃ v, quadrantExists bs mem conn (globalPartition leaves P trees.length) P r (leaves r) g t (some (faceNeighbor K f)) = some v ∧
      (v = true ↔ SeesAcross conn leaves r g t f K) := by
  have hd0 : 0 < d := by omega
  rcases across_cases hd hconn hK (t := t) (f := f) (by omega) hf bs mem (globalPartition leaves P trees.length) P r (leaves r) g with
    ⟨t', n, ha, h1, -⟩ | ⟨h0, h1, -⟩
  · obtain ⟨v, e1, e2⟩ := lookUp_spec hd0 h hg hbs hr (by rw [← hn]; exact ha.tree) ha.valid
    refine ⟨v, h1.trans e1, ?_⟩
    rw [e2]
    constructor
    · intro hs; exact ⟨t', n, ha, hs⟩
    · rintro ⟨t'', n', ha', hs⟩
      obtain ⟨rfl, rfl⟩ := across_unique hd0 ha ha'
      exact hs
  · refine ⟨false, h1, iff_of_false (by simp) ?_⟩
    rintro ⟨t', n, ha, -⟩
    exact across_not_nothing ha h0

/-! ### One face -/

theorem across_or (hd : d = 2 ∨ d = 3) (hconn : FaceConsistent d conn) {t f : ℕ} (ht : t < conn.numTrees) (hf : f < 2 * d)
    {K : Quad d} (hK : Valid K) : (∃ t' n, Across conn t f K t' n) ∨ NothingAcross conn t f K := by
  rcases across_cases hd hconn hK ht hf (fun _ _ => none) (fun _ => 0) [] 0 0 [] ⟨[], [], [], [], [], [], []⟩ with
    ⟨t', n, ha, -⟩ | ⟨h0, -⟩
  · exact Or.inl ⟨t', n, ha⟩
  · exact Or.inr h0

theorem qlen_side (q : Quad d) : qlen q.level = side q := rfl

theorem boundary_spec (hd : d = 2 ∨ d = 3) (hconn : FaceConsistent d conn) {t f : ℕ} (ht : t < conn.numTrees) (hf : f < 2 * d)
    {q : Quad d} (hq : Valid q) :
    ∃ v, onFaceBoundary conn t f q = some v ∧ (v = true ↔ NothingAcross conn t f q) := by
  obtain ⟨t', nf, o, e1, e2, ht', hnf, ho⟩ := hconn.entries ht hf
  unfold onFaceBoundary
  rw [e1, e2]
  simp only [Option.bind_eq_bind, Option.bind_some]
  have hR : (rootLen : ℤ) = 2 ^ 30 := rfl
  by_cases hc : t' ≠ t ∨ nf + 2 * d * o ≠ f
  · rw [if_pos hc]
    refine ⟨false, rfl, iff_of_false (by simp) fun h0 => ?_⟩
    rw [h0.tree, Option.some.injEq] at e1
    rw [h0.face, Option.some.injEq] at e2
    rcases hc with c | c
    · exact c e1.symm
    · exact c e2.symm
  · rw [if_neg hc]
    refine ⟨_, rfl, ?_⟩
    rw [not_or, not_not, not_not] at hc
    obtain ⟨rfl, hcode⟩ := hc
    rw [hcode] at e2
    rw [decide_eq_true_eq]
    have hle := valid_le hq
    have hrt := hq.2.2
    constructor
    · intro hb
      rcases across_or hd hconn ht hf hq with ⟨t1, n, ha⟩ | h0
      · exfalso
        obtain ⟨a, hla⟩ := layer_nonempty q f
        obtain ⟨y, hy⟩ := ha.some a hla
        set ax : Fin d := ⟨f / 2, by omega⟩ with hax
        have h1 := hla.2 ax rfl
        have h2 := hb ax rfl
        rw [qlen_side, hR] at h2
        obtain ⟨k1, k2, ⟨-, k3⟩ | ⟨nf', o', T, k4, k5, k6, k7, -⟩⟩ := hy
        · have h3 := k2 ax
          rw [k3, nbCell_apply, if_pos (show (ax : ℕ) = f / 2 from rfl)] at h3
          dsimp only at h3
          split at h1
          · rename_i c; rw [if_pos c] at h2 h3; omega
          · rename_i c; rw [if_neg c] at h2 h3; omega
        · dsimp only at k5 k6 k7
          rw [e1, Option.some.injEq] at k5
          rw [e2, Option.some.injEq] at k6
          rcases k7 with c | c
          · exact c k5.symm
          · have := congrArg (· % (2 * d)) k6
            try dsimp only at this
            rw [code_mod k4, Nat.mod_eq_of_lt hf] at this
            exact c this.symm
      · exact h0
    · intro h0 i hi
      have h1 := outside_face hq h0.out i hi
      rw [qlen_side, hR]
      have := hrt i
      have := hle i
      split at h1
      · rename_i c; rw [if_pos c]; omega
      · rename_i c; rw [if_neg c]; omega

theorem mapM_fun {β γ : Type} {f : β → Option γ} {g : β → γ} : ∀ {l : List β}, (∀ x ∈ l, f x = some (g x)) → l.mapM f = some (l.map g) := by
  intro l
  induction l with
  | nil => intro _; rfl
  | cons x l ih =>
    intro h
    rw [List.mapM_cons, h x (by simp), ih fun y hy => h y (by simp [hy])]
    rfl

/-- The value for given results of the searches. -/
theorem faceFails_eval {ex : Option (Quad d) → Option Bool} {t f : ℕ} {q : Quad d} (hb : onFaceBoundary conn t f q = some false)
    {s : ℕ → Bool} (hs : ∀ i < 2 ^ (d - 1), ex (if q.level = 29 then none else some (halfFaceNeighbor q f i)) = some (s i)) {e2 e3 : Bool}
    (h2 : ex (some (faceNeighbor q f)) = some e2) (h3 : ex (allFaceNeighbors q f).2.2 = some e3) :
    ((∃ j < 2 ^ (d - 1), s j = false) → e2 = false → e3 = false → faceFails ex conn t q f = some true) ∧
    ((∀ j < 2 ^ (d - 1), s j = false) → e2.toNat + e3.toNat = 1 → faceFails ex conn t q f = some false) ∧
    ((∀ j < 2 ^ (d - 1), s j = true) → e2 = false → e3 = false → faceFails ex conn t q f = some false) ∧
    ∃ v, faceFails ex conn t q f = some v := by
  have hpow : 0 < 2 ^ (d - 1) := by positivity
  have hsmall : smallEntries (allFaceNeighbors q f).1 = (List.range (2 ^ (d - 1))).map fun i => if q.level = 29 then none else some (halfFaceNeighbor q f i) := by
    unfold allFaceNeighbors halfFaceNeighbors
    dsimp only
    unfold smallEntries
    by_cases h : q.level = QMAXLEVEL
    · rw [if_pos h]
      have h' : q.level = 29 := h
      simp only [if_pos h']
      rw [List.map_const', List.length_range]
    · rw [if_neg h]
      have h' : ¬ q.level = 29 := h
      simp only [if_neg h']
      rw [List.map_map]
      rfl
  have hmap : ((List.range (2 ^ (d - 1))).map fun i => if q.level = 29 then none else some (halfFaceNeighbor q f i)).mapM ex =
      some ((List.range (2 ^ (d - 1))).map s) := by
    rw [List.mapM_map]
    exact mapM_fun fun i hi => hs i (List.mem_range.mp hi)
  have hhead : ((List.range (2 ^ (d - 1))).map s).head? = some (s 0) := by
    rw [List.head?_map, List.head?_range, if_neg (by omega)]; rfl
  have hn2 : (allFaceNeighbors q f).2.1 = faceNeighbor q f := rfl
  have key : faceFails ex conn t q f = if ((List.range (2 ^ (d - 1))).map s).any (fun e => e != s 0) then some true
      else some (decide ((s 0).toNat + e2.toNat + e3.toNat ≠ 1)) := by
    unfold faceFails
    rw [hb]
    simp only [Option.bind_eq_bind, Option.bind_some]
    rw [if_neg (by simp)]
    rw [hsmall, hmap]
    simp only [Option.bind_some]
    rw [hhead]
    simp only [Option.bind_some]
    rw [hn2, h2, h3]
    rfl
  have hany : ((List.range (2 ^ (d - 1))).map s).any (fun e => e != s 0) = true ↔ ∃ j < 2 ^ (d - 1), s j ≠ s 0 := by
    rw [List.any_map, List.any_eq_true]
    simp
  rw [key]
  refine ⟨?_, ?_, ?_, ?_⟩
  · rintro ⟨j, hj, hsj⟩ rfl rfl
    by_cases c : ∃ j < 2 ^ (d - 1), s j ≠ s 0
    · rw [if_pos (hany.mpr c)]
    · rw [if_neg (fun hh => c (hany.mp hh))]
      have : s 0 = false := by
        by_contra hne
        exact c ⟨j, hj, by rw [hsj]; exact fun e => hne e.symm⟩
      rw [this]; rfl
  · intro hall hsum
    rw [if_neg]
    · rw [hall 0 hpow]
      simp [hsum]
    · intro hh
      obtain ⟨j, hj, hne⟩ := hany.mp hh
      exact hne (by rw [hall j hj, hall 0 hpow])
  · rintro hall rfl rfl
    rw [if_neg]
    · rw [hall 0 hpow]; rfl
    · intro hh
      obtain ⟨j, hj, hne⟩ := hany.mp hh
      exact hne (by rw [hall j hj, hall 0 hpow])
  · split
    · exact ⟨_, rfl⟩
    · exact ⟨_, rfl⟩

/-- What the searches of one face find. -/
theorem face_values (hd : d = 2 ∨ d = 3) (hconn : FaceConsistent d conn) (hn : conn.numTrees = trees.length)
    (h : Distributed trees P leaves) {g : GhostLayer d} (hg : GhostTable trees P leaves g)
    {bs : (Quad d → ℤ) → List (Quad d) → Option ℕ} (hbs : Searches bs) {r : ℕ} (hr : r < P) {t f : ℕ} (ht : t < trees.length)
    (hf : f < 2 * d) {q : Quad d} (hq : Valid q) (mem : Fin d → ℤ) :
    ∃ (s : ℕ → Bool) (e2 e3 : Bool), (∀ i < 2 ^ (d - 1), quadrantExists bs mem conn (globalPartition leaves P trees.length) P r (leaves r) g t
        (if q.level = 29 then none else some (halfFaceNeighbor q f i)) = some (s i)) ∧
      quadrantExists bs mem conn (globalPartition leaves P trees.length) P r (leaves r) g t (some (faceNeighbor q f)) = some e2 ∧
      quadrantExists bs mem conn (globalPartition leaves P trees.length) P r (leaves r) g t (allFaceNeighbors q f).2.2 = some e3 ∧
      (q.level = 29 → ∀ i, s i = false) ∧
      (q.level < 29 → ∀ i k, HalfOf d f i k → (s i = true ↔ SeesAcross conn leaves r g t f (kid q k))) ∧
      (e2 = true ↔ SeesAcross conn leaves r g t f q) ∧
      (e3 = true ↔ (allFaceNeighbors q f).2.2 = some (faceNeighbor (parent q) f) ∧ Valid (parent q) ∧
        SeesAcross conn leaves r g t f (parent q)) := by
  classical
  have hd0 : 0 < d := by omega
  obtain ⟨e2, h2, h2'⟩ := exists_spec hd hconn hn h hg hbs hr ht hf hq mem
  obtain ⟨e3, h3, h3'⟩ : ∃ e3, quadrantExists bs mem conn (globalPartition leaves P trees.length) P r (leaves r) g t (allFaceNeighbors q f).2.2 = some e3 ∧
      (e3 = true ↔ (allFaceNeighbors q f).2.2 = some (faceNeighbor (parent q) f) ∧ Valid (parent q) ∧
        SeesAcross conn leaves r g t f (parent q)) := by
    rcases double_cases hd0 hq hf with ⟨e, -⟩ | ⟨e, hv, -⟩
    · rw [e]
      exact ⟨false, rfl, iff_of_false (by simp) (by simp)⟩
    · rw [e]
      obtain ⟨v, k1, k2⟩ := exists_spec hd hconn hn h hg hbs hr ht hf hv mem
      exact ⟨v, k1, by rw [k2]; exact ⟨fun hh => ⟨rfl, hv, hh⟩, fun hh => hh.2.2⟩⟩
  refine ⟨fun i => decide (q.level < 29 ∧ ∃ k, HalfOf d f i k ∧ SeesAcross conn leaves r g t f (kid q k)), e2, e3, ?_, h2, h3, ?_, ?_, h2', h3'⟩
  · intro i hi
    by_cases h29 : q.level = 29
    · rw [if_pos h29]
      exact congrArg some (decide_eq_false (by omega)).symm
    · rw [if_neg h29]
      have hl : q.level < 29 := by have := hq.1; omega
      obtain ⟨k, hk⟩ := halfOf_right hf hi
      rw [half_eq hl hf hk]
      obtain ⟨v, k1, k2⟩ := exists_spec hd hconn hn h hg hbs hr ht hf (kid_valid hq hl k) mem
      rw [k1]
      congr 1
      have huniq : ∀ k', HalfOf d f i k' → kid q k' = kid q k := by
        intro k' hk'
        have e1 := half_eq hl hf hk
        have e2 := half_eq hl hf hk'
        rw [e1] at e2
        refine Quad.ext' (fun a => ?_) rfl
        have := congrArg (fun z : Quad d => z.c a) e2
        try dsimp only at this
        rw [neighbor_c, neighbor_c] at this
        have hs : side (kid q k) = side (kid q k') := rfl
        rw [hs] at this
        split at this
        · split at this <;> omega
        · exact this.symm
      rw [Bool.eq_iff_iff, k2, decide_eq_true_eq]
      constructor
      · intro hh; exact ⟨hl, k, hk, hh⟩
      · rintro ⟨-, k', hk', hh⟩
        rw [huniq k' hk'] at hh
        exact hh
  · intro h29 i
    exact decide_eq_false (by omega)
  · intro hl i k hk
    rw [decide_eq_true_eq]
    constructor
    · rintro ⟨-, k', hk', hh⟩
      have e1 := half_eq hl hf hk
      have e2 := half_eq hl hf hk'
      rw [e1] at e2
      have : kid q k' = kid q k := by
        refine Quad.ext' (fun a => ?_) rfl
        have := congrArg (fun z : Quad d => z.c a) e2
        try dsimp only at this
        rw [neighbor_c, neighbor_c] at this
        have hs : side (kid q k) = side (kid q k') := rfl
        rw [hs] at this
        split at this
        · split at this <;> omega
        · exact this.symm
      rw [this] at hh
      exact hh
    · intro hh; exact ⟨hl, k, hk, hh⟩

end

end P4est
