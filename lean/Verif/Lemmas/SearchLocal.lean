import Verif.Spec.SearchLocal
import Verif.Props.Search
import Verif.Props.Coarsen
import Verif.Lemmas.File

/-! # Lemmas on the search of the local forest -/

namespace P4est
open Spec

variable {d : ℕ} {σ ι : Type}

/-! ## Geometry -/

theorem valid_subset_iff (hd : 0 < d) {q r : Quad d} (hq : Valid q) (hr : Valid r) :
    Cells r ⊆ Cells q ↔ start q ≤ start r ∧ stop r ≤ stop q :=
  subset_iff_interval hd hq.aligned hr.aligned hq.int32 hr.int32

theorem valid_ssubset_iff (hd : 0 < d) {q r : Quad d} (hq : Valid q) (hr : Valid r) :
    Cells r ⊂ Cells q ↔ q.level < r.level ∧ Cells r ⊆ Cells q := by
  rw [← isAncestor_iff hd hq.aligned hr.aligned, isAncestor_iff_div, cells_subset_iff hd hq.aligned hr.aligned,
    mem_cells hq.aligned]
  constructor
  · rintro ⟨h1, h2⟩; exact ⟨h1, by omega, h2⟩
  · rintro ⟨h1, -, h2⟩; exact ⟨h1, h2⟩

theorem valid_ssubset_of_ne (hd : 0 < d) {q r : Quad d} (hq : Valid q) (hr : Valid r)
    (h : Cells r ⊆ Cells q) (hne : r ≠ q) : Cells r ⊂ Cells q := by
  rw [Set.ssubset_iff_subset_ne]
  refine ⟨h, fun he => hne ?_⟩
  have h1 := (valid_subset_iff hd hq hr).mp h
  have h2 := (valid_subset_iff hd hr hq).mp he.symm.subset
  exact eq_of_interval hd hr.aligned hq.aligned hr.int32 hq.int32 (by omega) (by omega)

theorem start_kid {p : Quad d} (hp : Valid p) (hl : p.level < 29) {k : ℕ} (hk : k < 2 ^ d) :
    start (kid p k) = start p + k * volume (kid p 0) ∧
      stop (kid p k) = start p + (k + 1) * volume (kid p 0) := by
  have h := curve_child hp.aligned hp.int32 (show p.level < 30 by omega) hk
  have hv : volume (child p k) = volume (child p 0) := volume_congr rfl
  rw [kid_eq_child hp, kid_eq_child hp]
  have h1 : start (child p k) = start p + k * volume (child p 0) := by
    unfold start; rw [h, hv]
  refine ⟨h1, ?_⟩
  rw [stop_eq, h1, hv]; ring

theorem kid_order {p : Quad d} (hp : Valid p) (hl : p.level < 29) {j k : ℕ} (hk : k < 2 ^ d)
    (h : j < k) : stop (kid p j) ≤ start (kid p k) := by
  rw [(start_kid hp hl (by omega)).2, (start_kid hp hl hk).1]
  have := Nat.mul_le_mul_right (volume (kid p 0)) h
  simp only [Nat.succ_eq_add_one] at this
  omega

theorem kid_subset (hd : 0 < d) {p : Quad d} (hp : Valid p) (hl : p.level < 29) {k : ℕ} (hk : k < 2 ^ d) :
    Cells (kid p k) ⊂ Cells p := by
  have hv := kid_valid hp hl k
  rw [valid_ssubset_iff hd hp hv, valid_subset_iff hd hp hv]
  have := valid_child hd hp hl (w := child p k) (List.mem_map_of_mem (List.mem_range.mpr hk))
  rw [kid_eq_child hp]
  exact ⟨by rw [child_level]; omega, this.2.2⟩

/-- A quadrant strictly inside another lies in exactly one of its children. -/
theorem kid_of_ssubset (hd : 0 < d) {p q : Quad d} (hp : Valid p) (hq : Valid q) (h : Cells q ⊂ Cells p) :
    p.level < 29 ∧ ancestorId q (p.level + 1) < 2 ^ d ∧
      ∀ k, k < 2 ^ d → (Cells q ⊆ Cells (kid p k) ↔ k = ancestorId q (p.level + 1)) := by
  have h0 := ((valid_ssubset_iff hd hp hq).mp h).1
  have hl : p.level < 29 := by have := hq.1; omega
  refine ⟨hl, ancestorId_lt _ _, fun k hk => ?_⟩
  have h1 := mem_child_iff hp.aligned (by omega) (p := q.c) (h.1 (corner_mem q)) hk
  rw [kid_eq_child hp, cells_subset_iff hd (child_aligned hp.aligned (by omega) k) hq.aligned, h1]
  constructor
  · rintro ⟨-, h⟩; exact h
  · intro h; exact ⟨by rw [child_level]; omega, h⟩

theorem kid_unique (hd : 0 < d) {p q : Quad d} (hp : Valid p) (hl : p.level < 29) (hq : Valid q) {j k : ℕ}
    (hj : j < 2 ^ d) (hk : k < 2 ^ d) (h1 : Cells q ⊆ Cells (kid p j)) (h2 : Cells q ⊆ Cells (kid p k)) :
    j = k := by
  have hs : Cells q ⊂ Cells p := lt_of_le_of_lt h1 (kid_subset hd hp hl hj)
  have h := (kid_of_ssubset hd hp hq hs).2.2
  rw [(h j hj).mp h1, (h k hk).mp h2]

theorem branch_level (hd : 0 < d) {W : List (Quad d)} {q : Quad d} (hv : ∀ a ∈ W, Valid a) (h : Branch W q) :
    q.level < 29 := by
  obtain ⟨hq, a, ha, b, hb, j, k, hj, hk, hjk, h1, h2⟩ := h
  have := (hv a ha).1
  have h3 := ((cells_subset_iff hd (by rw [kid_eq_child hq]; exact child_aligned hq.aligned (by have := hq.1; omega) j)
    (hv a ha).aligned).mp h1).1
  have : (kid q j).level = q.level + 1 := rfl
  omega

theorem node_valid {W : List (Quad d)} {q : Quad d} (hv : ∀ a ∈ W, Valid a) (h : Node W q) : Valid q := by
  rcases h with h | h
  · exact hv q h
  · exact h.1

/-- Search quadrants stay inside any quadrant that contains the leaves. -/
theorem node_inside (hd : 0 < d) {W : List (Quad d)} {p q : Quad d} (hv : ∀ a ∈ W, Valid a) (hp : Valid p)
    (hin : ∀ a ∈ W, Cells a ⊆ Cells p) (h : Node W q) : Cells q ⊆ Cells p := by
  rcases h with h | h
  · exact hin q h
  · have hl := branch_level hd hv h
    obtain ⟨hq, a, ha, b, hb, j, k, hj, hk, hjk, h1, h2⟩ := h
    have haq : Cells a ⊆ Cells q := h1.trans (kid_subset hd hq hl hj).1
    rcases C03_nested_or_disjoint q p hq.extended hp.extended with h3 | h3 | h3
    · by_cases he : p = q
      · rw [he]
      · have h4 := kid_of_ssubset hd hq hp (valid_ssubset_of_ne hd hq hp h3 he)
        have h5 : Cells p ⊆ Cells (kid q (ancestorId p (q.level + 1))) := (h4.2.2 _ h4.2.1).mpr rfl
        exact absurd ((kid_unique hd hq hl (hv a ha) hj h4.2.1 h1 ((hin a ha).trans h5)).trans
          (kid_unique hd hq hl (hv b hb) hk h4.2.1 h2 ((hin b hb).trans h5)).symm) hjk
    · exact h3
    · exact absurd ⟨haq (corner_mem a), hin a ha (corner_mem a)⟩ (h3 a.c)

/-- The search quadrants of a window: its top branch and the search quadrants of the parts. -/
theorem node_split (hd : 0 < d) {W : List (Quad d)} {p : Quad d} (hv : ∀ a ∈ W, Valid a) (hb : Branch W p)
    (hin : ∀ a ∈ W, Cells a ⊂ Cells p) {V : ℕ → List (Quad d)}
    (hV : ∀ k, k < 2 ^ d → ∀ q, q ∈ V k ↔ q ∈ W ∧ Cells q ⊆ Cells (kid p k)) (q : Quad d) :
    Node W q ↔ q = p ∨ ∃ k, k < 2 ^ d ∧ Node (V k) q := by
  have hp := hb.1
  have hl := branch_level hd hv hb
  constructor
  · intro h
    by_cases he : q = p
    · exact Or.inl he
    · right
      have hq := node_valid hv h
      have hs := valid_ssubset_of_ne hd hp hq (node_inside hd hv hp (fun a ha => (hin a ha).1) h) he
      obtain ⟨-, hk, h1⟩ := kid_of_ssubset hd hp hq hs
      have h2 := (h1 _ hk).mpr rfl
      refine ⟨_, hk, ?_⟩
      rcases h with h | h
      · exact Or.inl ((hV _ hk q).mpr ⟨h, h2⟩)
      · have hlq := branch_level hd hv h
        obtain ⟨-, a, ha, b, hb, i, j, hi, hj, hij, h3, h4⟩ := h
        refine Or.inr ⟨hq, a, ?_, b, ?_, i, j, hi, hj, hij, h3, h4⟩
        · exact (hV _ hk a).mpr ⟨ha, h3.trans ((kid_subset hd hq hlq hi).1.trans h2)⟩
        · exact (hV _ hk b).mpr ⟨hb, h4.trans ((kid_subset hd hq hlq hj).1.trans h2)⟩
  · rintro (rfl | ⟨k, hk, h⟩)
    · exact Or.inr hb
    · rcases h with h | ⟨hq, a, ha, b, hb, h⟩
      · exact Or.inl ((hV k hk q).mp h).1
      · exact Or.inr ⟨hq, a, ((hV k hk a).mp ha).1, b, ((hV k hk b).mp hb).1, h⟩

/-- The quadrant taken for a window of several leaves: the leaves divide between its children. -/
theorem searchBranch_spec (hd : 0 < d) {Q : Quad d} {W : List (Quad d)} (hQ : Valid Q)
    (hv : ∀ a ∈ W, Valid a) (hlin : W.Pairwise (fun q r => stop q ≤ start r)) (hin : ∀ a ∈ W, Cells a ⊆ Cells Q)
    (hlen : 1 < W.length) {first last : Quad d} (hf : W.head? = some first) (hla : W.getLast? = some last) :
    Q.level ≤ (searchBranch Q first last).level ∧ Branch W (searchBranch Q first last) ∧
      ∀ a ∈ W, Cells a ⊂ Cells (searchBranch Q first last) := by
  obtain ⟨x, W', rfl⟩ : ∃ x W', W = x :: W' := by
    cases W with
    | nil => simp at hlen
    | cons x W' => exact ⟨x, W', rfl⟩
  obtain rfl : x = first := by simpa using hf
  have hne : W' ≠ [] := by rintro rfl; simp at hlen
  have hlast : last ∈ W' := by
    rw [List.getLast?_cons_of_ne_nil hne] at hla
    exact List.mem_of_getLast? hla
  have hfm : x ∈ x :: W' := List.mem_cons_self
  have hlm : last ∈ x :: W' := List.mem_cons_of_mem _ hlast
  have hvf := hv x hfm
  have hvl := hv last hlm
  have hfl : stop x ≤ start last := (List.pairwise_cons.mp hlin).1 last hlast
  have hall : ∀ a ∈ x :: W', start x ≤ start a ∧ stop a ≤ stop last := by
    intro a ha
    constructor
    · rcases List.mem_cons.mp ha with rfl | ha
      · rfl
      · have := (List.pairwise_cons.mp hlin).1 a ha
        have := start_lt_stop x
        omega
    · obtain ⟨ys, hys⟩ : ∃ ys, x :: W' = ys ++ [last] := by
        refine ⟨(x :: W').dropLast, ?_⟩
        rw [List.getLast?_eq_some_getLast (by simp)] at hla
        have := List.dropLast_append_getLast (l := x :: W') (by simp)
        rw [Option.some_inj.mp hla] at this
        exact this.symm
      rw [hys, List.mem_append] at ha
      rw [hys, List.pairwise_append] at hlin
      rcases ha with ha | ha
      · have := hlin.2.2 a ha last (by simp)
        have := start_lt_stop last
        omega
      · rw [List.mem_singleton.mp ha]
  -- a quadrant with both ends inside contains the window strictly
  have strict : ∀ p : Quad d, Valid p → Cells x ⊆ Cells p → Cells last ⊆ Cells p →
      ∀ a ∈ x :: W', Cells a ⊂ Cells p := by
    intro p hp h1 h2 a ha
    have h1' := (valid_subset_iff hd hp hvf).mp h1
    have h2' := (valid_subset_iff hd hp hvl).mp h2
    have h3 := hall a ha
    have hs := (valid_subset_iff hd hp (hv a ha)).mpr ⟨by omega, by omega⟩
    refine valid_ssubset_of_ne hd hp (hv a ha) hs ?_
    rintro rfl
    -- a contains both ends
    have hfa : x = a ∨ stop x ≤ start a := by
      rcases List.mem_cons.mp ha with rfl | ha
      · exact Or.inl rfl
      · exact Or.inr ((List.pairwise_cons.mp hlin).1 a ha)
    have := start_lt_stop x
    have := start_lt_stop last
    rcases hfa with rfl | h
    · omega
    · omega
  unfold searchBranch
  by_cases he : ancestorId x (Q.level + 1) = ancestorId last (Q.level + 1)
  · rw [if_pos he]
    obtain ⟨h1, h2, h3, h4, -⟩ := C07_nca_valid hd x last hvf hvl
    have hst := strict _ h1 h2 h3
    refine ⟨((cells_subset_iff hd hQ.aligned h1.aligned).mp (h4 Q hQ.aligned (hin x hfm) (hin last hlm))).1, ?_, hst⟩
    obtain ⟨hl, hj, kx⟩ := kid_of_ssubset hd h1 hvf (hst x hfm)
    obtain ⟨-, hk, kl⟩ := kid_of_ssubset hd h1 hvl (hst last hlm)
    refine ⟨h1, x, hfm, last, hlm, _, _, hj, hk, fun hjk => ?_, (kx _ hj).mpr rfl, (kl _ hk).mpr rfl⟩
    have h5 := h4 _ (kid_valid h1 hl _).aligned ((kx _ hj).mpr rfl) ((kl _ hj).mpr hjk)
    have h6 := kid_subset hd h1 hl hj
    exact absurd h5 h6.2
  · rw [if_neg he]
    have hst := strict _ hQ (hin x hfm) (hin last hlm)
    refine ⟨le_rfl, ?_, hst⟩
    obtain ⟨hl, hj, kx⟩ := kid_of_ssubset hd hQ hvf (hst x hfm)
    obtain ⟨-, hk, kl⟩ := kid_of_ssubset hd hQ hvl (hst last hlm)
    exact ⟨hQ, x, hfm, last, hlm, _, _, hj, hk, he, (kx _ hj).mpr rfl, (kl _ hk).mpr rfl⟩

theorem node_nil {W : List (Quad d)} (h : W = []) (q : Quad d) : ¬ Node W q := by
  subst h
  rintro (h | ⟨-, a, ha, -⟩) <;> simp at *

theorem node_single (hd : 0 < d) {q : Quad d} (hq : Valid q) (r : Quad d) : Node [q] r ↔ r = q := by
  constructor
  · rintro (h | h)
    · simpa using h
    · have hl := branch_level hd (by simpa using hq) h
      obtain ⟨hr, a, ha, b, hb, j, k, hj, hk, hjk, h1, h2⟩ := h
      obtain rfl := List.mem_singleton.mp ha
      obtain rfl := List.mem_singleton.mp hb
      exact absurd (kid_unique hd hr hl hq hj hk h1 h2) hjk
  · rintro rfl; exact Or.inl (by simp)

/-! ## Events -/

theorem replays_append {qf : Option (ℕ → Quad d → ι → σ → Bool × σ)} {pf : ℕ → Quad d → ι → ℕ → σ → Bool × σ}
    {E F : List (Event d ι)} {s s1 s2 : σ} (h1 : Replays qf pf E s s1) (h2 : Replays qf pf F s1 s2) :
    Replays qf pf (E ++ F) s s2 := by
  induction E generalizing s with
  | nil => rw [show s = s1 from h1]; exact h2
  | cons e es ih =>
    obtain ⟨s', h3, h4⟩ := h1
    exact ⟨s', ih h3, h4⟩

theorem passed_congr {E F : List (Event d ι)} {t : ℕ} {q : Quad d} {x : Option ℕ}
    (h : ∀ e, e.quad = q → (e ∈ E ↔ e ∈ F)) : Passed E t q x ↔ Passed F t q x := by
  have key : ∀ c b, Answered E t q c b ↔ Answered F t q c b := by
    intro c b
    constructor
    · rintro ⟨e, he, h1, h2, h3⟩; exact ⟨e, (h e h2).mp he, h1, h2, h3⟩
    · rintro ⟨e, he, h1, h2, h3⟩; exact ⟨e, (h e h2).mpr he, h1, h2, h3⟩
  unfold Passed
  simp only [key]

theorem called_congr {E F : List (Event d ι)} {t : ℕ} {q : Quad d} {c : Call}
    (h : ∀ e, e.quad = q → (e ∈ E ↔ e ∈ F)) : Called E t q c ↔ Called F t q c := by
  constructor
  · rintro ⟨e, he, h1, h2, h3⟩; exact ⟨e, (h e h2).mp he, h1, h2, h3⟩
  · rintro ⟨e, he, h1, h2, h3⟩; exact ⟨e, (h e h2).mpr he, h1, h2, h3⟩

theorem answered_congr {E F : List (Event d ι)} {t : ℕ} {q : Quad d} {c : Call} {b : Bool}
    (h : ∀ e, e.quad = q → (e ∈ E ↔ e ∈ F)) : Answered E t q c b ↔ Answered F t q c b := by
  constructor
  · rintro ⟨e, he, h1, h2, h3⟩; exact ⟨e, (h e h2).mp he, h1, h2, h3⟩
  · rintro ⟨e, he, h1, h2, h3⟩; exact ⟨e, (h e h2).mpr he, h1, h2, h3⟩

/-- The calls made for a single quadrant at which the targets `xs` have arrived. -/
structure QuadSearched (hasFn callPost : Bool) (t : ℕ) (q : Quad d) (num : ι) (xs : List (Option ℕ))
    (E : List (Event d ι)) : Prop where
  order : E.Pairwise Earlier
  mem : ∀ e ∈ E, e.tree = t ∧ e.quad = q ∧ e.num = num
  enter : Called E t q .enter ↔ hasFn = true
  point : ∀ i, Called E t q (.point i) ↔ some i ∈ xs ∧ ¬ Answered E t q .enter false
  leave : Called E t q .leave ↔ hasFn = true ∧ callPost = true ∧ (∃ i, some i ∈ xs) ∧ ¬ Answered E t q .enter false

/-- Nothing arrives, nothing is called. -/
theorem treeSearched_nil (hasFn callPost : Bool) (t : ℕ) (node : Quad d → Prop) (arg : Quad d → ι → Prop)
    (xs : List (Option ℕ)) (h : (∀ q, ¬ node q) ∨ xs = []) :
    TreeSearched hasFn callPost t node arg xs ([] : List (Event d ι)) := by
  constructor
  · simp
  · intro q hq
    rcases h with h | h
    · exact absurd hq (h q)
    · simp [Called, h]
  · intro q hq i
    rcases h with h | h
    · exact absurd hq (h q)
    · simp [Called, h]
  · intro q hq
    rcases h with h | h
    · exact absurd hq (h q)
    · simp [Called, h]

/-- A single search quadrant. -/
theorem treeSearched_leaf {hasFn callPost : Bool} {t : ℕ} {node : Quad d → Prop} {arg : Quad d → ι → Prop} {q : Quad d}
    {num : ι} {xs : List (Option ℕ)} {E : List (Event d ι)} (hn : ∀ r, node r ↔ r = q) (ha : arg q num)
    (hx : xs ≠ []) (h : QuadSearched hasFn callPost t q num xs E) :
    TreeSearched hasFn callPost t node arg xs E := by
  have hr : ∀ x, Reached E t node q x := by
    intro x b hb hs
    rw [(hn b).mp hb] at hs
    exact absurd rfl hs.ne
  obtain ⟨x, hx⟩ := List.exists_mem_of_ne_nil _ hx
  constructor
  · intro e he _
    obtain ⟨-, h1, h2⟩ := h.mem e he
    rw [h1, h2]
    exact ⟨(hn q).mpr rfl, ha⟩
  · intro r hr'
    rw [(hn r).mp hr', h.enter]
    constructor
    · intro h; exact ⟨h, x, hx, hr x⟩
    · intro h; exact h.1
  · intro r hr' i
    rw [(hn r).mp hr', h.point]
    simp [hr]
  · intro r hr'
    rw [(hn r).mp hr', h.leave]
    simp [hr]

/-- A search quadrant on top of others. -/
theorem treeSearched_branch (hd : 0 < d) {hasFn callPost : Bool} {t : ℕ} {p : Quad d} {num : ι}
    {node : Quad d → Prop} {arg : Quad d → ι → Prop} {nodes : ℕ → Quad d → Prop} {args : ℕ → Quad d → ι → Prop}
    {xs xs' : List (Option ℕ)} {E0 : List (Event d ι)} {Es : ℕ → List (Event d ι)} (hx : xs ≠ [])
    (hp : Valid p) (hl : p.level < 29)
    (hsplit : ∀ q, node q ↔ q = p ∨ ∃ k, k < 2 ^ d ∧ nodes k q)
    (hkid : ∀ k, k < 2 ^ d → ∀ q, nodes k q → Valid q ∧ Cells q ⊆ Cells (kid p k))
    (harg : arg p num) (hargs : ∀ k, k < 2 ^ d → ∀ q n, nodes k q → args k q n → arg q n)
    (h0 : QuadSearched hasFn callPost t p num xs E0)
    (hnext : ∀ x, x ∈ xs' ↔ x ∈ xs ∧ Passed E0 t p x)
    (htree : ∀ k, k < 2 ^ d → ∀ e ∈ Es k, e.tree = t)
    (hord : ∀ k, k < 2 ^ d → (Es k).Pairwise Earlier)
    (hs : ∀ k, k < 2 ^ d → TreeSearched hasFn callPost t (nodes k) (args k) xs' (Es k)) :
    (E0 ++ (List.range (2 ^ d)).flatMap Es).Pairwise Earlier ∧
      (∀ e ∈ E0 ++ (List.range (2 ^ d)).flatMap Es, e.tree = t) ∧
      TreeSearched hasFn callPost t node arg xs (E0 ++ (List.range (2 ^ d)).flatMap Es) := by
  have hnode : ∀ k, k < 2 ^ d → ∀ e ∈ Es k, nodes k e.quad := fun k hk e he =>
    ((hs k hk).only e he (htree k hk e he)).1
  have hne : ∀ k, k < 2 ^ d → ∀ q, nodes k q → q ≠ p := by
    rintro k hk q hq rfl
    exact (kid_subset hd hp hl hk).2 (hkid k hk q hq).2
  set E := E0 ++ (List.range (2 ^ d)).flatMap Es with hE
  have hmem : ∀ e, e ∈ E ↔ e ∈ E0 ∨ ∃ k, k < 2 ^ d ∧ e ∈ Es k := by
    intro e
    rw [hE, List.mem_append, List.mem_flatMap]
    simp only [List.mem_range]
  have htop : ∀ e, e.quad = p → (e ∈ E ↔ e ∈ E0) := by
    intro e he
    rw [hmem]
    constructor
    · rintro (h | ⟨k, hk, h⟩)
      · exact h
      · exact absurd he (hne k hk _ (hnode k hk e h))
    · exact Or.inl
  have hpart : ∀ k, k < 2 ^ d → ∀ q, nodes k q → ∀ e : Event d ι, e.quad = q → (e ∈ E ↔ e ∈ Es k) := by
    intro k hk q hq e he
    rw [hmem]
    constructor
    · rintro (h | ⟨j, hj, h⟩)
      · exact absurd ((h0.mem e h).2.1) (by rw [he]; exact hne k hk q hq)
      · have h1 := hkid k hk q hq
        have h2 := hkid j hj _ (hnode j hj e h)
        rw [he] at h2
        rw [← kid_unique hd hp hl h1.1 hj hk h2.2 h1.2]; exact h
    · intro h; exact Or.inr ⟨k, hk, h⟩
  have hreach : ∀ k, k < 2 ^ d → ∀ q, nodes k q → ∀ x,
      (Reached E t node q x ↔ Passed E0 t p x ∧ Reached (Es k) t (nodes k) q x) := by
    intro k hk q hq x
    have hqk := hkid k hk q hq
    constructor
    · intro h
      refine ⟨(passed_congr htop).mp (h p ((hsplit p).mpr (Or.inl rfl)) (lt_of_le_of_lt hqk.2 (kid_subset hd hp hl hk))), ?_⟩
      intro b hb' hs'
      exact (passed_congr (hpart k hk b hb')).mp (h b ((hsplit b).mpr (Or.inr ⟨k, hk, hb'⟩)) hs')
    · rintro ⟨h1, h2⟩ b hb' hs'
      rcases (hsplit b).mp hb' with rfl | ⟨j, hj, hbj⟩
      · exact (passed_congr htop).mpr h1
      · obtain rfl : j = k := kid_unique hd hp hl hqk.1 hj hk (hs'.1.trans (hkid j hj b hbj).2) hqk.2
        exact (passed_congr (hpart j hk b hbj)).mpr (h2 b hbj hs')
  have hreachTop : ∀ x, Reached E t node p x := by
    intro x b hb' hs'
    rcases (hsplit b).mp hb' with rfl | ⟨k, hk, hbk⟩
    · exact absurd rfl hs'.ne
    · exact absurd ((hkid k hk b hbk).2.trans (kid_subset hd hp hl hk).1) hs'.2
  refine ⟨?_, ?_, ?_⟩
  · rw [hE, List.pairwise_append]
    refine ⟨h0.order, ?_, ?_⟩
    · rw [List.pairwise_flatMap]
      refine ⟨fun k hk => hord k (List.mem_range.mp hk), ?_⟩
      refine (List.pairwise_lt_range).imp_of_mem fun {j} {k} hj hk hjk e he f hf => ?_
      have hj := List.mem_range.mp hj
      have hk := List.mem_range.mp hk
      obtain ⟨h1, h2⟩ := hkid j hj _ (hnode j hj e he)
      obtain ⟨h3, h4⟩ := hkid k hk _ (hnode k hk f hf)
      rw [valid_subset_iff hd (kid_valid hp hl _) h1] at h2
      rw [valid_subset_iff hd (kid_valid hp hl _) h3] at h4
      have h5 := kid_order hp hl hk hjk
      have h6 := start_lt_stop e.quad
      refine Or.inr ⟨by rw [htree j hj e he, htree k hk f hf], Or.inl ?_⟩
      rw [before_interval]; omega
    · intro e he f hf
      obtain ⟨k, hk, hf⟩ := List.mem_flatMap.mp hf
      have hk := List.mem_range.mp hk
      obtain ⟨h1, h2⟩ := hkid k hk _ (hnode k hk f hf)
      have h3 := lt_of_le_of_lt h2 (kid_subset hd hp hl hk)
      have h4 := (valid_ssubset_iff hd hp h1).mp h3
      have h5 := (valid_subset_iff hd hp h1).mp h4.2
      have h6 := h0.mem e he
      refine Or.inr ⟨by rw [h6.1, htree k hk f hf], Or.inl ?_⟩
      rw [before_interval, h6.2.1]; omega
  · intro e he
    rcases (hmem e).mp he with h | ⟨k, hk, h⟩
    · exact (h0.mem e h).1
    · exact htree k hk e h
  · constructor
    · intro e he _
      rcases (hmem e).mp he with h | ⟨k, hk, h⟩
      · obtain ⟨-, h1, h2⟩ := h0.mem e h
        rw [h1, h2]
        exact ⟨(hsplit p).mpr (Or.inl rfl), harg⟩
      · have h1 := (hs k hk).only e h (htree k hk e h)
        exact ⟨(hsplit _).mpr (Or.inr ⟨k, hk, h1.1⟩), hargs k hk _ _ h1.1 h1.2⟩
    · intro q hq
      rcases (hsplit q).mp hq with rfl | ⟨k, hk, hqk⟩
      · rw [called_congr htop, h0.enter]
        obtain ⟨x, hx⟩ := List.exists_mem_of_ne_nil _ hx
        exact ⟨fun h => ⟨h, x, hx, hreachTop x⟩, fun h => h.1⟩
      · rw [called_congr (hpart k hk q hqk), (hs k hk).enter q hqk]
        simp only [hreach k hk q hqk, hnext, and_assoc]
    · intro q hq i
      rcases (hsplit q).mp hq with rfl | ⟨k, hk, hqk⟩
      · rw [called_congr htop, h0.point, answered_congr htop]
        simp [hreachTop]
      · rw [called_congr (hpart k hk q hqk), (hs k hk).point q hqk, answered_congr (hpart k hk q hqk)]
        simp only [hreach k hk q hqk, hnext, and_assoc]
    · intro q hq
      rcases (hsplit q).mp hq with rfl | ⟨k, hk, hqk⟩
      · rw [called_congr htop, h0.leave, answered_congr htop]
        simp [hreachTop]
      · rw [called_congr (hpart k hk q hqk), (hs k hk).leave q hqk, answered_congr (hpart k hk q hqk)]
        simp only [hreach k hk q hqk, hnext, and_assoc]

/-! ## The run -/

/-- The targets that arrive at a window. -/
def cands (points : Option ℕ) (actives : Option (List ℕ)) : List (Option ℕ) :=
  match points with
  | none => [none]
  | some n => (activePoints n actives).map some

theorem askPoints_spec (rec : SearchRec d σ ι) (q : Quad d) (num : ι) : ∀ (xs : List ℕ) (s : σ), xs.Pairwise (· < ·) →
    (∀ e ∈ (askPoints rec q num xs s).2.2, e.tree = rec.tree ∧ e.quad = q ∧ e.num = num ∧ ∃ x ∈ xs, e.call = .point x) ∧
    (∀ i, Called (askPoints rec q num xs s).2.2 rec.tree q (.point i) ↔ i ∈ xs) ∧
    (∀ i, Answered (askPoints rec q num xs s).2.2 rec.tree q (.point i) true ↔ i ∈ (askPoints rec q num xs s).1) ∧
    (askPoints rec q num xs s).1.Sublist xs ∧
    (askPoints rec q num xs s).2.2.Pairwise Earlier ∧
    Replays rec.quadrantFn rec.pointFn (askPoints rec q num xs s).2.2 s (askPoints rec q num xs s).2.1 := by
  intro xs
  induction xs with
  | nil => intro s _; simp [askPoints, Called, Answered, Replays]
  | cons x xs ih =>
    intro s hs
    rw [List.pairwise_cons] at hs
    obtain ⟨h1, h2, h3, h4, h5, h6⟩ := ih (rec.pointFn rec.tree q num x s).2 hs.2
    have e1 : (askPoints rec q num (x :: xs) s).2.2 = ⟨rec.tree, q, num, .point x, (rec.pointFn rec.tree q num x s).1⟩ ::
      (askPoints rec q num xs (rec.pointFn rec.tree q num x s).2).2.2 := rfl
    have e2 : (askPoints rec q num (x :: xs) s).1 = if (rec.pointFn rec.tree q num x s).1 then
      x :: (askPoints rec q num xs (rec.pointFn rec.tree q num x s).2).1 else
      (askPoints rec q num xs (rec.pointFn rec.tree q num x s).2).1 := rfl
    have e3 : (askPoints rec q num (x :: xs) s).2.1 = (askPoints rec q num xs (rec.pointFn rec.tree q num x s).2).2.1 := rfl
    rw [e1, e2, e3]
    refine ⟨?_, ?_, ?_, ?_, ?_, ?_⟩
    · intro e he
      rcases List.mem_cons.mp he with rfl | he
      · exact ⟨rfl, rfl, rfl, x, List.mem_cons_self, rfl⟩
      · obtain ⟨a, b, c, y, hy, hc⟩ := h1 e he
        exact ⟨a, b, c, y, List.mem_cons_of_mem _ hy, hc⟩
    · intro i
      rw [List.mem_cons, ← h2 i]
      constructor
      · rintro ⟨e, he, a, b, c⟩
        rcases List.mem_cons.mp he with rfl | he
        · exact Or.inl (by simpa using c.symm)
        · exact Or.inr ⟨e, he, a, b, c⟩
      · rintro (rfl | ⟨e, he, a, b, c⟩)
        · exact ⟨_, List.mem_cons_self, rfl, rfl, rfl⟩
        · exact ⟨e, List.mem_cons_of_mem _ he, a, b, c⟩
    · intro i
      have hx : Answered (⟨rec.tree, q, num, .point x, (rec.pointFn rec.tree q num x s).1⟩ ::
          (askPoints rec q num xs (rec.pointFn rec.tree q num x s).2).2.2) rec.tree q (.point i) true ↔
          (i = x ∧ (rec.pointFn rec.tree q num x s).1 = true) ∨
          Answered (askPoints rec q num xs (rec.pointFn rec.tree q num x s).2).2.2 rec.tree q (.point i) true := by
        constructor
        · rintro ⟨e, he, a, b, c, f⟩
          rcases List.mem_cons.mp he with rfl | he
          · exact Or.inl ⟨by simpa using c.symm, f⟩
          · exact Or.inr ⟨e, he, a, b, c, f⟩
        · rintro (⟨rfl, h⟩ | ⟨e, he, a, b, c⟩)
          · exact ⟨_, List.mem_cons_self, rfl, rfl, rfl, h⟩
          · exact ⟨e, List.mem_cons_of_mem _ he, a, b, c⟩
      rw [hx, h3]
      cases (rec.pointFn rec.tree q num x s).1 <;> simp
    · cases (rec.pointFn rec.tree q num x s).1
      · exact h4.cons x
      · exact h4.cons_cons x
    · rw [List.pairwise_cons]
      refine ⟨fun e he => ?_, h5⟩
      obtain ⟨a, b, c, y, hy, hc⟩ := h1 e he
      refine Or.inr ⟨a.symm, Or.inr ⟨b.symm, ?_⟩⟩
      rw [hc]
      exact hs.1 y hy
    · exact ⟨_, h6, rfl⟩

theorem askQuadrant_spec (rec : SearchRec d σ ι) (c : Call) (hc : ∀ i, c ≠ .point i) (q : Quad d) (num : ι) (s : σ) :
    (rec.quadrantFn.isSome = true ∧ (askQuadrant rec c q num s).2.2 = [⟨rec.tree, q, num, c, (askQuadrant rec c q num s).1⟩] ∨
      rec.quadrantFn.isSome = false ∧ (askQuadrant rec c q num s).1 = true ∧ (askQuadrant rec c q num s).2.2 = []) ∧
    Replays rec.quadrantFn rec.pointFn (askQuadrant rec c q num s).2.2 s (askQuadrant rec c q num s).2.1 := by
  unfold askQuadrant
  cases h : rec.quadrantFn with
  | none => simp [Replays]
  | some f =>
    refine ⟨Or.inl ⟨rfl, rfl⟩, ?_⟩
    cases c with
    | point i => exact absurd rfl (hc i)
    | enter => exact ⟨_, rfl, f, rfl, rfl⟩
    | leave => exact ⟨_, rfl, f, rfl, rfl⟩

/-- The active points are in order, and there is one. -/
def ActiveOk (points : Option ℕ) (actives : Option (List ℕ)) : Prop :=
  ∀ n, points = some n → (activePoints n actives).Pairwise (· < ·) ∧ activePoints n actives ≠ []

theorem cands_ne_nil {points : Option ℕ} {actives : Option (List ℕ)} (h : ActiveOk points actives) :
    cands points actives ≠ [] := by
  cases points with
  | none => simp [cands]
  | some n => simpa [cands] using (h n rfl).2

theorem searchQuadrant_spec (rec : SearchRec d σ ι) (isLeaf : Bool) (q : Quad d) (num : ι) (actives : Option (List ℕ))
    (s : σ) (hA : ActiveOk rec.points actives) :
    ∃ next s' E, searchQuadrant rec isLeaf q num actives s = (next, s', E) ∧
      QuadSearched rec.quadrantFn.isSome rec.callPost rec.tree q num (cands rec.points actives) E ∧
      Replays rec.quadrantFn rec.pointFn E s s' ∧
      (isLeaf = false → next = none → ∀ x ∈ cands rec.points actives, ¬ Passed E rec.tree q x) ∧
      (∀ a, next = some a → ActiveOk rec.points a) ∧
      (∀ a, next = some a → ∀ x, x ∈ cands rec.points a ↔ x ∈ cands rec.points actives ∧ Passed E rec.tree q x) := by
  obtain ⟨hpre, rpre⟩ := askQuadrant_spec rec .enter (by simp) q num s
  unfold searchQuadrant
  set pre := askQuadrant rec .enter q num s with hpredef
  obtain ⟨ans, s1, E1⟩ := pre
  dsimp only at hpre rpre ⊢
  cases ans with
  | false =>
    -- rejected on entry
    obtain ⟨hf, rfl⟩ : rec.quadrantFn.isSome = true ∧ E1 = [⟨rec.tree, q, num, .enter, false⟩] := by
      rcases hpre with h | h
      · exact h
      · simp at h
    have hrej : Answered [(⟨rec.tree, q, num, .enter, false⟩ : Event d ι)] rec.tree q .enter false :=
      ⟨_, List.mem_singleton_self _, rfl, rfl, rfl, rfl⟩
    rw [if_pos (by rfl)]
    refine ⟨none, s1, _, rfl, ⟨by simp, by simp, ?_, ?_, ?_⟩, rpre, ?_, by simp, by simp⟩
    · simp [Called, hf]
    · intro i; simp [Called, hrej]
    · simp [Called, hrej]
    · intro _ _ x _ h; exact h.1 hrej
  | true =>
    rw [if_neg (by simp)]
    have hE1 : ∀ e ∈ E1, e = ⟨rec.tree, q, num, .enter, true⟩ := by
      rcases hpre with ⟨-, rfl⟩ | ⟨-, -, rfl⟩ <;> simp
    have hE1f : rec.quadrantFn.isSome = true ↔ (⟨rec.tree, q, num, .enter, true⟩ : Event d ι) ∈ E1 := by
      rcases hpre with ⟨h, rfl⟩ | ⟨h, -, rfl⟩ <;> simp [h]
    have hE1p : E1.Pairwise Earlier := by
      rcases hpre with ⟨-, rfl⟩ | ⟨-, -, rfl⟩ <;> simp
    cases hpts : rec.points with
    | none =>
      dsimp only
      have hacc : ∀ c, ¬ Answered E1 rec.tree q c false := by
        rintro c ⟨e, he, -, -, -, h⟩
        rw [hE1 e he] at h; simp at h
      have hpass : Passed E1 rec.tree q none := ⟨hacc _, hacc _, by simp⟩
      refine ⟨_, s1, E1, rfl, ⟨hE1p, ?_, ?_, ?_, ?_⟩, rpre, ?_, ?_, ?_⟩
      · intro e he; rw [hE1 e he]; exact ⟨rfl, rfl, rfl⟩
      · rw [hE1f]
        constructor
        · rintro ⟨e, he, -⟩; rw [← hE1 e he]; exact he
        · intro h; exact ⟨_, h, rfl, rfl, rfl⟩
      · intro i
        simp only [cands, List.mem_singleton, reduceCtorEq, false_and, iff_false]
        rintro ⟨e, he, -, -, h⟩
        rw [hE1 e he] at h; simp at h
      · simp only [cands, List.mem_singleton, reduceCtorEq, exists_false, false_and, and_false, iff_false]
        rintro ⟨e, he, -, -, h⟩
        rw [hE1 e he] at h; simp at h
      · rintro rfl; simp
      · intro a ha n hn; simp at hn
      · intro a ha x
        simp only [cands, List.mem_singleton]
        constructor
        · rintro rfl; exact ⟨rfl, hpass⟩
        · exact fun h => h.1
    | some n =>
      dsimp only
      obtain ⟨hsort, hne⟩ := hA n hpts
      obtain ⟨h1, h2, h3, h4, h5, h6⟩ := askPoints_spec rec q num (activePoints n actives) s1 hsort
      set r := askPoints rec q num (activePoints n actives) s1 with hr
      obtain ⟨kept, s2, E2⟩ := r
      dsimp only at h1 h2 h3 h4 h5 h6 ⊢
      obtain ⟨x0, hx0⟩ := List.exists_mem_of_ne_nil _ hne
      -- common part: the third group of events
      have main : ∀ (E3 : List (Event d ι)) (ok : Bool) (s3 : σ),
          (rec.callPost = true ∧ rec.quadrantFn.isSome = true ∧ E3 = [⟨rec.tree, q, num, .leave, ok⟩] ∨
            (rec.callPost = false ∨ rec.quadrantFn.isSome = false) ∧ ok = true ∧ E3 = []) →
          Replays rec.quadrantFn rec.pointFn E3 s2 s3 →
          ∃ next s' E, ((if (if ok then (if isLeaf then [] else kept) else []).isEmpty then none else
              some (some (if ok then (if isLeaf then [] else kept) else [])) : Option (Option (List ℕ))), s3, E1 ++ E2 ++ E3) =
              (next, s', E) ∧
            QuadSearched rec.quadrantFn.isSome rec.callPost rec.tree q num (cands (some n) actives) E ∧
            Replays rec.quadrantFn rec.pointFn E s s' ∧
            (isLeaf = false → next = none → ∀ x ∈ cands (some n) actives, ¬ Passed E rec.tree q x) ∧
            (∀ a, next = some a → ActiveOk (some n) a) ∧
            (∀ a, next = some a → ∀ x, x ∈ cands (some n) a ↔ x ∈ cands (some n) actives ∧ Passed E rec.tree q x) := by
        intro E3 ok s3 hE3 r3
        have hE3m : ∀ e ∈ E3, e = ⟨rec.tree, q, num, .leave, ok⟩ := by
          rcases hE3 with ⟨-, -, rfl⟩ | ⟨-, -, rfl⟩ <;> simp
        have hE3p : E3.Pairwise Earlier := by
          rcases hE3 with ⟨-, -, rfl⟩ | ⟨-, -, rfl⟩ <;> simp
        have hE2m : ∀ e ∈ E2, ∀ c, (∀ i, c ≠ .point i) → e.call ≠ c := by
          intro e he c hc
          obtain ⟨-, -, -, y, -, hy⟩ := h1 e he
          rw [hy]; exact (hc y).symm
        have hnorej : ¬ Answered (E1 ++ E2 ++ E3) rec.tree q .enter false := by
          rintro ⟨e, he, -, -, hc, ha⟩
          simp only [List.mem_append] at he
          rcases he with (he | he) | he
          · rw [hE1 e he] at ha; simp at ha
          · exact hE2m e he .enter (by simp) hc
          · rw [hE3m e he] at hc; simp at hc
        have hleave : Answered (E1 ++ E2 ++ E3) rec.tree q .leave false ↔ ok = false := by
          constructor
          · rintro ⟨e, he, -, -, hc, ha⟩
            simp only [List.mem_append] at he
            rcases he with (he | he) | he
            · rw [hE1 e he] at hc; simp at hc
            · exact absurd hc (hE2m e he .leave (by simp))
            · rw [hE3m e he] at ha; exact ha
          · intro h
            rcases hE3 with ⟨-, -, rfl⟩ | ⟨-, h', -⟩
            · exact ⟨⟨rec.tree, q, num, .leave, ok⟩, by simp, rfl, rfl, rfl, h⟩
            · simp [h] at h'
        have hpt : ∀ i, Answered (E1 ++ E2 ++ E3) rec.tree q (.point i) true ↔ i ∈ kept := by
          intro i
          rw [← h3]
          constructor
          · rintro ⟨e, he, a, b, hc, ha⟩
            simp only [List.mem_append] at he
            rcases he with (he | he) | he
            · rw [hE1 e he] at hc; simp at hc
            · exact ⟨e, he, a, b, hc, ha⟩
            · rw [hE3m e he] at hc; simp at hc
          · rintro ⟨e, he, a⟩
            exact ⟨e, by simp [he], a⟩
        have hpassed : ∀ i, Passed (E1 ++ E2 ++ E3) rec.tree q (some i) ↔ ok = true ∧ i ∈ kept := by
          intro i
          unfold Passed
          rw [hleave]
          constructor
          · rintro ⟨-, b, c⟩; exact ⟨by simpa using b, (hpt i).mp (c i rfl)⟩
          · rintro ⟨a, b⟩; exact ⟨hnorej, by simp [a], fun j hj => by rw [← Option.some_inj.mp hj]; exact (hpt i).mpr b⟩
        refine ⟨_, s3, _, rfl, ⟨?_, ?_, ?_, ?_, ?_⟩, replays_append (replays_append rpre h6) r3, ?_, ?_, ?_⟩
        · rw [List.pairwise_append, List.pairwise_append]
          refine ⟨⟨hE1p, h5, ?_⟩, hE3p, ?_⟩
          · intro e he f hf
            obtain ⟨a, b, -, y, -, hy⟩ := h1 f hf
            rw [hE1 e he]
            refine Or.inr ⟨a.symm, Or.inr ⟨b.symm, ?_⟩⟩
            rw [hy]; trivial
          · intro e he f hf
            rw [hE3m f hf]
            rcases List.mem_append.mp he with he | he
            · rw [hE1 e he]; exact Or.inr ⟨rfl, Or.inr ⟨rfl, trivial⟩⟩
            · obtain ⟨a, b, -, y, -, hy⟩ := h1 e he
              refine Or.inr ⟨a, Or.inr ⟨b, ?_⟩⟩
              rw [hy]; trivial
        · intro e he
          simp only [List.mem_append] at he
          rcases he with (he | he) | he
          · rw [hE1 e he]; exact ⟨rfl, rfl, rfl⟩
          · obtain ⟨a, b, c, -⟩ := h1 e he; exact ⟨a, b, c⟩
          · rw [hE3m e he]; exact ⟨rfl, rfl, rfl⟩
        · rw [hE1f]
          constructor
          · rintro ⟨e, he, -, -, hc⟩
            simp only [List.mem_append] at he
            rcases he with (he | he) | he
            · rw [← hE1 e he]; exact he
            · exact absurd hc (hE2m e he .enter (by simp))
            · rw [hE3m e he] at hc; simp at hc
          · intro h
            exact ⟨⟨rec.tree, q, num, .enter, true⟩, List.mem_append_left _ (List.mem_append_left _ h), rfl, rfl, rfl⟩
        · intro i
          have : Called (E1 ++ E2 ++ E3) rec.tree q (.point i) ↔ i ∈ activePoints n actives := by
            rw [← h2]
            constructor
            · rintro ⟨e, he, a, b, hc⟩
              simp only [List.mem_append] at he
              rcases he with (he | he) | he
              · rw [hE1 e he] at hc; simp at hc
              · exact ⟨e, he, a, b, hc⟩
              · rw [hE3m e he] at hc; simp at hc
            · rintro ⟨e, he, a⟩
              exact ⟨e, by simp [he], a⟩
          rw [this]
          exact ⟨fun h => ⟨by simpa [cands] using h, hnorej⟩, fun h => by simpa [cands] using h.1⟩
        · have : Called (E1 ++ E2 ++ E3) rec.tree q .leave ↔ rec.callPost = true ∧ rec.quadrantFn.isSome = true := by
            constructor
            · rintro ⟨e, he, -, -, hc⟩
              simp only [List.mem_append] at he
              rcases he with (he | he) | he
              · rw [hE1 e he] at hc; simp at hc
              · exact absurd hc (hE2m e he .leave (by simp))
              · rcases hE3 with ⟨a, b, -⟩ | ⟨-, -, rfl⟩
                · exact ⟨a, b⟩
                · simp at he
            · rintro ⟨a, b⟩
              rcases hE3 with ⟨-, -, rfl⟩ | ⟨h, -⟩
              · exact ⟨⟨rec.tree, q, num, .leave, ok⟩, by simp, rfl, rfl, rfl⟩
              · simp [a, b] at h
          rw [this]
          constructor
          · rintro ⟨a, b⟩; exact ⟨b, a, ⟨x0, by simpa [cands] using hx0⟩, hnorej⟩
          · rintro ⟨a, b, -⟩; exact ⟨b, a⟩
        · rintro rfl hnx x hx
          obtain ⟨i, hi, rfl⟩ := List.mem_map.mp (show x ∈ (activePoints n actives).map some from hx)
          rw [hpassed]
          rintro ⟨rfl, hk⟩
          cases kept with
          | nil => simp at hk
          | cons a b => simp at hnx
        · intro a ha m hm
          cases hm
          cases ok <;> cases isLeaf <;> simp at ha
          obtain ⟨ha1, rfl⟩ := ha
          exact ⟨hsort.sublist h4, by simpa [activePoints] using ha1⟩
        · intro a ha x
          cases ok <;> cases isLeaf <;> simp at ha
          obtain ⟨ha1, rfl⟩ := ha
          have e : ∀ y, y ∈ cands (some n) (some kept) ↔ ∃ i ∈ kept, some i = y := by
            intro y; simp [cands, activePoints]
          rw [e]
          constructor
          · rintro ⟨i, hi, rfl⟩
            exact ⟨List.mem_map_of_mem (h4.subset hi), (hpassed i).mpr ⟨rfl, hi⟩⟩
          · rintro ⟨hx, hp⟩
            obtain ⟨i, hi, rfl⟩ := List.mem_map.mp (show x ∈ (activePoints n actives).map some from hx)
            exact ⟨i, ((hpassed i).mp hp).2, rfl⟩
      cases hcp : rec.callPost with
      | false =>
        rw [hcp] at main
        have := main [] true s2 (Or.inr ⟨Or.inl rfl, rfl, rfl⟩) rfl
        simpa using this
      | true =>
        rw [hcp] at main
        obtain ⟨hpost, rpost⟩ := askQuadrant_spec rec .leave (by simp) q num s2
        set post := askQuadrant rec .leave q num s2 with hpostdef
        obtain ⟨ans, s3, E3⟩ := post
        dsimp only at hpost rpost ⊢
        rw [if_pos rfl]
        refine main E3 ans s3 ?_ rpost
        rcases hpost with ⟨a, b⟩ | ⟨a, b, c⟩
        · exact Or.inl ⟨rfl, a, b⟩
        · exact Or.inr ⟨Or.inr a, b, c⟩

theorem searchChildren_spec {qf : Option (ℕ → Quad d → ℤ → σ → Bool × σ)} {pf : ℕ → Quad d → ℤ → ℕ → σ → Bool × σ}
    {g : Quad d → List (Quad d) → ℕ → σ → Option (σ × List (Event d))} {q : Quad d} {W : List (Quad d)} {pos : ℕ}
    {ind : ℕ → ℕ} {P : ℕ → List (Event d) → Prop}
    (h0 : ∀ k, k < 2 ^ d → ¬ ind k < ind (k + 1) → P k [])
    (h1 : ∀ k, k < 2 ^ d → ind k < ind (k + 1) → ∀ s, ∃ s' E,
      g (child q k) ((W.drop (ind k)).take (ind (k + 1) - ind k)) (pos + ind k) s = some (s', E) ∧ P k E ∧ Replays qf pf E s s') :
    ∀ (is : List ℕ), is.Nodup → (∀ i ∈ is, i < 2 ^ d) → ∀ s, ∃ s' Es,
      searchChildren g q W pos ((List.range (2 ^ d + 1)).map ind) is s = some (s', is.flatMap Es) ∧
      (∀ k ∈ is, P k (Es k)) ∧ Replays qf pf (is.flatMap Es) s s' := by
  intro is
  induction is with
  | nil => intro _ _ s; exact ⟨s, fun _ => [], rfl, by simp, rfl⟩
  | cons i is ih =>
    intro hnd hlt s
    rw [List.nodup_cons] at hnd
    have hi := hlt i List.mem_cons_self
    have hlt' : ∀ j ∈ is, j < 2 ^ d := fun j hj => hlt j (List.mem_cons_of_mem _ hj)
    have ea : ((List.range (2 ^ d + 1)).map ind)[i]? = some (ind i) := by
      rw [List.getElem?_map, List.getElem?_range (by omega)]; rfl
    have eb : ((List.range (2 ^ d + 1)).map ind)[i + 1]? = some (ind (i + 1)) := by
      rw [List.getElem?_map, List.getElem?_range (by omega)]; rfl
    have upd : ∀ (Es : ℕ → List (Event d)) E, is.flatMap (Function.update Es i E) = is.flatMap Es := by
      intro Es E
      rw [List.flatMap_def, List.flatMap_def]
      congr 1
      refine List.map_congr_left fun k hk => ?_
      rw [Function.update_of_ne]
      rintro rfl; exact hnd.1 hk
    have updP : ∀ (Es : ℕ → List (Event d)) E, P i E → (∀ k ∈ is, P k (Es k)) →
        ∀ k ∈ i :: is, P k (Function.update Es i E k) := by
      intro Es E hE h k hk
      by_cases hki : k = i
      · subst hki; rwa [Function.update_self]
      · rw [Function.update_of_ne hki]
        exact h k ((List.mem_cons.mp hk).resolve_left hki)
    unfold searchChildren
    rw [obind ea, obind eb]
    by_cases hc : ind i < ind (i + 1)
    · rw [if_pos hc]
      obtain ⟨s1, E, e1, p1, r1⟩ := h1 i hi hc s
      obtain ⟨s', Es, e2, p2, r2⟩ := ih hnd.2 hlt' s1
      refine ⟨s', Function.update Es i E, ?_, updP Es E p1 p2, ?_⟩
      · rw [obind e1, obind e2, List.flatMap_cons, Function.update_self, upd]
      · rw [List.flatMap_cons, Function.update_self, upd]
        exact replays_append r1 r2
    · rw [if_neg hc]
      obtain ⟨s', Es, e2, p2, r2⟩ := ih hnd.2 hlt' s
      refine ⟨s', Function.update Es i [], ?_, updP Es [] (h0 i hi hc) p2, ?_⟩
      · rw [e2, List.flatMap_cons, Function.update_self, upd]; rfl
      · rw [List.flatMap_cons, Function.update_self, upd]; exact r2

theorem noneActive_iff (points : Option ℕ) (actives : Option (List ℕ)) :
    noneActive points actives = true ↔ cands points actives = [] := by
  cases points with
  | none => simp [noneActive, cands]
  | some n => simp [noneActive, cands]

/-- The active points are in order. -/
def ActiveSorted (points : Option ℕ) (actives : Option (List ℕ)) : Prop :=
  ∀ n, points = some n → (activePoints n actives).Pairwise (· < ·)

theorem localRecursion_spec (hd : 0 < d) (rec : SearchRec d σ) (offset : ℤ) : ∀ (fuel : ℕ) (Q : Quad d) (W : List (Quad d)) (pos : ℕ)
    (actives : Option (List ℕ)) (s : σ), 30 ≤ fuel + Q.level → Valid Q → (∀ a ∈ W, Valid a) →
    W.Pairwise (fun q r => stop q ≤ start r) → (∀ a ∈ W, Cells a ⊆ Cells Q) → ActiveSorted rec.points actives →
    ∃ s' E, localRecursion rec offset fuel Q W pos actives s = some (s', E) ∧ E.Pairwise Earlier ∧
      (∀ e ∈ E, e.tree = rec.tree) ∧
      TreeSearched rec.quadrantFn.isSome rec.callPost rec.tree (Node W) (LeafNumber (offset + pos) W) (cands rec.points actives) E ∧
      Replays rec.quadrantFn rec.pointFn E s s' := by
  intro fuel
  induction fuel with
  | zero => intro Q W pos actives s hf hQ; have := hQ.1; omega
  | succ fuel ih =>
    intro Q W pos actives s hf hQ hv hlin hin hsort
    unfold localRecursion
    by_cases hstop : W.length = 0 ∨ noneActive rec.points actives = true
    · rw [if_pos hstop]
      refine ⟨s, [], rfl, List.Pairwise.nil, by simp, treeSearched_nil _ _ _ _ _ _ ?_, rfl⟩
      rcases hstop with h | h
      · exact Or.inl (node_nil (List.length_eq_zero_iff.mp h))
      · exact Or.inr ((noneActive_iff _ _).mp h)
    rw [if_neg hstop]
    push Not at hstop
    obtain ⟨hlen, hact⟩ := hstop
    have hxs : cands rec.points actives ≠ [] := fun h => hact ((noneActive_iff _ _).mpr h)
    have hok : ActiveOk rec.points actives := by
      intro n hn
      refine ⟨hsort n hn, fun h => hxs ?_⟩
      rw [hn]; simp [cands, h]
    have hne : W ≠ [] := fun h => hlen (by rw [h]; rfl)
    obtain ⟨first, hfirst⟩ : ∃ x, W.head? = some x := ⟨_, List.head?_eq_some_head hne⟩
    obtain ⟨last, hlast⟩ : ∃ x, W.getLast? = some x := ⟨_, List.getLast?_eq_some_getLast hne⟩
    rw [obind hfirst, obind hlast]
    by_cases hl : W.length > 1
    · rw [if_pos hl]
      dsimp only
      obtain ⟨hlev, hb, hst⟩ := searchBranch_spec hd hQ hv hlin hin hl hfirst hlast
      set p := searchBranch Q first last with hp
      have hp29 := branch_level hd hv hb
      obtain ⟨next, s1, E0, e0, hq0, r0, hnone, hsome, hnext⟩ := searchQuadrant_spec rec false p (-1) actives s hok
      rw [e0]
      dsimp only
      have hsw : SortedWeak W := by
        unfold SortedWeak
        refine hlin.imp fun {a} {b} h => ?_
        rw [before_interval]
        have := start_lt_stop a
        omega
      obtain ⟨ind, hind, hi0, hi1, hmono, hiff⟩ := C26_split_array hd W p hb.1 hp29 hv hst hsw
      have hVget : ∀ k i, i < ind (k + 1) - ind k → ((W.drop (ind k)).take (ind (k + 1) - ind k))[i]? = W[ind k + i]? := by
        intro k i h
        rw [List.getElem?_take_of_lt h, List.getElem?_drop]
      have hV : ∀ k, k < 2 ^ d → ∀ q, q ∈ (W.drop (ind k)).take (ind (k + 1) - ind k) ↔ q ∈ W ∧ Cells q ⊆ Cells (kid p k) := by
        intro k hk q
        constructor
        · intro h
          obtain ⟨i, hi, rfl⟩ := List.mem_iff_getElem.mp h
          have hi' : i < ind (k + 1) - ind k := by
            have := List.length_take_le (ind (k + 1) - ind k) (W.drop (ind k)); omega
          have h1 := hVget k i hi'
          rw [List.getElem?_eq_getElem hi] at h1
          obtain ⟨h2, h3⟩ := List.getElem?_eq_some_iff.mp h1.symm
          rw [← h3]
          exact ⟨List.getElem_mem h2, (hiff k hk _ h2).mp ⟨by omega, by omega⟩⟩
        · rintro ⟨h1, h2⟩
          obtain ⟨i, hi, rfl⟩ := List.mem_iff_getElem.mp h1
          have h3 := (hiff k hk i hi).mpr h2
          have h4 := hVget k (i - ind k) (by omega)
          rw [show ind k + (i - ind k) = i by omega, List.getElem?_eq_getElem hi] at h4
          exact List.mem_of_getElem? h4
      have hVi : ∀ k, k < 2 ^ d → ∀ i, ∀ q, ((W.drop (ind k)).take (ind (k + 1) - ind k))[i]? = some q → W[ind k + i]? = some q := by
        intro k hk i q h
        obtain ⟨hi, -⟩ := List.getElem?_eq_some_iff.mp h
        have hi' : i < ind (k + 1) - ind k := by
          have := List.length_take_le (ind (k + 1) - ind k) (W.drop (ind k)); omega
        rw [← hVget k i hi']; exact h
      have hsplit := node_split hd hv hb hst hV
      have hkid : ∀ k, k < 2 ^ d → ∀ q, Node ((W.drop (ind k)).take (ind (k + 1) - ind k)) q →
          Valid q ∧ Cells q ⊆ Cells (kid p k) := by
        intro k hk q hq
        have hVv : ∀ a ∈ (W.drop (ind k)).take (ind (k + 1) - ind k), Valid a := fun a ha => hv a ((hV k hk a).mp ha).1
        exact ⟨node_valid hVv hq, node_inside hd hVv (kid_valid hb.1 hp29 k) (fun a ha => ((hV k hk a).mp ha).2) hq⟩
      have hargs : ∀ k, k < 2 ^ d → ∀ q n, Node ((W.drop (ind k)).take (ind (k + 1) - ind k)) q →
          LeafNumber (offset + pos + ind k) ((W.drop (ind k)).take (ind (k + 1) - ind k)) q n →
          LeafNumber (offset + pos) W q n := by
        rintro k hk q n - (⟨i, hi, h1⟩ | ⟨⟨h1, a, ha, b, hb', h2⟩, h3⟩)
        · exact Or.inl ⟨ind k + i, hVi k hk i _ hi, by rw [h1]; push_cast; ring⟩
        · exact Or.inr ⟨⟨h1, a, ((hV k hk a).mp ha).1, b, ((hV k hk b).mp hb').1, h2⟩, h3⟩
      have harg : LeafNumber (offset + pos) W p (-1) := Or.inr ⟨hb, rfl⟩
      cases next with
      | none =>
        dsimp only
        have h := treeSearched_branch hd (xs' := []) (Es := fun _ => []) hxs hb.1 hp29 hsplit hkid harg hargs hq0
          (fun x => by
            constructor
            · intro h; simp at h
            · rintro ⟨h1, h2⟩; exact absurd h2 (hnone rfl rfl x h1))
          (by simp) (by simp) (fun k hk => treeSearched_nil _ _ _ _ _ _ (Or.inr rfl))
        have e : E0 ++ (List.range (2 ^ d)).flatMap (fun _ => ([] : List (Event d))) = E0 := by simp
        rw [e] at h
        exact ⟨s1, E0, rfl, h.1, h.2.1, h.2.2, r0⟩
      | some chact =>
        dsimp only
        have hok' := hsome chact rfl
        have hch := searchChildren_spec (qf := rec.quadrantFn) (pf := rec.pointFn)
          (g := fun c w p => localRecursion rec offset fuel c w p chact) (q := p) (W := W) (pos := pos) (ind := ind)
          (P := fun k E => E.Pairwise Earlier ∧ (∀ e ∈ E, e.tree = rec.tree) ∧
            TreeSearched rec.quadrantFn.isSome rec.callPost rec.tree (Node ((W.drop (ind k)).take (ind (k + 1) - ind k)))
              (LeafNumber (offset + pos + ind k) ((W.drop (ind k)).take (ind (k + 1) - ind k))) (cands rec.points chact) E)
          (by
            intro k hk h
            refine ⟨List.Pairwise.nil, by simp, treeSearched_nil _ _ _ _ _ _ (Or.inl (node_nil ?_))⟩
            rw [show ind (k + 1) - ind k = 0 by omega, List.take_zero])
          (by
            intro k hk h s
            obtain ⟨s', E, e1, p1, p2, p3, p4⟩ := ih (child p k) ((W.drop (ind k)).take (ind (k + 1) - ind k)) (pos + ind k)
              chact s (by rw [child_level]; omega) (by rw [← kid_eq_child hb.1]; exact kid_valid hb.1 hp29 k)
              (fun a ha => hv a ((hV k hk a).mp ha).1)
              (hlin.sublist ((List.take_sublist _ _).trans (List.drop_sublist _ _)))
              (fun a ha => by rw [← kid_eq_child hb.1]; exact ((hV k hk a).mp ha).2)
              (fun n hn => (hok' n hn).1)
            refine ⟨s', E, e1, ⟨p1, p2, ?_⟩, p4⟩
            rw [show offset + (pos : ℤ) + (ind k : ℤ) = offset + ((pos + ind k : ℕ) : ℤ) by push_cast; ring]
            exact p3)
          (List.range (2 ^ d)) List.nodup_range (fun i hi => List.mem_range.mp hi) s1
        obtain ⟨s2, Es, e2, p2, r2⟩ := hch
        rw [hind, obind e2]
        have h := treeSearched_branch hd (xs' := cands rec.points chact) (Es := Es) hxs hb.1 hp29 hsplit hkid harg hargs hq0
          (hnext chact rfl) (fun k hk => (p2 k (List.mem_range.mpr hk)).2.1) (fun k hk => (p2 k (List.mem_range.mpr hk)).1)
          (fun k hk => (p2 k (List.mem_range.mpr hk)).2.2)
        exact ⟨s2, _, rfl, h.1, h.2.1, h.2.2, replays_append r0 r2⟩
    · rw [if_neg hl]
      dsimp only
      obtain ⟨next, s1, E0, e0, hq0, r0, -⟩ := searchQuadrant_spec rec true first (offset + pos) actives s hok
      rw [e0]
      obtain ⟨x, rfl⟩ : ∃ x, W = [x] := List.length_eq_one_iff.mp (by omega)
      obtain rfl : x = first := by simpa using hfirst
      exact ⟨s1, E0, rfl, hq0.order, fun e he => (hq0.mem e he).1,
        treeSearched_leaf (fun r => node_single hd (hv x (by simp)) r) (Or.inl ⟨0, rfl, by simp⟩) hxs hq0, r0⟩

end P4est
