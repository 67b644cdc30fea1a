import Verif.Lemmas.SearchLocal
import Verif.Props.TreeChecks

/-! # C40: the search of the local forest -/

namespace P4est
open Spec

variable {d : ℕ} {σ ι : Type}

theorem Spec.TreeSearched.congr {hasFn callPost : Bool} {t : ℕ} {W : Quad d → Prop} {arg : Quad d → ι → Prop} {xs : List (Option ℕ)}
    {E F : List (Event d ι)} (h : TreeSearched hasFn callPost t W arg xs E)
    (hc : ∀ e : Event d ι, e.tree = t → (e ∈ E ↔ e ∈ F)) : TreeSearched hasFn callPost t W arg xs F := by
  have hcalled : ∀ q c, Called F t q c ↔ Called E t q c := by
    intro q c
    constructor
    · rintro ⟨e, he, h1, h2⟩; exact ⟨e, (hc e h1).mpr he, h1, h2⟩
    · rintro ⟨e, he, h1, h2⟩; exact ⟨e, (hc e h1).mp he, h1, h2⟩
  have hans : ∀ q c b, Answered F t q c b ↔ Answered E t q c b := by
    intro q c b
    constructor
    · rintro ⟨e, he, h1, h2⟩; exact ⟨e, (hc e h1).mpr he, h1, h2⟩
    · rintro ⟨e, he, h1, h2⟩; exact ⟨e, (hc e h1).mp he, h1, h2⟩
  have hreach : ∀ q x, Reached F t W q x ↔ Reached E t W q x := by
    intro q x
    unfold Reached Passed
    simp only [hans]
  constructor
  · intro e he ht; exact h.only e ((hc e ht).mpr he) ht
  · intro q hq; simp only [hcalled, hreach]; exact h.enter q hq
  · intro q hq i; simp only [hcalled, hreach, hans]; exact h.point q hq i
  · intro q hq; simp only [hcalled, hreach, hans]; exact h.leave q hq

theorem targets_eq (points : Option ℕ) : targets points = cands points none := by
  cases points <;> rfl

theorem activeSorted_none (points : Option ℕ) : ActiveSorted points none := by
  intro n _
  exact List.pairwise_lt_range

theorem linear_stops {W : List (Quad d)} (hv : ∀ a ∈ W, Valid a) (h : Linear W) :
    W.Pairwise (fun q r => stop q ≤ start r) := by
  unfold Linear at h
  exact h.imp_of_mem fun {a} {b} ha hb hab =>
    (before_disjoint_iff (hv a ha).aligned (hv b hb).aligned (hv a ha).int32 (hv b hb).int32).mp hab

theorem valid_in_root (hd : 0 < d) {q : Quad d} (h : Valid q) : Cells q ⊆ Cells (root d) := by
  rw [valid_subset_iff hd (root_valid) h, start_root, stop_root]
  exact ⟨Nat.zero_le _, valid_stop_le hd h⟩

theorem searchTrees_spec (hd : 0 < d) {f : SearchForest d} (hf : Searchable f) (callPost : Bool)
    (qf : Option (ℕ → Quad d → ℤ → σ → Bool × σ)) (pf : ℕ → Quad d → ℤ → ℕ → σ → Bool × σ) (points : Option ℕ) :
    ∀ (n t : ℕ) (s : σ), t + n ≤ f.trees.length →
    ∃ s' E, searchTrees f callPost qf pf points n t s = some (s', E) ∧ E.Pairwise Earlier ∧
      (∀ e ∈ E, t ≤ e.tree ∧ e.tree < t + n) ∧
      (∀ u tree, t ≤ u → u < t + n → f.trees[u]? = some tree →
        TreeSearched qf.isSome callPost u (Node tree.2) (LeafNumber tree.1 tree.2) (targets points) E) ∧
      Replays qf pf E s s' := by
  intro n
  induction n with
  | zero =>
    intro t s _
    exact ⟨s, [], rfl, List.Pairwise.nil, by simp, by intro u tree h1 h2; omega, rfl⟩
  | succ n ih =>
    intro t s hlen
    have ht : f.trees[t]? = some f.trees[t] := List.getElem?_eq_getElem (by omega)
    obtain ⟨hv, hlin⟩ := hf.trees f.trees[t] (List.getElem_mem _)
    obtain ⟨s1, E1, e1, o1, t1, p1, r1⟩ := localRecursion_spec hd
      ⟨t, callPost, qf, pf, points⟩ f.trees[t].1 31 (root d) f.trees[t].2 0 none s (by simp [root]) root_valid hv
      (linear_stops hv hlin) (fun a ha => valid_in_root hd (hv a ha)) (activeSorted_none _)
    obtain ⟨s2, E2, e2, o2, t2, p2, r2⟩ := ih (t + 1) s1 (by omega)
    dsimp only at t1 p1 r1
    refine ⟨s2, E1 ++ E2, ?_, ?_, ?_, ?_, replays_append r1 r2⟩
    · unfold searchTrees
      rw [obind ht, obind e1, obind e2]
    · rw [List.pairwise_append]
      refine ⟨o1, o2, fun e he g hg => Or.inl ?_⟩
      have := t1 e he
      have := t2 g hg
      omega
    · intro e he
      rcases List.mem_append.mp he with he | he
      · have := t1 e he; omega
      · have := t2 e he; omega
    · intro u tree h1 h2 htree
      by_cases hu : u = t
      · subst hu
        rw [ht] at htree
        obtain rfl := Option.some_inj.mp htree
        rw [targets_eq]
        have p1' : TreeSearched qf.isSome callPost u (Node f.trees[u].2) (LeafNumber f.trees[u].1 f.trees[u].2) (cands points none) E1 := by
          simpa using p1
        refine p1'.congr fun e he => ?_
        rw [List.mem_append]
        constructor
        · exact Or.inl
        · rintro (h | h)
          · exact h
          · have := t2 e h; omega
      · refine (p2 u tree (by omega) (by omega) htree).congr fun e he => ?_
        rw [List.mem_append]
        constructor
        · exact Or.inr
        · rintro (h | h)
          · have := t1 e h; omega
          · exact h

/-- C40. For every local forest, every pair of callbacks, with or without points, with or without
the second call: the search returns, the user's state runs through the callbacks in the order of
the recorded calls, and the calls are exactly these, in depth-first order: a quadrant is entered if
some target got past all search quadrants above it; unless it is rejected then, the points that
arrived are shown in order; then it is called again if so requested. -/
theorem C40_search_local (hd : 0 < d) (f : SearchForest d) (hf : Searchable f) (callPost : Bool)
    (qf : Option (ℕ → Quad d → ℤ → σ → Bool × σ)) (pf : ℕ → Quad d → ℤ → ℕ → σ → Bool × σ) (points : Option ℕ)
    (s : σ) :
    ∃ s' E, searchLocal f callPost qf pf points s = some (s', E) ∧ Searched f qf.isSome callPost points E ∧
      Replays qf pf E s s' := by
  unfold searchLocal
  by_cases h : (qf.isNone && points.isNone) = true
  · rw [if_pos h]
    simp only [Bool.and_eq_true, Option.isNone_iff_eq_none] at h
    obtain ⟨rfl, rfl⟩ := h
    refine ⟨s, [], rfl, ⟨List.Pairwise.nil, by simp, fun t tree h1 h2 h3 => ?_⟩, rfl⟩
    constructor <;> simp [Called, targets]
  · rw [if_neg h]
    have hfirst := hf.first
    have hlast := hf.last
    by_cases he : f.last < f.first
    · rw [show (f.last + 1 - f.first).toNat = 0 by omega]
      refine ⟨s, [], rfl, ⟨List.Pairwise.nil, by simp, fun t tree h1 h2 h3 => ?_⟩, rfl⟩
      omega
    · obtain ⟨s', E, e, o, t, p, r⟩ := searchTrees_spec hd hf callPost qf pf points (f.last + 1 - f.first).toNat
        f.first.toNat s (by omega)
      refine ⟨s', E, e, ⟨o, fun g hg => ?_, fun u tree h1 h2 h3 => p u tree (by omega) (by omega) h3⟩, r⟩
      have := t g hg
      omega

/-! ## Consequences -/

theorem earlier_irrefl {e f : Event d ι} (h : e.tree = f.tree ∧ e.quad = f.quad ∧ e.call = f.call) : ¬ Earlier e f := by
  rintro (h1 | ⟨-, h1 | ⟨-, h1⟩⟩)
  · omega
  · rw [before_interval, h.2.1] at h1; omega
  · rw [h.2.2] at h1
    cases hc : f.call with
    | point x => rw [hc] at h1; exact lt_irrefl x h1
    | enter => rw [hc] at h1; exact h1
    | leave => rw [hc] at h1; exact h1

theorem once_of_called {E : List (Event d ι)} (ho : E.Pairwise Earlier) {e : Event d ι} (he : e ∈ E) :
    CalledOnce E e.tree e.quad e.num e.call := by
  obtain ⟨E1, E2, rfl⟩ := List.append_of_mem he
  refine ⟨E1, E2, e.answer, rfl, fun g hg hk => ?_⟩
  rw [List.pairwise_append, List.pairwise_cons] at ho
  rcases List.mem_append.mp hg with hg | hg
  · exact earlier_irrefl hk (ho.2.2 g hg e List.mem_cons_self)
  · exact earlier_irrefl ⟨hk.1.symm, hk.2.1.symm, hk.2.2.symm⟩ (ho.2.1.1 g hg)

theorem replays_answer {qf : Option (ℕ → Quad d → ι → σ → Bool × σ)} {pf : ℕ → Quad d → ι → ℕ → σ → Bool × σ}
    {acc : ℕ → Quad d → Bool} {m : ℕ → Quad d → ℕ → Bool}
    (hq : ∀ fn, qf = some fn → ∀ t q n s, (fn t q n s).1 = acc t q)
    (hp : ∀ t q n x s, (pf t q n x s).1 = m t q x) :
    ∀ (E : List (Event d ι)) (s s' : σ), Replays qf pf E s s' → ∀ e ∈ E,
      (∀ x, e.call = .point x → e.answer = m e.tree e.quad x) ∧
      ((∀ x, e.call ≠ .point x) → e.answer = acc e.tree e.quad) := by
  intro E
  induction E with
  | nil => simp
  | cons a E ih =>
    rintro s s' ⟨s1, h1, h2⟩ e he
    rcases List.mem_cons.mp he with rfl | he
    · cases hc : e.call with
      | point x =>
        rw [hc] at h2
        refine ⟨fun y hy => ?_, fun h => absurd rfl (h x)⟩
        cases hy
        rw [← hp e.tree e.quad e.num x s, h2]
      | enter =>
        rw [hc] at h2
        obtain ⟨fn, hfn, h3⟩ := h2
        exact ⟨by simp, fun _ => by rw [← hq fn hfn e.tree e.quad e.num s, h3]⟩
      | leave =>
        rw [hc] at h2
        obtain ⟨fn, hfn, h3⟩ := h2
        exact ⟨by simp, fun _ => by rw [← hq fn hfn e.tree e.quad e.num s, h3]⟩
    · exact ih s1 s' h1 e he

/-- The target is wanted by `m` at quadrant `b`. -/
def wants (m : ℕ → Quad d → ℕ → Bool) (t : ℕ) (b : Quad d) : Option ℕ → Prop
  | none => True
  | some i => m t b i = true

theorem reached_iff (hd : 0 < d) {hasFn callPost : Bool} {t : ℕ} {W : Quad d → Prop} {arg : Quad d → ι → Prop} {xs : List (Option ℕ)}
    {E : List (Event d ι)} {acc : ℕ → Quad d → Bool} {m : ℕ → Quad d → ℕ → Bool} (hv : ∀ a, W a → Valid a)
    (h : TreeSearched hasFn callPost t W arg xs E) (hno : hasFn = false → ∀ q, acc t q = true)
    (ha : ∀ e ∈ E, (∀ x, e.call = .point x → e.answer = m e.tree e.quad x) ∧
      ((∀ x, e.call ≠ .point x) → e.answer = acc e.tree e.quad)) {x : Option ℕ} (hx : x ∈ xs) :
    ∀ (n : ℕ) (q : Quad d), q.level = n → W q →
      (Reached E t W q x ↔ ∀ b, W b → Cells q ⊂ Cells b → acc t b = true ∧ wants m t b x) := by
  intro n
  induction n using Nat.strong_induction_on with
  | _ n ih =>
    intro q hn hq
    have hacc : ∀ b c, (∀ i, c ≠ .point i) → Answered E t b c false → acc t b = false := by
      rintro b c hc ⟨e, he, rfl, rfl, rfl, hans⟩
      rw [← (ha e he).2 hc, hans]
    constructor
    · intro hr b hb hs
      have hb' : Reached E t W b x := fun c hc hs' => hr c hc (hs.trans hs')
      obtain ⟨p1, p2, p3⟩ := hr b hb hs
      constructor
      · cases hf : hasFn with
        | false => exact hno hf b
        | true =>
          obtain ⟨e, he, rfl, rfl, hc⟩ := (h.enter b hb).mpr ⟨hf, x, hx, hb'⟩
          by_contra hacc'
          refine p1 ⟨e, he, rfl, rfl, hc, ?_⟩
          rw [(ha e he).2 (by rw [hc]; simp)]
          simpa using hacc'
      · cases x with
        | none => trivial
        | some i =>
          obtain ⟨e, he, rfl, rfl, hc, hans⟩ := p3 i rfl
          show m e.tree e.quad i = true
          rw [← (ha e he).1 i hc, hans]
    · intro hr b hb hs
      have hlt : b.level < n := by
        rw [← hn]
        exact ((valid_ssubset_iff hd (hv b hb) (hv q hq)).mp hs).1
      have hb' := (ih b.level hlt b rfl hb).mpr fun c hc hs' => hr c hc (hs.trans hs')
      obtain ⟨h1, h2⟩ := hr b hb hs
      have hn1 : ¬ Answered E t b .enter false := fun h' => by
        have := hacc b .enter (by simp) h'; rw [h1] at this; simp at this
      refine ⟨hn1, fun h' => ?_, ?_⟩
      · have := hacc b .leave (by simp) h'; rw [h1] at this; simp at this
      · rintro i rfl
        obtain ⟨e, he, rfl, rfl, hc⟩ := (h.point b hb i).mpr ⟨hx, hb', hn1⟩
        refine ⟨e, he, rfl, rfl, hc, ?_⟩
        rw [(ha e he).1 i hc]; exact h2

theorem leaves_apart {W : List (Quad d)} (h : W.Pairwise (fun q r => stop q ≤ start r)) {a b : Quad d}
    (ha : a ∈ W) (hb : b ∈ W) : a = b ∨ stop a ≤ start b ∨ stop b ≤ start a := by
  obtain ⟨i, hi, rfl⟩ := List.mem_iff_getElem.mp ha
  obtain ⟨j, hj, rfl⟩ := List.mem_iff_getElem.mp hb
  rw [List.pairwise_iff_getElem] at h
  rcases Nat.lt_trichotomy i j with hij | rfl | hij
  · exact Or.inr (Or.inl (h i j hi hj hij))
  · exact Or.inl rfl
  · exact Or.inr (Or.inr (h j i hj hi hij))

theorem leaf_not_above (hd : 0 < d) {W : List (Quad d)} (hv : ∀ a ∈ W, Valid a)
    (h : W.Pairwise (fun q r => stop q ≤ start r)) {a b : Quad d} (ha : a ∈ W) (hb : b ∈ W) :
    ¬ Cells a ⊂ Cells b := by
  intro hs
  have h1 := (valid_subset_iff hd (hv b hb) (hv a ha)).mp hs.1
  have h2 := start_lt_stop a
  rcases leaves_apart h ha hb with rfl | h3 | h3
  · exact absurd rfl hs.ne
  · omega
  · omega

theorem leaf_not_branch (hd : 0 < d) {W : List (Quad d)} (hv : ∀ a ∈ W, Valid a)
    (h : W.Pairwise (fun q r => stop q ≤ start r)) {b : Quad d} (hb : b ∈ W) : ¬ Branch W b := by
  intro hbr
  have hl := branch_level hd hv hbr
  obtain ⟨hq, a, ha, -, -, j, -, hj, -, -, h1, -⟩ := hbr
  exact leaf_not_above hd hv h ha hb (lt_of_le_of_lt h1 (kid_subset hd hq hl hj))

/-- C40. If the callbacks decide by the quadrant, and the point, alone (`acc` and `m`; a missing
quadrant callback accepts all), then a leaf is shown exactly the points that match it and all search
quadrants above, exactly once and under its local number; without points, it is visited exactly if
all search quadrants above are accepted. -/
theorem C40_matches (hd : 0 < d) (f : SearchForest d) (hf : Searchable f) (callPost : Bool)
    (qf : Option (ℕ → Quad d → ℤ → σ → Bool × σ)) (pf : ℕ → Quad d → ℤ → ℕ → σ → Bool × σ) (points : Option ℕ)
    (acc : ℕ → Quad d → Bool) (m : ℕ → Quad d → ℕ → Bool)
    (hq : ∀ fn, qf = some fn → ∀ t q n s, (fn t q n s).1 = acc t q)
    (hno : qf = none → ∀ t q, acc t q = true)
    (hp : ∀ t q n x s, (pf t q n x s).1 = m t q x) (s : σ) :
    ∃ s' E, searchLocal f callPost qf pf points s = some (s', E) ∧
      ∀ (t : ℕ) offset leaves, f.first ≤ t → (t : ℤ) ≤ f.last → f.trees[t]? = some (offset, leaves) →
      ∀ (i : ℕ) (leaf : Quad d), leaves[i]? = some leaf →
        (points = none → qf.isSome = true → (∀ b, Branch leaves b → Cells leaf ⊂ Cells b → acc t b = true) →
          CalledOnce E t leaf (offset + i) .enter) ∧
        (points = none → (∃ b, Branch leaves b ∧ Cells leaf ⊂ Cells b ∧ acc t b = false) →
          ¬ Called E t leaf .enter) ∧
        (∀ n x, points = some n → x < n →
          (∀ b, Branch leaves b → Cells leaf ⊂ Cells b → acc t b = true ∧ m t b x = true) → acc t leaf = true →
          CalledOnce E t leaf (offset + i) (.point x)) ∧
        (∀ x, (acc t leaf = false ∨ ∃ b, Branch leaves b ∧ Cells leaf ⊂ Cells b ∧ ¬ (acc t b = true ∧ m t b x = true)) →
          ¬ Called E t leaf (.point x)) := by
  obtain ⟨s', E, e, hs, hr⟩ := C40_search_local hd f hf callPost qf pf points s
  refine ⟨s', E, e, fun t off W h1 h2 htree i leaf hleaf => ?_⟩
  have hts := hs.trees t (off, W) h1 h2 htree
  dsimp only at hts
  obtain ⟨hv, hlin⟩ := hf.trees (off, W) (List.mem_of_getElem? htree)
  dsimp only at hv hlin
  have hlin' := linear_stops hv hlin
  have hans := replays_answer hq hp E s s' hr
  have hn : Node W leaf := Or.inl (List.mem_of_getElem? hleaf)
  have hnv : ∀ a, Node W a → Valid a := fun a ha => node_valid hv ha
  have hno' : qf.isSome = false → ∀ q, acc t q = true := by
    intro h q
    exact hno (by simpa using h) t q
  -- the local number is that of the leaf
  have hnum : ∀ c, Called E t leaf c → CalledOnce E t leaf (off + i) c := by
    rintro c ⟨g, hg, rfl, rfl, rfl⟩
    have h3 := once_of_called hs.order hg
    have h4 : g.num = off + i := by
      rcases (hts.only g hg rfl).2 with ⟨j, hj, h5⟩ | ⟨hb, -⟩
      · obtain ⟨hi', hgi⟩ := List.getElem?_eq_some_iff.mp hleaf
        obtain ⟨hj', hgj⟩ := List.getElem?_eq_some_iff.mp hj
        rw [h5]
        suffices i = j by rw [this]
        rw [List.pairwise_iff_getElem] at hlin'
        by_contra hne
        have hl := start_lt_stop g.quad
        rcases Nat.lt_or_gt_of_ne hne with h | h
        · have := hlin' i j hi' hj' h; rw [hgi, hgj] at this; omega
        · have := hlin' j i hj' hi' h; rw [hgi, hgj] at this; omega
      · -- a leaf is not a branch
        exact absurd hb (leaf_not_branch hd hv hlin' (List.mem_of_getElem? hleaf))
    rw [h4] at h3
    exact h3
  have hmem := List.mem_of_getElem? hleaf
  have habove : ∀ b, Node W b → Cells leaf ⊂ Cells b → Branch W b := by
    rintro b (hb | hb) hsub
    · exact absurd hsub (leaf_not_above hd hv hlin' hmem hb)
    · exact hb
  have hrej : Answered E t leaf .enter false → acc t leaf = false := by
    rintro ⟨g, hg, rfl, rfl, hc, ha⟩
    rw [← (hans g hg).2 (by rw [hc]; simp), ha]
  refine ⟨?_, ?_, ?_, ?_⟩
  · rintro rfl hfn hall
    refine hnum _ ((hts.enter leaf hn).mpr ⟨hfn, none, by simp [targets], ?_⟩)
    rw [reached_iff hd hnv hts hno' hans (by simp [targets]) _ leaf rfl hn]
    exact fun b hb hsub => ⟨hall b (habove b hb hsub) hsub, trivial⟩
  · rintro rfl ⟨b, hb, hsub, hfalse⟩ hc
    obtain ⟨-, x, hx, hreach⟩ := (hts.enter leaf hn).mp hc
    rw [reached_iff hd hnv hts hno' hans hx _ leaf rfl hn] at hreach
    have := (hreach b (Or.inr hb) hsub).1
    rw [hfalse] at this; simp at this
  · rintro n x rfl hx hall hleafacc
    have hxt : some x ∈ targets (some n) := by simpa [targets] using hx
    refine hnum _ ((hts.point leaf hn x).mpr ⟨hxt, ?_, fun h => ?_⟩)
    · rw [reached_iff hd hnv hts hno' hans hxt _ leaf rfl hn]
      exact fun b hb hsub => hall b (habove b hb hsub) hsub
    · have := hrej h; rw [hleafacc] at this; simp at this
  · intro x hbad hc
    obtain ⟨hxt, hreach, hnrej⟩ := (hts.point leaf hn x).mp hc
    have hreach' := hreach
    rw [reached_iff hd hnv hts hno' hans hxt _ leaf rfl hn] at hreach
    rcases hbad with hbad | ⟨b, hb, hsub, hbad⟩
    · have hfn : qf.isSome = true := by
        by_contra h
        have := hno' (by simpa using h) leaf
        rw [hbad] at this; simp at this
      obtain ⟨g, hg, rfl, rfl, hgc⟩ := (hts.enter leaf hn).mpr ⟨hfn, some x, hxt, hreach'⟩
      refine hnrej ⟨g, hg, rfl, rfl, hgc, ?_⟩
      rw [(hans g hg).2 (by rw [hgc]; simp), hbad]
    · exact hbad (hreach b (Or.inr hb) hsub)

/-- C40. A search that is never stopped visits every local leaf exactly once, under its local number, and shows
it every point exactly once. -/
theorem C40_every_leaf_once (hd : 0 < d) (f : SearchForest d) (hf : Searchable f) (callPost : Bool)
    (qf : Option (ℕ → Quad d → ℤ → σ → Bool × σ)) (pf : ℕ → Quad d → ℤ → ℕ → σ → Bool × σ) (points : Option ℕ)
    (hq : ∀ fn, qf = some fn → ∀ t q n s, (fn t q n s).1 = true)
    (hp : ∀ t q n x s, (pf t q n x s).1 = true) (s : σ) :
    ∃ s' E, searchLocal f callPost qf pf points s = some (s', E) ∧
      ∀ (t : ℕ) offset leaves, f.first ≤ t → (t : ℤ) ≤ f.last → f.trees[t]? = some (offset, leaves) →
      ∀ (i : ℕ) (leaf : Quad d), leaves[i]? = some leaf →
        (points = none → qf.isSome = true → CalledOnce E t leaf (offset + i) .enter) ∧
        (∀ n x, points = some n → x < n → CalledOnce E t leaf (offset + i) (.point x)) := by
  obtain ⟨s', E, e, h⟩ := C40_matches hd f hf callPost qf pf points (fun _ _ => true) (fun _ _ _ => true) hq
    (fun _ _ _ => rfl) hp s
  refine ⟨s', E, e, fun t off W h1 h2 h3 i leaf hl => ?_⟩
  obtain ⟨a, -, b, -⟩ := h t off W h1 h2 h3 i leaf hl
  exact ⟨fun h4 h5 => a h4 h5 (fun _ _ _ => rfl), fun n x h4 h5 => b n x h4 h5 (fun _ _ _ => ⟨rfl, rfl⟩) rfl⟩

/-- Two trees, of which tree 1 is local with three leaves: two children of the root and a grandchild in
a third one. -/
def searchExample : SearchForest 2 :=
  ⟨[(0, []), (0, [⟨![0, 0], 1⟩, ⟨![0, 536870912], 2⟩, ⟨![536870912, 536870912], 1⟩])], 1, 1⟩

theorem searchExample_ok : Searchable searchExample := by
  refine ⟨Or.inl (by decide), by decide, ?_⟩
  intro tree ht
  have hv : ∀ q ∈ ([⟨![0, 0], 1⟩, ⟨![0, 536870912], 2⟩, ⟨![536870912, 536870912], 1⟩] : List (Quad 2)), Valid q := by
    intro q hq
    simp only [List.mem_cons, List.not_mem_nil, or_false] at hq
    rcases hq with rfl | rfl | rfl <;> rw [← isValid_iff] <;> decide +kernel
  simp only [searchExample, List.mem_cons, List.not_mem_nil, or_false] at ht
  rcases ht with rfl | rfl
  · simp [Linear]
  · refine ⟨hv, ?_⟩
    rw [← C16_is_linear_iff (by norm_num) _ (fun q hq => (hv q hq).extended)]
    decide +kernel

/-- The example without points: the root is a branch, and the three leaves follow. -/
example : (searchLocal searchExample false (some fun _ _ _ (s : ℕ) => (true, s + 1)) (fun _ _ _ _ s => (true, s)) none 0).map
    (fun r => (r.1, r.2.map fun e => (e.tree, e.quad.level, e.num))) =
    some (4, [(1, 0, -1), (1, 1, 0), (1, 2, 1), (1, 1, 2)]) := by decide +kernel

/-- The example with two points, of which number 1 is kept at the root and shown to all leaves. -/
example : (searchLocal searchExample true none (fun _ _ _ x (s : ℕ) => (x = 1, s + 1)) (some 2) 0).map
    (fun r => (r.1, r.2.map fun e => (e.quad.level, e.num, e.call, e.answer))) =
    some (5, [(0, -1, .point 0, false), (0, -1, .point 1, true), (1, 0, .point 1, true), (2, 1, .point 1, true),
      (1, 2, .point 1, true)]) := by decide +kernel

end P4est
