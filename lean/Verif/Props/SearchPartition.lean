import Verif.Lemmas.SearchPartition

/-! # C51, C52: the searches of the partition and of the whole forest -/

namespace P4est
open Spec

variable {d : ℕ} {σ ι : Type}

/-! ## Search of the partition -/

theorem partitionNode_iff (hd : 0 < d) {P : ℕ} {leaves : ℕ → List (ℕ × Quad d)} {t : ℕ} (q : Quad d) :
    GoNode (Shared P leaves t) (root d) q ↔ PartitionNode P leaves t q := goNode_root hd q

theorem globallySearched_nil {numTrees : ℕ} {node : ℕ → Quad d → Prop} {arg : ℕ → Quad d → ι → Prop} {callPost : Bool} :
    GloballySearched numTrees node arg false callPost none [] := by
  refine ⟨List.Pairwise.nil, by simp, fun t ht => ?_⟩
  constructor <;> simp [Called, targets]

/-- C51. For every distribution of the leaves of a forest of complete trees among ranks, some of which may be
empty, with or without the counts of leaves, every pair of callbacks, with or without points,
with or without the second call: the search of the partition returns, the user's state runs through the
callbacks in the order of the recorded calls, and the calls are exactly these, for every tree of
the forest, in depth-first order: those of the top-down search through all quadrants shared
between ranks and their children, each with the lowest and the highest rank that own part of it. -/
theorem C51_search_partition (hd : 0 < d) (trees : List (List (Quad d))) (P : ℕ) (leaves : ℕ → List (ℕ × Quad d))
    (h : Distributed trees P leaves) (gfq : Option (List ℤ)) (hg : gfq = none ∨ gfq = some (rankCounts leaves P))
    (callPost : Bool) (qf : Option (ℕ → Quad d → ℕ × ℕ → σ → Bool × σ)) (pf : ℕ → Quad d → ℕ × ℕ → ℕ → σ → Bool × σ)
    (points : Option ℕ) (s : σ) :
    ∃ s' E, searchPartition gfq (globalPartition leaves P trees.length) trees.length callPost qf pf points s = some (s', E) ∧
      GloballySearched trees.length (PartitionNode P leaves) (OwnerRange P leaves) qf.isSome callPost points E ∧
      Replays qf pf E s s' := by
  obtain ⟨w, hs⟩ := h.segments hd
  unfold searchPartition
  by_cases hn : (qf.isNone && points.isNone) = true
  · rw [if_pos hn]
    simp only [Bool.and_eq_true, Option.isNone_iff_eq_none] at hn
    obtain ⟨rfl, rfl⟩ := hn
    exact ⟨s, [], rfl, globallySearched_nil, rfl⟩
  rw [if_neg hn]
  obtain ⟨tp, etp, htp0, htp⟩ := treeRange_spec hd hs hg
  obtain ⟨s', E, e, o, i, p, r⟩ := rankTreeLoop_spec (qf := qf) (pf := pf) (range := ownerRange gfq (globalPartition leaves P trees.length))
    (go := fun t pfirst plast => partitionRecursion gfq (globalPartition leaves P trees.length)
      ⟨t, callPost, qf, pf, points⟩ 31 (root d) pfirst plast none)
    (tp := tp) (hasFn := qf.isSome) (callPost := callPost) (xs := targets points) (node := PartitionNode P leaves)
    (arg := OwnerRange P leaves) (N := trees.length)
    (by
      intro t ht
      obtain ⟨a, b, e1, hb⟩ := htp t ht
      refine ⟨a, b, e1, fun x => ?_⟩
      obtain ⟨x', E, e2, o2, t2, p2, r2⟩ := partitionRecursion_spec hd hs hg ⟨t, callPost, qf, pf, points⟩ ht 31 (root d) a b none x
        (by simp [root]) root_valid hb (activeSorted_none _)
      refine ⟨x', E, e2, o2, t2, ?_, r2⟩
      rw [targets_eq]
      exact p2.node_congr (fun q => partitionNode_iff hd q) (fun _ _ _ h => h))
    trees.length 0 (Nat.zero_add _) s
  rw [etp]
  rw [htp0] at e
  exact ⟨s', E, e, ⟨o, fun e he => (i e he).2, fun t ht => p t (Nat.zero_le _) ht⟩, r⟩

/-! ### Where points arrive -/

/-- Some search quadrant on the way to a cell is a last one. -/
theorem goNode_reach (hd : 0 < d) {go : Quad d → Prop} (hlev : ∀ b, GoNode go (root d) b → go b → b.level < 29)
    {p : Fin d → ℤ} :
    ∀ (n : ℕ) (Q : Quad d), 30 ≤ n + Q.level → GoNode go (root d) Q → p ∈ Cells Q →
      ∃ q, GoNode go (root d) q ∧ p ∈ Cells q ∧ ¬ go q := by
  intro n
  induction n with
  | zero => intro Q hn hQ hp; have := hQ.1.1; omega
  | succ n ih =>
    intro Q hn hQ hp
    by_cases hg : go Q
    · have hl := hlev Q hQ hg
      have hm : p ∈ Cells (kid Q (ancestorId ⟨p, 30⟩ (Q.level + 1))) := by
        rw [kid_eq_child hQ.1]
        exact (mem_child_iff hQ.1.aligned (by omega) hp (ancestorId_lt _ _)).mpr rfl
      refine ih (kid Q _) (by show 30 ≤ n + (Q.level + 1); omega) ⟨kid_valid hQ.1 hl _, valid_in_root hd (kid_valid hQ.1 hl _), ?_⟩ hm
      intro b hb hbr hsub
      by_cases hne : b = Q
      · rw [hne]; exact hg
      · rcases C03_nested_or_disjoint b Q hb.extended hQ.1.extended with h1 | h1 | h1
        · exact hQ.2.2 b hb hbr (valid_ssubset_of_ne hd hb hQ.1 h1 (Ne.symm hne))
        · have h2 := valid_ssubset_of_ne hd hQ.1 hb h1 hne
          have l1 := ((valid_ssubset_iff hd hQ.1 hb).mp h2).1
          have l2 := ((valid_ssubset_iff hd hb (kid_valid hQ.1 hl _)).mp hsub).1
          have l3 : ∀ k, (kid Q k).level = Q.level + 1 := fun _ => rfl
          rw [l3] at l2
          omega
        · exact absurd ⟨hsub.1 hm, hp⟩ (h1 p)
    · exact ⟨Q, hQ, hp, hg⟩

theorem globally_called (hd : 0 < d) {N : ℕ} {node : ℕ → Quad d → Prop} {arg : ℕ → Quad d → ι → Prop} {callPost : Bool}
    {points : Option ℕ} {E : List (Event d ι)} {qf : Option (ℕ → Quad d → ι → σ → Bool × σ)}
    {pf : ℕ → Quad d → ι → ℕ → σ → Bool × σ} (h : GloballySearched N node arg qf.isSome callPost points E)
    {s s' : σ} (hr : Replays qf pf E s s') {acc : ℕ → Quad d → Bool} {m : ℕ → Quad d → ℕ → Bool}
    (hq : ∀ fn, qf = some fn → ∀ t q n s, (fn t q n s).1 = acc t q)
    (hno : qf = none → ∀ t q, acc t q = true)
    (hp : ∀ t q n x s, (pf t q n x s).1 = m t q x) {t : ℕ} (ht : t < N) (hv : ∀ a, node t a → Valid a)
    {q : Quad d} (hn : node t q) {num : ι} (hnum : ∀ n, arg t q n → n = num) :
    (points = none → qf.isSome = true → (∀ b, node t b → Cells q ⊂ Cells b → acc t b = true) → CalledOnce E t q num .enter) ∧
    (∀ n i, points = some n → i < n → (∀ b, node t b → Cells q ⊆ Cells b → acc t b = true ∧ m t b i = true) →
      CalledOnce E t q num (.point i)) := by
  have hts := h.trees t ht
  have hans := replays_answer hq hp E s s' hr
  have hno' : qf.isSome = false → ∀ q, acc t q = true := fun h q => hno (by simpa using h) t q
  have hone : ∀ c, Called E t q c → CalledOnce E t q num c := by
    rintro c ⟨g, hg, rfl, rfl, rfl⟩
    have h1 := once_of_called h.order hg
    rw [hnum _ (hts.only g hg rfl).2] at h1
    exact h1
  constructor
  · rintro rfl hfn hall
    refine hone _ ((hts.enter q hn).mpr ⟨hfn, none, by simp [targets], ?_⟩)
    rw [reached_iff hd hv hts hno' hans (by simp [targets]) _ q rfl hn]
    exact fun b hb hsub => ⟨hall b hb hsub, trivial⟩
  · rintro n i rfl hi hall
    have hxt : some i ∈ targets (some n) := by simpa [targets] using hi
    refine hone _ ((hts.point q hn i).mpr ⟨hxt, ?_, ?_⟩)
    · rw [reached_iff hd hv hts hno' hans hxt _ q rfl hn]
      exact fun b hb hsub => hall b hb hsub.1
    · rintro ⟨g, hg, rfl, rfl, hc, ha⟩
      have h1 := (hans g hg).2 (by rw [hc]; simp)
      rw [ha, (hall g.quad hn subset_rfl).1] at h1
      simp at h1

theorem shared_level_lt (hd : 0 < d) {trees : List (List (Quad d))} {P : ℕ}
    {leaves : ℕ → List (ℕ × Quad d)} {s : ℕ → ℕ} (hs : Segments trees P leaves s) {t : ℕ} (ht : t < trees.length)
    {q : Quad d} (hq : Valid q) (h : Shared P leaves t q) : q.level < 29 := by
  have hst := valid_stop_le hd hq
  have hlt := start_lt_stop q
  have hsucc : (t + 1) * 2 ^ (d * 30) ≤ trees.length * 2 ^ (d * 30) := Nat.mul_le_mul_right _ ht
  rw [Nat.add_one_mul] at hsucc
  obtain ⟨a, ha, ha1, ha2⟩ := hs.owner (n := t * 2 ^ (d * 30) + start q) (by omega)
  obtain ⟨b, hb, hb1, hb2⟩ := hs.owner (n := t * 2 ^ (d * 30) + stop q - 1) (by omega)
  have hob : OwnerBounds s P (t * 2 ^ (d * 30) + start q) (t * 2 ^ (d * 30) + stop q) a b :=
    ⟨ha, hb, ha1, ha2, by omega, by omega⟩
  exact shared_level hd hs hq hob ((owner_bounds hd hs hq hob).2.1.mp h)

/-- The owner of a cell. -/
theorem cell_owner (hd : 0 < d) {trees : List (List (Quad d))} {P : ℕ}
    {leaves : ℕ → List (ℕ × Quad d)} {s : ℕ → ℕ} (hs : Segments trees P leaves s) {t : ℕ} (ht : t < trees.length)
    {p : Fin d → ℤ} (hp : InTree p) : ∃ r, r < P ∧ ∃ x ∈ leaves r, x.1 = t ∧ p ∈ Cells x.2 := by
  have hc := curve_lt_of_inTree hp
  have hsucc : (t + 1) * 2 ^ (d * 30) ≤ trees.length * 2 ^ (d * 30) := Nat.mul_le_mul_right _ ht
  rw [Nat.add_one_mul] at hsucc
  obtain ⟨r, hr, h1, h2⟩ := hs.owner (n := t * 2 ^ (d * 30) + curve p) (by omega)
  exact ⟨r, hr, (hs.mem_iff hd t r hr hp).mpr ⟨h1, h2⟩⟩

/-- C51. If the callbacks decide by the quadrant, and the point, alone (`acc` and `m`; a missing
quadrant callback accepts all), the search leads to the owner of every cell `p` of the forest: if all
quadrants that contain `p` are accepted, or match the point, then the callback is called, exactly
once, for a quadrant that contains `p` and is owned by one rank alone, the owner of `p`, which
is passed as both lowest and highest rank. -/
theorem C51_finds_owner (hd : 0 < d) (trees : List (List (Quad d))) (P : ℕ) (leaves : ℕ → List (ℕ × Quad d))
    (h : Distributed trees P leaves) (gfq : Option (List ℤ)) (hg : gfq = none ∨ gfq = some (rankCounts leaves P))
    (callPost : Bool) (qf : Option (ℕ → Quad d → ℕ × ℕ → σ → Bool × σ)) (pf : ℕ → Quad d → ℕ × ℕ → ℕ → σ → Bool × σ)
    (points : Option ℕ) (acc : ℕ → Quad d → Bool) (m : ℕ → Quad d → ℕ → Bool)
    (hq : ∀ fn, qf = some fn → ∀ t q n s, (fn t q n s).1 = acc t q)
    (hno : qf = none → ∀ t q, acc t q = true)
    (hp : ∀ t q n x s, (pf t q n x s).1 = m t q x) (s : σ) :
    ∃ s' E, searchPartition gfq (globalPartition leaves P trees.length) trees.length callPost qf pf points s = some (s', E) ∧
      ∀ t, t < trees.length → ∀ p : Fin d → ℤ, InTree p →
        ∃ q r, Valid q ∧ p ∈ Cells q ∧ r < P ∧ (∃ x ∈ leaves r, x.1 = t ∧ p ∈ Cells x.2) ∧
          (∀ r', r' < P → Owns leaves t q r' → r' = r) ∧
          (points = none → qf.isSome = true → (∀ b, Valid b → p ∈ Cells b → acc t b = true) →
            CalledOnce E t q (r, r) .enter) ∧
          (∀ n i, points = some n → i < n → (∀ b, Valid b → p ∈ Cells b → acc t b = true ∧ m t b i = true) →
            CalledOnce E t q (r, r) (.point i)) := by
  obtain ⟨w, hs⟩ := h.segments hd
  obtain ⟨s', E, e, hsearch, hr⟩ := C51_search_partition hd trees P leaves h gfq hg callPost qf pf points s
  refine ⟨s', E, e, fun t ht p hpt => ?_⟩
  obtain ⟨r, hrP, hx⟩ := cell_owner hd hs ht hpt
  have hroot : p ∈ Cells (root d) := by
    obtain ⟨x, hx1, -, hx2⟩ := hx
    exact valid_in_root hd (hs.leaf r hrP x hx1).2 hx2
  obtain ⟨q, hq1, hq2, hq3⟩ := goNode_reach hd (go := Shared P leaves t) (p := p)
    (fun b hb hsh => shared_level_lt hd hs ht hb.1 hsh) 30 (root d) (by simp [root])
    ⟨root_valid, subset_rfl, fun b _ h1 h2 => absurd h1 h2.2⟩ hroot
  have hown : Owns leaves t q r := by
    obtain ⟨x, h1, h2, h3⟩ := hx
    exact ⟨x, h1, h2, p, h3, hq2⟩
  have hall : ∀ r', r' < P → Owns leaves t q r' → r' = r := by
    intro r' hr' ho
    by_contra hne
    exact hq3 ⟨r', r, hr', hrP, hne, ho, hown⟩
  obtain ⟨h1, h2⟩ := globally_called hd hsearch hr hq hno hp ht (fun a ha => ha.1) ((partitionNode_iff hd q).mp hq1)
    (num := (r, r)) (by
      rintro ⟨a, b⟩ ⟨a1, a2, a3, a4, -⟩
      dsimp only at a1 a2 a3 a4
      rw [hall _ a1 a3, hall _ a2 a4])
  refine ⟨q, r, hq1.1, hq2, hrP, hx, hall, ?_, ?_⟩
  · intro h3 h4 h5
    exact h1 h3 h4 fun b hb hsub => h5 b hb.1 (hsub.1 hq2)
  · intro n i h3 h4 h5
    exact h2 n i h3 h4 fun b hb hsub => h5 b hb.1 (hsub hq2)

/-! ## Search of the whole forest -/

theorem allNode_iff (hd : 0 < d) {P : ℕ} {leaves : ℕ → List (ℕ × Quad d)} {me t : ℕ} (q : Quad d) :
    GoNode (AllGo P leaves me t) (root d) q ↔ AllNode P leaves me t q := goNode_root hd q

theorem gpath_pairwise {a b : ℕ} {ls : List (ℕ × Quad d)} (h : GPath a ls b) : ls.Pairwise (fun x y => gstop x ≤ gstart y) := by
  induction ls generalizing a with
  | nil => exact List.Pairwise.nil
  | cons x ls ih =>
    rw [List.pairwise_cons]
    exact ⟨fun y hy => (GPath.mem h.2 hy).1, ih h.2⟩

/-- A list sorted by tree: the leaves of one tree are a run that begins after those of lower trees. -/
theorem sorted_filter : ∀ (ls : List (ℕ × Quad d)), ls.Pairwise (fun x y => x.1 ≤ y.1) → ∀ (t i : ℕ) (q : Quad d),
    ((ls.filter fun x => x.1 = t).map Prod.snd)[i]? = some q →
    ls[(ls.filter fun x => x.1 < t).length + i]? = some (t, q) := by
  intro ls
  induction ls with
  | nil => intro _ t i q h; simp at h
  | cons x ls ih =>
    intro hp t i q h
    rw [List.pairwise_cons] at hp
    rcases Nat.lt_trichotomy x.1 t with hx | hx | hx
    · rw [List.filter_cons_of_neg (by simp; omega)] at h
      rw [List.filter_cons_of_pos (by simpa using hx), List.length_cons, Nat.add_right_comm, List.getElem?_cons_succ]
      exact ih hp.2 t i q h
    · have hempty : ls.filter (fun x => x.1 < t) = [] := by
        rw [List.filter_eq_nil_iff]
        intro y hy
        have := hp.1 y hy
        simp; omega
      rw [List.filter_cons_of_pos (by simpa using hx), List.map_cons] at h
      rw [List.filter_cons_of_neg (by simp; omega), hempty, List.length_nil, Nat.zero_add]
      cases i with
      | zero =>
        simp only [List.getElem?_cons_zero, Option.some_inj] at h ⊢
        rw [← h, ← hx]
      | succ i =>
        rw [List.getElem?_cons_succ] at h ⊢
        have := ih hp.2 t i q h
        rw [hempty, List.length_nil, Nat.zero_add] at this
        exact this
    · rw [List.filter_cons_of_neg (by simp; omega)] at h
      have hempty : ls.filter (fun x => x.1 = t) = [] := by
        rw [List.filter_eq_nil_iff]
        intro y hy
        have := hp.1 y hy
        simp; omega
      rw [hempty] at h
      simp at h

/-- C52. The same for the search of the whole forest, on every rank `me`: it goes on through all quadrants shared
between ranks and those of this rank down to its leaves, and passes with each the lowest and the
highest rank that own part of it and the local number of a local leaf. -/
theorem C52_search_all (hd : 0 < d) (trees : List (List (Quad d))) (P : ℕ) (leaves : ℕ → List (ℕ × Quad d))
    (h : Distributed trees P leaves) (me : ℕ) (hme : me < P) (f : SearchForest d)
    (hf : LocalPart trees.length (leaves me) f)
    (callPost : Bool) (qf : Option (ℕ → Quad d → ℕ × ℕ × ℤ → σ → Bool × σ))
    (pf : ℕ → Quad d → ℕ × ℕ × ℤ → ℕ → σ → Bool × σ) (points : Option ℕ) (s : σ) :
    ∃ s' E, searchAll (rankCounts leaves P) (globalPartition leaves P trees.length) trees.length me f callPost qf pf points s =
        some (s', E) ∧
      GloballySearched trees.length (AllNode P leaves me)
        (fun t q n => OwnerRange P leaves t q (n.1, n.2.1) ∧ LocalNumber (leaves me) t q n.2.2)
        qf.isSome callPost points E ∧
      Replays qf pf E s s' := by
  obtain ⟨w, hs⟩ := h.segments hd
  unfold searchAll
  by_cases hn : (qf.isNone && points.isNone) = true
  · rw [if_pos hn]
    simp only [Bool.and_eq_true, Option.isNone_iff_eq_none] at hn
    obtain ⟨rfl, rfl⟩ := hn
    exact ⟨s, [], rfl, globallySearched_nil, rfl⟩
  rw [if_neg hn]
  have hpw := gpath_pairwise (hs.path me hme)
  have hsorted : (leaves me).Pairwise (fun x y => x.1 ≤ y.1) := by
    refine hpw.imp_of_mem fun {x} {y} hx hy hxy => ?_
    have h1 := gstart_lt_gstop x
    have h2 := valid_stop_le hd (hs.leaf me hme y hy).2
    have h3 := start_lt_stop y.2
    unfold gstart gstop at *
    by_contra hc
    have : (y.1 + 1) * 2 ^ (d * 30) ≤ x.1 * 2 ^ (d * 30) := Nat.mul_le_mul_right _ (by omega)
    rw [Nat.add_one_mul] at this
    omega
  obtain ⟨tp, etp, htp0, htp⟩ := treeRange_spec hd hs (gfq := some (rankCounts leaves P)) (Or.inr rfl)
  obtain ⟨s', E, e, o, i, p, r⟩ := rankTreeLoop_spec (qf := qf) (pf := pf)
    (range := ownerRange (some (rankCounts leaves P)) (globalPartition leaves P trees.length))
    (go := fun t pfirst plast s =>
      if f.first ≤ t ∧ (t : ℤ) ≤ f.last then do
        let tree ← f.trees[t]?
        allRecursion (rankCounts leaves P) (globalPartition leaves P trees.length) me tree.1 ⟨t, callPost, qf, pf, points⟩ 31 (root d)
          pfirst plast (some (tree.2, 0)) none s
      else allRecursion (rankCounts leaves P) (globalPartition leaves P trees.length) me 0 ⟨t, callPost, qf, pf, points⟩ 31 (root d)
        pfirst plast none none s)
    (tp := tp) (hasFn := qf.isSome) (callPost := callPost) (xs := targets points) (node := AllNode P leaves me)
    (arg := fun t q n => OwnerRange P leaves t q (n.1, n.2.1) ∧ LocalNumber (leaves me) t q n.2.2) (N := trees.length)
    (by
      intro t ht
      obtain ⟨a, b, e1, hb⟩ := htp t ht
      refine ⟨a, b, e1, fun x => ?_⟩
      have hL : ∀ q, q ∈ ((leaves me).filter fun x => x.1 = t).map Prod.snd ↔ (t, q) ∈ leaves me := by
        intro q
        simp only [List.mem_map, List.mem_filter, decide_eq_true_eq]
        constructor
        · rintro ⟨⟨u, v⟩, ⟨h1, rfl⟩, rfl⟩; exact h1
        · intro h1; exact ⟨(t, q), ⟨h1, rfl⟩, rfl⟩
      have hlin : (((leaves me).filter fun x => x.1 = t).map Prod.snd).Pairwise (fun q r => stop q ≤ start r) := by
        rw [List.pairwise_map]
        refine (hpw.sublist List.filter_sublist).imp_of_mem fun {x} {y} hx hy hxy => ?_
        have h1 := of_decide_eq_true (List.mem_filter.mp hx).2
        have h2 := of_decide_eq_true (List.mem_filter.mp hy).2
        unfold gstart gstop at hxy
        rw [h1, h2] at hxy
        omega
      have hbelow : ∀ q ∈ ((leaves me).filter fun x => x.1 = t).map Prod.snd, ¬ Cells (root d) ⊂ Cells q := by
        intro q hq hsub
        exact hsub.2 (valid_in_root hd (hs.leaf me hme _ ((hL q).mp hq)).2)
      by_cases hloc : f.first ≤ t ∧ (t : ℤ) ≤ f.last
      · rw [if_pos hloc]
        obtain ⟨tree, htree⟩ : ∃ tree, f.trees[t]? = some tree :=
          ⟨_, List.getElem?_eq_getElem (by rw [hf.length]; exact ht)⟩
        rw [obind htree]
        obtain ⟨ho, hls⟩ := hf.tree t _ htree
        rw [ho, hls]
        obtain ⟨x', E, e2, o2, t2, p2, r2⟩ := allRecursion_spec hd hs hme
          (((leaves me).filter fun x => x.1 < t).length : ℤ) ⟨t, callPost, qf, pf, points⟩ ht hL hlin 31
          (root d) a b (some (((leaves me).filter fun x => x.1 = t).map Prod.snd, 0)) none x
          (by simp [root]) root_valid hb
          ⟨fun i q hq => by rw [Nat.zero_add]; exact hq,
            fun q => ⟨fun hq => ⟨hq, valid_in_root hd (hs.leaf me hme _ ((hL q).mp hq)).2⟩, fun hq => hq.1⟩⟩
          hbelow (activeSorted_none _)
        refine ⟨x', E, e2, o2, t2, ?_, r2⟩
        rw [targets_eq]
        refine p2.node_congr (fun q => allNode_iff hd q) ?_
        rintro q n - ⟨h1, h2⟩
        refine ⟨h1, ?_⟩
        rcases h2 with ⟨i, hi, h3⟩ | ⟨h3, h4⟩
        · exact Or.inl ⟨_, sorted_filter _ hsorted t i q hi, by rw [h3]; push_cast; ring⟩
        · exact Or.inr ⟨fun hm => h3 ((hL q).mpr hm), h4⟩
      · rw [if_neg hloc]
        have hnone : ∀ q, (t, q) ∉ leaves me := fun q hq => hloc ((hf.local_iff t).mpr ⟨_, hq, rfl⟩)
        obtain ⟨x', E, e2, o2, t2, p2, r2⟩ := allRecursion_spec hd hs hme 0 ⟨t, callPost, qf, pf, points⟩ ht hL hlin 31
          (root d) a b none none x (by simp [root]) root_valid hb
          (fun q hq => absurd ((hL q).mp hq) (hnone q))
          hbelow (activeSorted_none _)
        refine ⟨x', E, e2, o2, t2, ?_, r2⟩
        rw [targets_eq]
        refine p2.node_congr (fun q => allNode_iff hd q) ?_
        rintro q n - ⟨h1, h2⟩
        refine ⟨h1, ?_⟩
        rcases h2 with ⟨i, hi, h3⟩ | ⟨h3, h4⟩
        · exact absurd ((hL q).mp (List.mem_of_getElem? hi)) (hnone q)
        · exact Or.inr ⟨hnone q, h4⟩)
    trees.length 0 (Nat.zero_add _) s
  rw [etp]
  rw [htp0] at e
  exact ⟨s', E, e, ⟨o, fun e he => (i e he).2, fun t ht => p t (Nat.zero_le _) ht⟩, r⟩

/-- C52. If the callbacks decide by the quadrant, and the point, alone, the search of the whole forest leads
to the owner of every cell as the search of the partition does; and if this is the calling rank,
to the leaf that contains the cell and its number among the local leaves. -/
theorem C52_finds_leaf_or_owner (hd : 0 < d) (trees : List (List (Quad d))) (P : ℕ) (leaves : ℕ → List (ℕ × Quad d))
    (h : Distributed trees P leaves) (me : ℕ) (hme : me < P) (f : SearchForest d)
    (hf : LocalPart trees.length (leaves me) f)
    (callPost : Bool) (qf : Option (ℕ → Quad d → ℕ × ℕ × ℤ → σ → Bool × σ))
    (pf : ℕ → Quad d → ℕ × ℕ × ℤ → ℕ → σ → Bool × σ)
    (points : Option ℕ) (acc : ℕ → Quad d → Bool) (m : ℕ → Quad d → ℕ → Bool)
    (hq : ∀ fn, qf = some fn → ∀ t q n s, (fn t q n s).1 = acc t q)
    (hno : qf = none → ∀ t q, acc t q = true)
    (hp : ∀ t q n x s, (pf t q n x s).1 = m t q x) (s : σ) :
    ∃ s' E, searchAll (rankCounts leaves P) (globalPartition leaves P trees.length) trees.length me f callPost qf pf points s =
        some (s', E) ∧
      ∀ t, t < trees.length → ∀ p : Fin d → ℤ, InTree p →
        ∃ (q : Quad d) (r : ℕ) (num : ℤ), Valid q ∧ p ∈ Cells q ∧ r < P ∧ (∃ x ∈ leaves r, x.1 = t ∧ p ∈ Cells x.2) ∧
          (∀ r', r' < P → Owns leaves t q r' → r' = r) ∧
          (r = me → ∃ i : ℕ, num = i ∧ (leaves me)[i]? = some (t, q)) ∧ (r ≠ me → num = -1) ∧
          (points = none → qf.isSome = true → (∀ b, Valid b → p ∈ Cells b → acc t b = true) →
            CalledOnce E t q (r, r, num) .enter) ∧
          (∀ n i, points = some n → i < n → (∀ b, Valid b → p ∈ Cells b → acc t b = true ∧ m t b i = true) →
            CalledOnce E t q (r, r, num) (.point i)) := by
  obtain ⟨w, hs⟩ := h.segments hd
  obtain ⟨s', E, e, hsearch, hr⟩ := C52_search_all hd trees P leaves h me hme f hf callPost qf pf points s
  refine ⟨s', E, e, fun t ht p hpt => ?_⟩
  obtain ⟨r, hrP, hx⟩ := cell_owner hd hs ht hpt
  have hroot : p ∈ Cells (root d) := by
    obtain ⟨x, hx1, -, hx2⟩ := hx
    exact valid_in_root hd (hs.leaf r hrP x hx1).2 hx2
  -- a search quadrant lies in no leaf but itself
  have hlev : ∀ b, GoNode (AllGo P leaves me t) (root d) b → AllGo P leaves me t b → b.level < 29 := by
    rintro b hb (hsh | ⟨⟨y, hy, rfl, hmeet⟩, hnot⟩)
    · exact shared_level_lt hd hs ht hb.1 hsh
    · have hyv := (hs.leaf me hme y hy).2
      have hne : y.2 ≠ b := by rintro rfl; exact hnot hy
      rcases C03_nested_or_disjoint y.2 b hyv.extended hb.1.extended with h1 | h1 | h1
      · have h2 := valid_ssubset_of_ne hd hyv hb.1 h1 (Ne.symm hne)
        rcases hb.2.2 y.2 hyv (valid_in_root hd hyv) h2 with ⟨c, c', hc, hc', hcc, h3, h4⟩ | ⟨-, h3⟩
        · have := leaf_not_shared hd hs hme hy c hc h3
          have := leaf_not_shared hd hs hme hy c' hc' h4
          omega
        · exact absurd hy h3
      · exact (kid_of_ssubset hd hb.1 hyv (valid_ssubset_of_ne hd hb.1 hyv h1 hne)).1
      · obtain ⟨c, hc1, hc2⟩ := hmeet
        exact absurd ⟨hc1, hc2⟩ (h1 c)
  obtain ⟨q, hq1, hq2, hq3⟩ := goNode_reach hd (go := AllGo P leaves me t) (p := p) hlev 30 (root d) (by simp [root])
    ⟨root_valid, subset_rfl, fun b _ h1 h2 => absurd h1 h2.2⟩ hroot
  have hown : Owns leaves t q r := by
    obtain ⟨x, h1, h2, h3⟩ := hx
    exact ⟨x, h1, h2, p, h3, hq2⟩
  have hall : ∀ r', r' < P → Owns leaves t q r' → r' = r := by
    intro r' hr' ho
    by_contra hne
    exact hq3 (Or.inl ⟨r', r, hr', hrP, hne, ho, hown⟩)
  -- the number passed
  obtain ⟨num, hme1, hme2, huniq⟩ : ∃ num : ℤ, (r = me → ∃ i : ℕ, num = i ∧ (leaves me)[i]? = some (t, q)) ∧
      (r ≠ me → num = -1) ∧ ∀ n, LocalNumber (leaves me) t q n → n = num := by
    by_cases hrm : r = me
    · subst hrm
      have hmem : (t, q) ∈ leaves r := by
        by_contra hc
        exact hq3 (Or.inr ⟨hown, hc⟩)
      obtain ⟨i, hi⟩ := List.mem_iff_getElem?.mp hmem
      refine ⟨i, fun _ => ⟨i, rfl, hi⟩, fun h => absurd rfl h, ?_⟩
      rintro n (⟨j, hj, rfl⟩ | ⟨h1, -⟩)
      · have hpw := gpath_pairwise (hs.path r hrP)
        rw [List.pairwise_iff_getElem] at hpw
        obtain ⟨hi1, hi2⟩ := List.getElem?_eq_some_iff.mp hi
        obtain ⟨hj1, hj2⟩ := List.getElem?_eq_some_iff.mp hj
        have hlt := gstart_lt_gstop (t, q)
        rcases Nat.lt_trichotomy i j with h1 | h1 | h1
        · have := hpw i j hi1 hj1 h1
          rw [hi2, hj2] at this; omega
        · rw [h1]
        · have := hpw j i hj1 hi1 h1
          rw [hi2, hj2] at this; omega
      · exact absurd hmem h1
    · have hnot : (t, q) ∉ leaves me := by
        intro hmem
        exact hrm (leaf_not_shared hd hs hme hmem r hrP hown)
      refine ⟨-1, fun h => absurd h hrm, fun _ => rfl, ?_⟩
      rintro n (⟨j, hj, -⟩ | ⟨-, rfl⟩)
      · exact absurd (List.mem_of_getElem? hj) hnot
      · rfl
  obtain ⟨h1, h2⟩ := globally_called hd hsearch hr hq hno hp ht (fun a ha => ha.1) ((allNode_iff hd q).mp hq1)
    (num := (r, r, num)) (by
      rintro ⟨a, b, n⟩ ⟨⟨a1, a2, a3, a4, -⟩, a5⟩
      dsimp only at a1 a2 a3 a4 a5
      rw [hall _ a1 a3, hall _ a2 a4, huniq _ a5])
  refine ⟨q, r, num, hq1.1, hq2, hrP, hx, hall, hme1, hme2, ?_, ?_⟩
  · intro h3 h4 h5
    exact h1 h3 h4 fun b hb hsub => h5 b hb.1 (hsub.1 hq2)
  · intro n i h3 h4 h5
    exact h2 n i h3 h4 fun b hb hsub => h5 b hb.1 (hsub hq2)

/-! ## Examples -/

/-- The local part of rank 2 of `twoTrees`, which has the last child of the first tree and the second tree. -/
def twoTreesPart : SearchForest 2 := ⟨[(0, [child (root 2) 3]), (1, [root 2])], 0, 1⟩

theorem twoTreesPart_ok : LocalPart twoTrees.length (twoTreesLeaves 2) twoTreesPart where
  length := rfl
  tree := by
    intro t tree h
    match t with
    | 0 => obtain rfl := Option.some_inj.mp h; exact ⟨by decide +kernel, by decide +kernel⟩
    | 1 => obtain rfl := Option.some_inj.mp h; exact ⟨by decide +kernel, by decide +kernel⟩
    | t + 2 => simp [twoTreesPart] at h
  local_iff := by
    intro t
    rw [show twoTreesLeaves 2 = [(0, child (root 2) 3), (1, root 2)] by decide +kernel]
    simp only [twoTreesPart, List.mem_cons, List.not_mem_nil, or_false]
    constructor
    · rintro ⟨-, h⟩
      match t with
      | 0 => exact ⟨(0, child (root 2) 3), Or.inl rfl, rfl⟩
      | 1 => exact ⟨(1, root 2), Or.inr rfl, rfl⟩
      | t + 2 => push_cast at h; omega
    · rintro ⟨x, rfl | rfl, rfl⟩ <;> decide

/-- The search of the partition: the first tree is shared between ranks 0 and 2, the second belongs to rank 2. -/
example : (searchPartition none (globalPartition twoTreesLeaves 4 2) 2 false (some fun _ _ _ (s : ℕ) => (true, s + 1))
    (fun _ _ _ _ s => (true, s)) none 0).map (fun r => (r.1, r.2.map fun e => (e.tree, e.quad.level, e.num))) =
    some (6, [(0, 0, 0, 2), (0, 1, 0, 0), (0, 1, 0, 0), (0, 1, 0, 0), (0, 1, 2, 2), (1, 0, 2, 2)]) := by decide +kernel

example : (searchPartition (some (rankCounts twoTreesLeaves 4)) (globalPartition twoTreesLeaves 4 2) 2 false
    (some fun _ _ _ (s : ℕ) => (true, s + 1))
    (fun _ _ _ _ s => (true, s)) none 0).map (fun r => (r.1, r.2.map fun e => (e.tree, e.quad.level, e.num))) =
    some (6, [(0, 0, 0, 2), (0, 1, 0, 0), (0, 1, 0, 0), (0, 1, 0, 0), (0, 1, 2, 2), (1, 0, 2, 2)]) := by decide +kernel

/-- The search of the whole forest on rank 2, with its two leaves. -/
example : (searchAll (rankCounts twoTreesLeaves 4) (globalPartition twoTreesLeaves 4 2) 2 2 twoTreesPart false
    (some fun _ _ _ (s : ℕ) => (true, s + 1))
    (fun _ _ _ _ s => (true, s)) none 0).map (fun r => (r.1, r.2.map fun e => ((e.tree, e.quad.level), e.num))) =
    some (6, [((0, 0), 0, 2, -1), ((0, 1), 0, 0, -1), ((0, 1), 0, 0, -1), ((0, 1), 0, 0, -1), ((0, 1), 2, 2, 0),
      ((1, 0), 2, 2, 1)]) := by
  decide +kernel

/-- The hypotheses of the theorems hold for it. -/
example : Distributed twoTrees 4 twoTreesLeaves ∧ LocalPart twoTrees.length (twoTreesLeaves 2) twoTreesPart :=
  ⟨twoTrees_distributed, twoTreesPart_ok⟩

end P4est
