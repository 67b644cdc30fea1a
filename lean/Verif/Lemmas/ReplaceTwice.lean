import Verif.Lemmas.ReplaceBorder

/-! # The replace callback in balance: one pass after the other -/

namespace P4est
open Spec

variable {d : ℕ} {α σ : Type}

theorem narrates_outgoing {init : Quad d → σ → α × σ} {p : Leaf d α} {O : List (Leaf d α)} {T : List (ReplaceCall d α)}
    (h : Narrates init p O T) {k : List (Quad d)} (hk : k ∈ T.map fun c => c.outgoing.map Leaf.q) :
    ∃ r, k = [r] ∧ Valid r ∧ Cells r ⊆ Cells p.q ∧ ∃ w ∈ O, Cells w.q ⊂ Cells r := by
  obtain ⟨c, hc, rfl⟩ := List.mem_map.mp hk
  obtain ⟨y, hy, -⟩ := h.family c hc
  refine ⟨y.q, by rw [hy]; rfl, (h.which y.q).mp ⟨c, hc, by rw [hy]; rfl⟩⟩

theorem append_cut {β : Type} {T F A B : List β} {c : β} (h : T ++ F = A ++ c :: B) :
    (∃ B', T = A ++ c :: B') ∨ ∃ A', A = T ++ A' ∧ F = A' ++ c :: B := by
  rcases List.append_eq_append_iff.mp h with ⟨A', e1, e2⟩ | ⟨B', e1, e2⟩
  · exact Or.inr ⟨A', e1, e2⟩
  · cases B' with
    | nil => exact Or.inr ⟨[], by rw [e1, List.append_nil, List.append_nil], e2.symm⟩
    | cons b B' =>
      rw [List.cons_append, List.cons.injEq] at e2
      exact Or.inl ⟨B', by rw [e1, e2.1]⟩

theorem flatMap_cut {β γ : Type} {f : γ → List β} {B : List β} {c : β} : ∀ (L : List γ) {A : List β},
    L.flatMap f = A ++ c :: B →
    ∃ L1 u L2, L = L1 ++ u :: L2 ∧ ∃ C1 C2, f u = C1 ++ c :: C2 ∧ A = L1.flatMap f ++ C1 := by
  intro L
  induction L with
  | nil => intro A h; simp at h
  | cons v L ih =>
    intro A h
    rw [List.flatMap_cons] at h
    rcases append_cut h with ⟨B', e⟩ | ⟨A', e1, e2⟩
    · exact ⟨[], v, L, rfl, A, B', e, by simp⟩
    · obtain ⟨L1, u, L2, hu, C1, C2, hC, hA⟩ := ih e2
      exact ⟨v :: L1, u, L2, by rw [hu]; rfl, C1, C2, hC, by rw [e1, hA, List.flatMap_cons, List.append_assoc]⟩

theorem narrates_trans {init : Quad d → σ → α × σ} {x : Leaf d α} {O1 : List (Leaf d α)}
    {T1 : List (ReplaceCall d α)} (h1 : Narrates init x O1 T1) {O2 : Quad d → List (Leaf d α)}
    {S2 : Quad d → List (ReplaceCall d α)} (hnd : O1.Nodup) (hv : ∀ u ∈ O1, Valid u.q)
    (hdis : ∀ u ∈ O1, ∀ v ∈ O1, (Cells u.q ∩ Cells v.q).Nonempty → u = v)
    (h2 : ∀ u ∈ O1, (O2 u.q = [u] ∧ S2 u.q = []) ∨ Narrates init u (O2 u.q) (S2 u.q))
    (hin1 : ∀ u ∈ O1, Cells u.q ⊆ Cells x.q) (hin : ∀ u ∈ O1, ∀ w ∈ O2 u.q, Cells w.q ⊆ Cells u.q)
    (hne : ∀ u ∈ O1, O2 u.q ≠ []) :
    Narrates init x (O1.flatMap fun u => O2 u.q) (T1 ++ O1.flatMap fun u => S2 u.q) := by
  have hS : ∀ c, c ∈ (O1.flatMap fun u => S2 u.q) → ∃ u ∈ O1, c ∈ S2 u.q ∧ Narrates init u (O2 u.q) (S2 u.q) := by
    intro c hc
    obtain ⟨u, hu, hc⟩ := List.mem_flatMap.mp hc
    rcases h2 u hu with ⟨-, h⟩ | h
    · rw [h] at hc; simp at hc
    · exact ⟨u, hu, hc, h⟩
  have hout : ∀ u ∈ O1, ∀ k ∈ (S2 u.q).map (fun c => c.outgoing.map Leaf.q),
      ∃ r, k = [r] ∧ Valid r ∧ Cells r ⊆ Cells u.q ∧ ∃ w ∈ O2 u.q, Cells w.q ⊂ Cells r := by
    intro u hu k hk
    rcases h2 u hu with ⟨-, h⟩ | h
    · rw [h] at hk; simp at hk
    · exact narrates_outgoing h hk
  refine ⟨?_, ?_, ?_, ?_, ?_, ?_⟩
  · intro c hc
    rcases List.mem_append.mp hc with hc | hc
    · exact h1.family c hc
    · obtain ⟨u, -, hc, h⟩ := hS c hc
      exact h.family c hc
  · rw [List.map_append, List.map_flatMap, List.nodup_append]
    refine ⟨h1.once, ?_, ?_⟩
    · rw [List.nodup_flatMap]
      constructor
      · intro u hu
        rcases h2 u hu with ⟨-, h⟩ | h
        · rw [h]; simp
        · exact h.once
      · refine hnd.pairwise_of_forall_ne fun u hu v hv' huv => ?_
        intro k hk1 hk2
        obtain ⟨r, e1, -, a1, -⟩ := hout u hu k hk1
        obtain ⟨r', e2, -, a2, -⟩ := hout v hv' k hk2
        rw [e1] at e2
        obtain rfl : r = r' := by simpa using e2
        exact huv (hdis u hu v hv' ⟨r.c, a1 (corner_mem r), a2 (corner_mem r)⟩)
    · intro k hk1 k' hk2 he
      rw [← he] at hk2
      obtain ⟨r, e1, -, -, w, hw, a1⟩ := narrates_outgoing h1 hk1
      obtain ⟨u, hu, hk2⟩ := List.mem_flatMap.mp hk2
      obtain ⟨r', e2, -, a2, -⟩ := hout u hu k hk2
      rw [e1] at e2
      obtain rfl : r = r' := by simpa using e2
      have : w = u := hdis w hw u hu ⟨w.q.c, corner_mem _, a2 (a1.1 (corner_mem _))⟩
      rw [this] at a1
      exact a1.2 a2
  · intro r
    constructor
    · rintro ⟨c, hc, he⟩
      rcases List.mem_append.mp hc with hc | hc
      · obtain ⟨b1, b2, u, hu, b3⟩ := (h1.which r).mp ⟨c, hc, he⟩
        obtain ⟨w, hw⟩ := List.exists_mem_of_ne_nil _ (hne u hu)
        exact ⟨b1, b2, w, List.mem_flatMap.mpr ⟨u, hu, hw⟩, Set.ssubset_of_subset_of_ssubset (hin u hu w hw) b3⟩
      · obtain ⟨u, hu, hc, h⟩ := hS c hc
        obtain ⟨b1, b2, w, hw, b3⟩ := (h.which r).mp ⟨c, hc, he⟩
        exact ⟨b1, b2.trans (hin1 u hu), w, List.mem_flatMap.mpr ⟨u, hu, hw⟩, b3⟩
    · rintro ⟨b1, b2, w, hw, b3⟩
      obtain ⟨u, hu, hw⟩ := List.mem_flatMap.mp hw
      have huw := hin u hu w hw
      by_cases hru : Cells r ⊆ Cells u.q
      · have h : Narrates init u (O2 u.q) (S2 u.q) := by
          rcases h2 u hu with ⟨h, -⟩ | h
          · rw [h, List.mem_singleton] at hw
            rw [hw] at b3
            exact absurd hru b3.2
          · exact h
        obtain ⟨c, hc, he⟩ := (h.which r).mpr ⟨b1, hru, w, hw, b3⟩
        exact ⟨c, List.mem_append_right _ (List.mem_flatMap.mpr ⟨u, hu, hc⟩), he⟩
      · have hur : Cells u.q ⊆ Cells r :=
          (laminar b1.aligned (hv u hu).aligned ⟨w.q.c, b3.1 (corner_mem _), huw (corner_mem _)⟩).resolve_right hru
        obtain ⟨c, hc, he⟩ := (h1.which r).mpr ⟨b1, b2, u, hu, hur, hru⟩
        exact ⟨c, List.mem_append_left _ hc, he⟩
  · intro A c B he
    rcases append_cut he with ⟨B', e⟩ | ⟨A', e1, e2⟩
    · exact h1.given A c B' e
    · obtain ⟨L1, u, L2, hu, C1, C2, hC, hA⟩ := flatMap_cut O1 e2
      have hum : u ∈ O1 := by rw [hu]; simp
      have hn : Narrates init u (O2 u.q) (S2 u.q) := by
        rcases h2 u hum with ⟨-, h⟩ | h
        · rw [h] at hC; simp at hC
        · exact h
      right
      rcases hn.given C1 c C2 hC with g | ⟨b, hb, y, hy, g⟩
      · obtain ⟨b, hb, hy⟩ := h1.result u hum
        exact ⟨b, by rw [e1]; simp [hb], u, hy, g⟩
      · exact ⟨b, by rw [e1, hA]; simp [hb], y, hy, g⟩
  · intro c hc
    rcases List.mem_append.mp hc with hc | hc
    · exact h1.fresh c hc
    · obtain ⟨u, -, hc, h⟩ := hS c hc
      exact h.fresh c hc
  · intro w hw
    obtain ⟨u, hu, hw⟩ := List.mem_flatMap.mp hw
    rcases h2 u hu with ⟨h, -⟩ | h
    · rw [h, List.mem_singleton] at hw
      rw [hw]
      obtain ⟨c, hc, hx⟩ := h1.result u hu
      exact ⟨c, List.mem_append_left _ hc, hx⟩
    · obtain ⟨c, hc, hx⟩ := h.result w hw
      exact ⟨c, List.mem_append_right _ (List.mem_flatMap.mpr ⟨u, hu, hc⟩), hx⟩

theorem becomes_trans (hd : 0 < d) {init : Quad d → σ → α × σ}
    {replace : List (Leaf d α) → List (Leaf d α) → σ → (ℕ → α) × σ} {V : List (Leaf d α)} {f l : Quad d}
    {O1 O2 : Quad d → List (Leaf d α)} {S1 S2 : Quad d → List (ReplaceCall d α)}
    {ps1 ps2 : List (Quad d)} (e1 : (V.flatMap fun x => O1 x.q).map Leaf.q = ps1)
    (e2 : ((V.flatMap fun x => O1 x.q).flatMap fun u => O2 u.q).map Leaf.q = ps2)
    (hf : Valid f) (hl : Valid l) (hne1 : ps1 ≠ []) (ht1 : Tiles f l ps1) (ht2 : Tiles f l ps2)
    {a b : ℕ} (hVp : Path a (V.map Leaf.q) b) (hV : ∀ x ∈ V, Valid x.q)
    (h1 : ∀ x ∈ V, Becomes init replace ps1 x (O1 x.q) (S1 x.q))
    (h2 : ∀ u ∈ V.flatMap (fun x => O1 x.q), Becomes init replace ps2 u (O2 u.q) (S2 u.q)) :
    ∀ x ∈ V, Becomes init replace ps2 x ((O1 x.q).flatMap fun u => O2 u.q)
      (S1 x.q ++ (O1 x.q).flatMap fun u => S2 u.q) := by
  have hlt : start f ≤ stop l := by
    obtain ⟨q, hq⟩ := List.exists_mem_of_ne_nil _ hne1
    have := (section_iff hd (ht1.valid q hq)).mp (by rw [← ht1.cover]; exact fun p hp => ⟨q, hq, hp⟩)
    have := start_lt_stop q
    omega
  have hp1 := (tiles_iff hd hf hl hlt ht1.valid).mp ht1
  have hnd := path_nodup hp1
  intro x hx
  have hmem : ∀ u ∈ O1 x.q, u ∈ V.flatMap (fun x => O1 x.q) := fun u hu => List.mem_flatMap.mpr ⟨x, hx, hu⟩
  have hmem1 : ∀ u ∈ V.flatMap (fun x => O1 x.q), u.q ∈ ps1 := fun u hu => by rw [← e1]; exact List.mem_map_of_mem hu
  have hbx := h1 x hx
  have hsame : ∀ u ∈ V.flatMap (fun x => O1 x.q), ∀ v ∈ V.flatMap (fun x => O1 x.q),
      (Cells u.q ∩ Cells v.q).Nonempty → u = v := by
    rintro u hu v hv ⟨c, c1, c2⟩
    rw [← e1] at hnd
    refine List.inj_on_of_nodup_map hnd hu hv ?_
    by_contra hne
    have hdis := path_apart hp1 (hmem1 u hu) (hmem1 v hv) hne
    have hvu := ht1.valid _ (hmem1 u hu)
    have hvv := ht1.valid _ (hmem1 v hv)
    have a1 := start_lt_stop u.q
    have a2 := start_lt_stop v.q
    rcases laminar hvu.aligned hvv.aligned ⟨c, c1, c2⟩ with h | h
    · rw [valid_subset_iff hd hvu hvv] at h; omega
    · rw [valid_subset_iff hd hvv hvu] at h; omega
  have hinside : ∀ u ∈ O1 x.q, ∀ w ∈ O2 u.q, Cells w.q ⊆ Cells u.q := fun u hu w hw => (h2 u (hmem u hu)).inside w hw
  refine ⟨?_, ?_, ?_, ?_⟩
  · intro hk
    by_cases hm : x.q ∈ ps1
    · obtain ⟨k1, k2⟩ := hbx.kept hm
      obtain ⟨k3, k4⟩ := (h2 x (hmem x (by rw [k1]; simp))).kept hk
      rw [k1, k2]
      simp [k3, k4]
    · exfalso
      rw [← e2] at hk
      obtain ⟨w, hw, hwx⟩ := List.mem_map.mp hk
      obtain ⟨v, hv, hwv⟩ := List.mem_flatMap.mp hw
      have hxv := (h2 v hv).inside w hwv
      rw [hwx] at hxv
      have hv1 := hmem1 v hv
      obtain ⟨y, hy, hvy⟩ := List.mem_flatMap.mp hv
      have hvy' := (h1 y hy).inside v hvy
      have hxy : x.q = y.q := by
        by_contra hne
        have hdis := path_apart hVp (List.mem_map_of_mem hx) (List.mem_map_of_mem hy) hne
        have hsub := hxv.trans hvy'
        rw [valid_subset_iff hd (hV y hy) (hV x hx)] at hsub
        have := start_lt_stop x.q
        omega
      rw [← hxy] at hvy'
      exact hm (by rw [cells_inj hd (hV x hx).aligned (ht1.valid _ hv1).aligned (Set.Subset.antisymm hxv hvy')]; exact hv1)
  · intro hk
    by_cases hm : x.q ∈ ps1
    · obtain ⟨k1, k2⟩ := hbx.kept hm
      have := (h2 x (hmem x (by rw [k1]; simp))).divided hk
      rw [k1, k2]
      simpa using this
    · refine narrates_trans (hbx.divided hm) ?_ (fun u hu => ht1.valid _ (hmem1 u (hmem u hu)))
        (fun u hu v hv => hsame u (hmem u hu) v (hmem v hv)) ?_ hbx.inside hinside ?_
      · rw [← e1] at hnd
        have := List.Nodup.of_map _ hnd
        exact (List.nodup_flatMap.mp this).1 x hx
      · intro u hu
        by_cases hu2 : u.q ∈ ps2
        · exact Or.inl ((h2 u (hmem u hu)).kept hu2)
        · exact Or.inr ((h2 u (hmem u hu)).divided hu2)
      · intro u hu hnil
        have hc : u.q.c ∈ Cover ps2 := by
          rw [ht2.cover, ← ht1.cover]
          exact ⟨u.q, hmem1 u (hmem u hu), corner_mem _⟩
        obtain ⟨p, hp, hcp⟩ := hc
        rw [← e2] at hp
        obtain ⟨w, hw, rfl⟩ := List.mem_map.mp hp
        obtain ⟨v, hv, hwv⟩ := List.mem_flatMap.mp hw
        have : u = v := hsame u (hmem u hu) v hv ⟨u.q.c, corner_mem _, (h2 v hv).inside w hwv hcp⟩
        rw [this] at hnil
        rw [hnil] at hwv
        simp at hwv
  · intro w hw
    obtain ⟨u, hu, hw⟩ := List.mem_flatMap.mp hw
    exact (hinside u hu w hw).trans (hbx.inside u hu)
  · intro M _ w hw
    rw [← hbx.conserve M w hw]
    generalize O1 x.q = L at hmem
    induction L with
    | nil => rfl
    | cons u L ih =>
      rw [List.flatMap_cons, List.map_append, List.sum_append, ih fun v hv => hmem v (by simp [hv]), List.map_cons,
        List.sum_cons, (h2 u (hmem u (by simp))).conserve M w hw]

end P4est
