import Verif.Lemmas.BalanceFill

/-! # The balance phase -/

namespace P4est
open Spec

variable {d : ℕ}

theorem disjointParent_zero (hd : 0 < d) {q r : Quad d} (hq : Valid q) (hr : Valid r)
    (h : disjointParent q r = 0) (i : Fin d) :
    q.c i / 2 ^ (30 - min (q.level - 1) (r.level - 1)) = r.c i / 2 ^ (30 - min (q.level - 1) (r.level - 1)) := by
  unfold disjointParent at h
  dsimp only at h
  split at h
  · rw [compare_eq_zero_iff hd hq.int32 hr.int32] at h
    rw [h]
  · rename_i hn
    push Not at hn
    have := hn i
    rw [qlen_def, xor_not_mask_eq_zero] at this
    exact this

theorem isAncestor_parent_of_div {q r : Quad d} (hr : Aligned r) (hr0 : 0 < r.level)
    (hl : r.level ≤ q.level) (h : ∀ i, q.c i / 2 ^ (30 - (r.level - 1)) = r.c i / 2 ^ (30 - (r.level - 1))) :
    isAncestor (parent r) q = true := by
  rw [isAncestor_iff_div]
  refine ⟨by rw [parent_level]; omega, fun i => ?_⟩
  rw [parent_level, parent_c hr hr0, h i]
  exact (Int.mul_ediv_cancel_left _ (by positivity)).symm

theorem disjointParent_left (hd : 0 < d) {q r : Quad d} (hq : Valid q) (hr : Valid r) (h0 : 0 < r.level)
    (hl : r.level ≤ q.level) (h : disjointParent q r = 0) : isAncestor (parent r) q = true := by
  apply isAncestor_parent_of_div hr.aligned h0 hl
  intro i
  have := disjointParent_zero hd hq hr h i
  rwa [show min (q.level - 1) (r.level - 1) = r.level - 1 by omega] at this

theorem disjointParent_right (hd : 0 < d) {q r : Quad d} (hq : Valid q) (hr : Valid r) (h0 : 0 < q.level)
    (hl : q.level ≤ r.level) (h : disjointParent q r = 0) : isAncestor (parent q) r = true := by
  apply isAncestor_parent_of_div hq.aligned h0 hl
  intro i
  have := (disjointParent_zero hd hq hr h i).symm
  rwa [show min (q.level - 1) (r.level - 1) = q.level - 1 by omega] at this

/-- First children of the same level in the same parent are equal. -/
theorem first_child_unique (hd : 0 < d) {q r : Quad d} (hq : Valid q) (hr : Valid r) (h0 : 0 < q.level)
    (hl : q.level = r.level) (hq0 : childId q = 0) (hr0 : childId r = 0) (h : isAncestor (parent q) r = true) :
    q = r := by
  have hp : parent q = parent r := by
    rcases parent_inside hd (parent_valid hq h0) hr h with h1 | h1
    · exact h1
    · have := (isAncestor_iff_div.mp h1).1
      rw [parent_level, parent_level] at this
      omega
  rw [← first_child_eq hq.aligned h0 hq0, hp, first_child_eq hr.aligned (by omega) hr0]

section lists

theorem mem_modify {β : Type} {l : List β} {j : ℕ} {f : β → β} {m : β} (h : m ∈ l.modify j f) :
    m ∈ l ∨ ∃ x, l[j]? = some x ∧ m = f x := by
  obtain ⟨i, hi⟩ := List.mem_iff_getElem?.mp h
  rw [List.getElem?_modify] at hi
  by_cases hij : j = i
  · subst hij
    simp only [if_true] at hi
    cases hx : l[j]? with
    | none => rw [hx] at hi; simp at hi
    | some x =>
      rw [hx] at hi
      right
      exact ⟨x, rfl, by simpa using hi.symm⟩
  · left
    simp only [if_neg hij] at hi
    exact List.mem_iff_getElem?.mpr ⟨i, by simpa using hi⟩

theorem map_modify_eq {β γ : Type} (l : List β) (j : ℕ) {f : β → β} {g : β → γ} (h : ∀ x, g (f x) = g x) :
    (l.modify j f).map g = l.map g := by
  apply List.ext_getElem?
  intro i
  rw [List.getElem?_map, List.getElem?_map, List.getElem?_modify]
  by_cases hij : j = i
  · cases l[i]? <;> simp [hij, h]
  · simp [hij]

end lists

@[simp] theorem markFound_q (l : ℕ) (r : Mark d) : (markFound l r).q = r.q := by
  unfold markFound; split <;> rfl

/-- The quadrants whose neighbors are made at level `l`. -/
def Active (R : List (Quad d)) (cur : List (Mark d)) (l : ℕ) (e : Quad d) : Prop :=
  e.level = l ∧ (e ∈ R ∨ ∃ w ∈ cur, w.q = e)

/-- All neighbors of `e` are in the list. -/
def Closed (dom : Quad d) (bound : ℕ) (out : List (Mark d)) (e : Quad d) : Prop :=
  ∀ sid, sid < bound → isAncestor dom (coarseNeighbor e sid) = true →
    ∃ w ∈ out, w.q = coarseNeighbor e sid

/-- The state while level `l` is processed.  `old` are the entries of all finer output lists, with
those of `cur` among them. -/
structure LevelInv (dom : Quad d) (R : List (Quad d)) (bound l : ℕ) (cur old : List (Mark d))
    (st : LevelSt d) : Prop where
  quads : st.inl.map Mark.q = R
  source : ∀ w ∈ st.out, ∃ e sid, Active R cur l e ∧ sid < bound ∧ w.q = coarseNeighbor e sid ∧
    isAncestor dom w.q = true
  dup : ∀ m ∈ st.inl, m.dup = true → m.q.level ≤ l → (∃ w ∈ cur, isAncestor (parent m.q) w.q = true) ∨
    (m.q.level ≤ l - 1 ∧ ∃ w ∈ st.out, isAncestor (parent m.q) w.q = true)
  preIn : ∀ m ∈ st.inl, m.pre = true → ∃ w, (w ∈ old ∨ w ∈ st.out) ∧ m.q.level < w.q.level ∧
    isAncestor (parent m.q) w.q = true
  preOut : ∀ m ∈ st.out, m.pre = true → m.q ∈ R ∨ ∃ e, (Active R cur l e ∨ e ∈ R) ∧ m.q.level < e.level ∧
    isAncestor (parent m.q) e = true

theorem Closed.mono {dom : Quad d} {bound : ℕ} {o o' : List (Mark d)} {e : Quad d}
    (hm : ∀ w ∈ o, ∃ w' ∈ o', w'.q = w.q) (h : Closed dom bound o e) : Closed dom bound o' e := by
  intro sid hs hi
  obtain ⟨w, hw, he⟩ := h sid hs hi
  obtain ⟨w', hw', he'⟩ := hm w hw
  exact ⟨w', hw', he'.trans he⟩

/-- The first neighbor lies in the domain, and around the quadrant. -/
theorem coarse_zero_inside (hd : 0 < d) {dom e : Quad d} (hdom : Valid dom) (he : FamHead dom e)
    (hl : dom.level + 3 ≤ e.level) : isAncestor dom (coarseNeighbor e 0) = true := by
  have hv := he.valid
  have hl1 := hv.1
  have hp := parent_valid hv (by omega)
  have hg := parent_valid hp (by rw [parent_level]; omega)
  rw [coarseNeighbor_zero hv.aligned (by omega)]
  have h1 : isAncestor dom (parent (parent e)) = true := by
    rcases parent_inside hd hdom hv he.inside with h | h
    · exfalso
      have : dom.level = e.level - 1 := by rw [h]; rfl
      omega
    · rcases parent_inside hd hdom hp h with h | h
      · exfalso
        have : dom.level = e.level - 1 - 1 := by rw [h]; rfl
        omega
      · exact h
  have hgl : (parent (parent e)).level < 30 := by rw [parent_level, parent_level]; omega
  exact isAncestor_trans hd hdom.aligned (child_aligned hg.aligned hgl 0)
    ((isAncestor_iff hd hdom.aligned hg.aligned).mp h1).1 (cells_child_ssubset hd hg.aligned hgl 0)

theorem parent_coarse_zero (hd : 0 < d) {e : Quad d} (hv : Valid e) (hl : 2 ≤ e.level) :
    parent (coarseNeighbor e 0) = parent (parent e) ∧ isAncestor (parent (parent e)) e = true := by
  have hl1 := hv.1
  have hp := parent_valid hv (by omega)
  have hg := parent_valid hp (by rw [parent_level]; omega)
  rw [coarseNeighbor_zero hv.aligned (by omega)]
  refine ⟨parent_child hg.aligned (by rw [parent_level, parent_level]; omega) 0, ?_⟩
  have h1 := (anc_interval hd hg hp).mp (isAncestor_parent hd hp (by rw [parent_level]; omega))
  have h2 := (anc_interval hd hp hv).mp (isAncestor_parent hd hv (by omega))
  rw [anc_interval hd hg hv]
  omega

theorem spawnOne_spec (hd : 0 < d) {bs : (Quad d → ℤ) → List (Quad d) → Option ℕ} (hbs : Finds bs)
    {dom : Quad d} (hdom : Valid dom) {R : List (Quad d)} (hR : ∀ r ∈ R, FamHead dom r) {bound l : ℕ}
    {cur old : List (Mark d)} {q : Quad d} (hq : FamHead dom q) (hql : q.level = l) (hl : dom.level + 3 ≤ l)
    (hact : Active R cur l q) {st : LevelSt d} (hst : LevelInv dom R bound l cur old st) {sid : ℕ}
    (hsid : sid < bound) :
    ∃ st', spawnOne bs dom l q st sid = some st' ∧ LevelInv dom R bound l cur old st' ∧
      (∀ w ∈ st.out, ∃ w' ∈ st'.out, w'.q = w.q) ∧
      (isAncestor dom (coarseNeighbor q sid) = true → ∃ w ∈ st'.out, w.q = coarseNeighbor q sid) := by
  unfold spawnOne
  dsimp only
  have hal : (coarseNeighbor q sid).level = l - 1 := by rw [coarseNeighbor_level, hql]
  by_cases h1 : sid ≠ 0 ∧ isAncestor dom (coarseNeighbor q sid) = false
  · rw [if_pos h1]
    exact ⟨st, rfl, hst, fun w hw => ⟨w, hw, rfl⟩, fun h => by rw [h1.2] at h; simp at h⟩
  · rw [if_neg h1]
    have hin : isAncestor dom (coarseNeighbor q sid) = true := by
      by_cases h0 : sid = 0
      · rw [h0]; exact coarse_zero_inside hd hdom hq (by omega)
      · by_contra hc
        exact h1 ⟨h0, by simpa using hc⟩
    obtain ⟨hav, ha0, -⟩ := coarseNeighbor_inside hd hdom hq.valid (by omega) hin
    -- a new entry
    have new : ∀ (inl' : List (Mark d)) (p : Bool), inl'.map Mark.q = R →
        (∀ m ∈ inl', m ∈ st.inl ∨ (m.q.level ≤ l - 1 ∧ isAncestor (parent m.q) (coarseNeighbor q sid) = true ∧
          (m.pre = true → m.q.level < l - 1 ∨ ∃ m0 ∈ st.inl, m0.q = m.q ∧ m0.pre = true))) →
        (p = true → coarseNeighbor q sid ∈ R ∨ ∃ e, (Active R cur l e ∨ e ∈ R) ∧ l - 1 < e.level ∧
          isAncestor (parent (coarseNeighbor q sid)) e = true) →
        LevelInv dom R bound l cur old ⟨inl', st.out ++ [⟨coarseNeighbor q sid, false, p⟩]⟩ := by
      intro inl' p hq' hm hp
      refine ⟨hq', ?_, ?_, ?_, ?_⟩
      · intro w hw
        rcases List.mem_append.mp hw with hw | hw
        · exact hst.source w hw
        · rw [List.mem_singleton] at hw
          subst hw
          exact ⟨q, sid, hact, hsid, rfl, hin⟩
      · intro m hmem hdup hml
        rcases hm m hmem with h | ⟨h2, h3, -⟩
        · rcases hst.dup m h hdup hml with h4 | ⟨h4, w, hw, h5⟩
          · exact Or.inl h4
          · exact Or.inr ⟨h4, w, List.mem_append_left _ hw, h5⟩
        · exact Or.inr ⟨h2, _, List.mem_append_right _ (List.mem_singleton_self _), h3⟩
      · intro m hmem hpre
        have aux : ∀ m0 ∈ st.inl, m0.pre = true → ∃ w, (w ∈ old ∨ w ∈ st.out ++ [⟨coarseNeighbor q sid, false, p⟩]) ∧
            m0.q.level < w.q.level ∧ isAncestor (parent m0.q) w.q = true := by
          intro m0 h h4
          obtain ⟨w, hw, h5⟩ := hst.preIn m0 h h4
          exact ⟨w, hw.imp id (List.mem_append_left _), h5⟩
        rcases hm m hmem with h | ⟨h2, h3, h4⟩
        · exact aux m h hpre
        · rcases h4 hpre with h4 | ⟨m0, h4, h5, h6⟩
          · refine ⟨⟨coarseNeighbor q sid, false, p⟩, Or.inr (List.mem_append_right _ (List.mem_singleton_self _)), ?_, h3⟩
            dsimp only
            omega
          · have := aux m0 h4 h6
            rwa [h5] at this
      · intro m hmem hpre
        rcases List.mem_append.mp hmem with h | h
        · exact hst.preOut m h hpre
        · rw [List.mem_singleton] at h
          subst h
          have := hp hpre
          dsimp only
          rwa [hal]
    have mono : ∀ p, ∀ w ∈ st.out, ∃ w' ∈ st.out ++ [(⟨coarseNeighbor q sid, false, p⟩ : Mark d)], w'.q = w.q :=
      fun p w hw => ⟨w, List.mem_append_left _ hw, rfl⟩
    have last : ∀ p, ∃ w ∈ st.out ++ [(⟨coarseNeighbor q sid, false, p⟩ : Mark d)], w.q = coarseNeighbor q sid :=
      fun p => ⟨_, List.mem_append_right _ (List.mem_singleton_self _), rfl⟩
    cases hf : st.out.findIdx? (fun m => isEqual (coarseNeighbor q sid) m.q) with
    | some j =>
      dsimp only
      obtain ⟨hj, hje, -⟩ := List.findIdx?_eq_some_iff_getElem.mp hf
      rw [isEqual_iff] at hje
      by_cases h0 : sid = 0
      · rw [if_pos h0]
        have hmq : (st.out.modify j fun m => { m with pre := true }).map Mark.q = st.out.map Mark.q :=
          map_modify_eq _ _ (fun x => rfl)
        have hmono : ∀ w ∈ st.out, ∃ w' ∈ st.out.modify j (fun m => { m with pre := true }), w'.q = w.q := by
          intro w hw
          have : w.q ∈ (st.out.modify j fun m => { m with pre := true }).map Mark.q := by
            rw [hmq]; exact List.mem_map_of_mem hw
          obtain ⟨w', h1, h2⟩ := List.mem_map.mp this
          exact ⟨w', h1, h2⟩
        refine ⟨_, rfl, ⟨hst.quads, ?_, ?_, ?_, ?_⟩, hmono, fun _ => ?_⟩
        · intro w hw
          rcases mem_modify hw with h | ⟨x, hx, rfl⟩
          · exact hst.source w h
          · exact hst.source x (List.mem_of_getElem? hx)
        · intro m hmem hdup hml
          rcases hst.dup m hmem hdup hml with h4 | ⟨h4, w, hw, h5⟩
          · exact Or.inl h4
          · obtain ⟨w', hw', he⟩ := hmono w hw
            exact Or.inr ⟨h4, w', hw', by rw [he]; exact h5⟩
        · intro m hmem hpre
          obtain ⟨w, hw, h5⟩ := hst.preIn m hmem hpre
          rcases hw with hw | hw
          · exact ⟨w, Or.inl hw, h5⟩
          · obtain ⟨w', hw', he⟩ := hmono w hw
            exact ⟨w', Or.inr hw', by rw [he]; exact h5⟩
        · intro m hmem hpre
          rcases mem_modify hmem with h | ⟨x, hx, rfl⟩
          · exact hst.preOut m h hpre
          · rw [List.getElem?_eq_getElem hj] at hx
            obtain rfl := Option.some_inj.mp hx
            right
            dsimp only
            rw [← hje, h0]
            have hpc := parent_coarse_zero hd hq.valid (by omega)
            exact ⟨q, Or.inl hact, by rw [coarseNeighbor_level]; omega, by rw [hpc.1]; exact hpc.2⟩
        · obtain ⟨w, hw, he⟩ := hmono st.out[j] (List.getElem_mem hj)
          exact ⟨w, hw, he.trans hje.symm⟩
      · rw [if_neg h0]
        exact ⟨st, rfl, hst, fun w hw => ⟨w, hw, rfl⟩, fun _ => ⟨_, List.getElem_mem hj, hje.symm⟩⟩
    | none =>
      dsimp only
      by_cases h0 : sid = 0
      · rw [if_pos h0]
        refine ⟨_, rfl, new st.inl true hst.quads (fun m hm => Or.inl hm) (fun _ => Or.inr ?_), mono _, fun _ => last _⟩
        have hpc := parent_coarse_zero hd hq.valid (by omega)
        refine ⟨q, Or.inl hact, by omega, ?_⟩
        rw [h0, hpc.1]; exact hpc.2
      · rw [if_neg h0]
        cases hb : bs (disjointParent (coarseNeighbor q sid)) (st.inl.map Mark.q) with
        | none =>
          exact ⟨_, rfl, new st.inl false hst.quads (fun m hm => Or.inl hm) (fun h => by simp at h), mono _, fun _ => last _⟩
        | some k =>
          dsimp only
          obtain ⟨hk, hz⟩ := hbs _ _ _ hb
          rw [List.length_map] at hk
          rw [List.getElem_map] at hz
          rw [obind (List.getElem?_eq_getElem hk)]
          have hrR : st.inl[k].q ∈ R := by rw [← hst.quads]; exact List.mem_map_of_mem (List.getElem_mem hk)
          have hrF := hR _ hrR
          have hrl := hrF.lt
          refine ⟨_, rfl, new _ _ ?_ ?_ ?_, mono _, fun _ => last _⟩
          · rw [map_modify_eq _ _ (markFound_q l), hst.quads]
          · intro m hm
            rcases mem_modify hm with h | ⟨x, hx, rfl⟩
            · exact Or.inl h
            · rw [List.getElem?_eq_getElem hk] at hx
              obtain rfl := Option.some_inj.mp hx
              by_cases hle : st.inl[k].q.level ≤ l - 1
              · right
                rw [markFound_q]
                refine ⟨hle, disjointParent_left hd hav hrF.valid (by omega) (by omega) hz, ?_⟩
                unfold markFound
                rw [if_pos hle]
                dsimp only
                rw [Bool.or_eq_true, decide_eq_true_eq]
                rintro (h | h)
                · exact Or.inr ⟨_, List.getElem_mem hk, rfl, h⟩
                · exact Or.inl h
              · left
                unfold markFound
                rw [if_neg hle]
                exact List.getElem_mem hk
          · intro hp
            rw [decide_eq_true_eq] at hp
            have hanc := disjointParent_right hd hav hrF.valid (by omega) (by omega) hz
            rcases Nat.lt_or_ge (l - 1) st.inl[k].q.level with h | h
            · exact Or.inr ⟨_, Or.inr hrR, h, hanc⟩
            · left
              rw [first_child_unique hd hav hrF.valid (by omega) (by omega) ha0 hrF.first hanc]
              exact hrR

theorem spawn_spec (hd : 0 < d) {bs : (Quad d → ℤ) → List (Quad d) → Option ℕ} (hbs : Finds bs)
    {dom : Quad d} (hdom : Valid dom) {R : List (Quad d)} (hR : ∀ r ∈ R, FamHead dom r) {bound l : ℕ}
    {cur old : List (Mark d)} {q : Quad d} (hq : FamHead dom q) (hql : q.level = l) (hl : dom.level + 3 ≤ l)
    (hact : Active R cur l q) {st : LevelSt d} (hst : LevelInv dom R bound l cur old st) :
    ∃ st', spawn bs dom bound l q st = some st' ∧ LevelInv dom R bound l cur old st' ∧
      (∀ w ∈ st.out, ∃ w' ∈ st'.out, w'.q = w.q) ∧ Closed dom bound st'.out q := by
  unfold spawn
  suffices h : ∀ n, n ≤ bound → ∃ st', (List.range n).foldlM (spawnOne bs dom l q) st = some st' ∧
      LevelInv dom R bound l cur old st' ∧ (∀ w ∈ st.out, ∃ w' ∈ st'.out, w'.q = w.q) ∧
      ∀ sid, sid < n → isAncestor dom (coarseNeighbor q sid) = true →
        ∃ w ∈ st'.out, w.q = coarseNeighbor q sid by
    exact h bound le_rfl
  intro n hn
  induction n with
  | zero => exact ⟨st, rfl, hst, fun w hw => ⟨w, hw, rfl⟩, fun sid h => absurd h (by omega)⟩
  | succ n ih =>
    obtain ⟨s1, a1, a2, a3, a4⟩ := ih (by omega)
    obtain ⟨s2, b1, b2, b3, b4⟩ := spawnOne_spec hd hbs hdom hR hq hql hl hact a2 (sid := n) (by omega)
    rw [List.range_succ, List.foldlM_append, obind a1]
    refine ⟨s2, by simp [b1], b2, ?_, ?_⟩
    · intro w hw
      obtain ⟨w', h1, h2⟩ := a3 w hw
      obtain ⟨w'', h3, h4⟩ := b3 w' h1
      exact ⟨w'', h3, h4.trans h2⟩
    · intro sid hsid hin
      rcases Nat.lt_succ_iff_lt_or_eq.mp hsid with h | rfl
      · obtain ⟨w, h1, h2⟩ := a4 sid h hin
        obtain ⟨w', h3, h4⟩ := b3 w h1
        exact ⟨w', h3, h4.trans h2⟩
      · exact b4 hin

/-- One level. -/
theorem balanceLevel_spec (hd : 0 < d) {bs : (Quad d → ℤ) → List (Quad d) → Option ℕ} (hbs : Finds bs)
    {dom : Quad d} (hdom : Valid dom) {R : List (Quad d)} (hR : ∀ r ∈ R, FamHead dom r) {bound l : ℕ}
    (hl : dom.level + 3 ≤ l) {cur old inl : List (Mark d)} (hcur : ∀ w ∈ cur, FamHead dom w.q ∧ w.q.level = l)
    (hst : LevelInv dom R bound l cur old ⟨inl, []⟩) :
    ∃ st', balanceLevel bs dom bound l cur inl = some st' ∧ LevelInv dom R bound l cur old st' ∧
      ∀ e, Active R cur l e → Closed dom bound st'.out e := by
  unfold balanceLevel
  have hlen : inl.length = R.length := by rw [← hst.quads, List.length_map]
  -- entries of `inlist`
  have first : ∀ n, n ≤ inl.length → ∃ st', (List.range n).foldlM (spawnIn bs dom bound l) ⟨inl, []⟩ = some st' ∧
      LevelInv dom R bound l cur old st' ∧
      ∀ j (hj : j < R.length), j < n → R[j].level = l →
        Closed dom bound st'.out R[j] ∨ ∃ w ∈ cur, w.q = R[j] := by
    intro n hn
    induction n with
    | zero => exact ⟨_, rfl, hst, fun j _ h => absurd h (by omega)⟩
    | succ n ih =>
      obtain ⟨s1, a1, a2, a3⟩ := ih (by omega)
      rw [List.range_succ, List.foldlM_append, obind a1]
      have hlen1 : s1.inl.length = R.length := by rw [← a2.quads, List.length_map]
      have hn1 : n < s1.inl.length := by omega
      have hq : s1.inl[n].q = R[n]'(by omega) := by
        have := a2.quads
        subst this
        rw [List.getElem_map]
      have hF := hR (R[n]'(by omega)) (List.getElem_mem _)
      have hmem : s1.inl[n] ∈ s1.inl := List.getElem_mem hn1
      have hstep : spawnIn bs dom bound l s1 n =
          if s1.inl[n].q.level ≠ l ∨ s1.inl[n].dup = true then some s1 else spawn bs dom bound l s1.inl[n].q s1 := by
        unfold spawnIn
        rw [obind (List.getElem?_eq_getElem hn1)]
      by_cases hskip : s1.inl[n].q.level ≠ l ∨ s1.inl[n].dup = true
      · refine ⟨s1, by simp [hstep, hskip], a2, ?_⟩
        intro j hj hjn hjl
        rcases Nat.lt_succ_iff_lt_or_eq.mp hjn with h | rfl
        · exact a3 j hj h hjl
        · right
          have hdup : s1.inl[j].dup = true := by
            rcases hskip with h | h
            · rw [hq] at h; exact absurd hjl h
            · exact h
          rcases a2.dup _ hmem hdup (by rw [hq]; omega) with ⟨w, hw, h1⟩ | ⟨h1, -⟩
          · rw [hq] at h1
            obtain ⟨h2, h3⟩ := hcur w hw
            refine ⟨w, hw, ?_⟩
            have := hF.lt
            exact (first_child_unique hd hF.valid h2.valid (by omega) (by omega) hF.first h2.first h1).symm
          · rw [hq] at h1; omega
      · obtain ⟨hA, hB⟩ := not_or.mp hskip
        rw [not_not] at hA
        obtain ⟨s2, b1, b2, b3, b4⟩ := spawn_spec hd hbs hdom hR (q := s1.inl[n].q) (by rw [hq]; exact hF) hA hl
          ⟨hA, Or.inl (by rw [hq]; exact List.getElem_mem _)⟩ a2
        refine ⟨s2, by simp [hstep, hskip, b1], b2, ?_⟩
        intro j hj hjn hjl
        rcases Nat.lt_succ_iff_lt_or_eq.mp hjn with h | rfl
        · exact (a3 j hj h hjl).imp (Closed.mono b3) id
        · left
          rw [← hq]
          exact b4
  obtain ⟨s1, a1, a2, a3⟩ := first inl.length le_rfl
  rw [obind a1]
  -- entries of `cur`
  have second : ∀ (c : List (Mark d)), (∀ w ∈ c, w ∈ cur) → ∀ s0, LevelInv dom R bound l cur old s0 →
      ∃ st', c.foldlM (fun st (m : Mark d) => spawn bs dom bound l m.q st) s0 = some st' ∧
      LevelInv dom R bound l cur old st' ∧ (∀ w ∈ s0.out, ∃ w' ∈ st'.out, w'.q = w.q) ∧
      ∀ w ∈ c, Closed dom bound st'.out w.q := by
    intro c
    induction c with
    | nil => exact fun _ s0 h => ⟨s0, rfl, h, fun w hw => ⟨w, hw, rfl⟩, fun w hw => by simp at hw⟩
    | cons m c ih =>
      intro hc s0 hs0
      have hm := hcur m (hc m List.mem_cons_self)
      obtain ⟨s2, b1, b2, b3, b4⟩ := spawn_spec hd hbs hdom hR hm.1 hm.2 hl
          ⟨hm.2, Or.inr ⟨m, hc m List.mem_cons_self, rfl⟩⟩ hs0
      obtain ⟨s3, c1, c2, c3, c4⟩ := ih (fun w hw => hc w (List.mem_cons_of_mem _ hw)) s2 b2
      rw [List.foldlM_cons, obind b1]
      refine ⟨s3, c1, c2, ?_, ?_⟩
      · intro w hw
        obtain ⟨w', h1, h2⟩ := b3 w hw
        obtain ⟨w'', h3, h4⟩ := c3 w' h1
        exact ⟨w'', h3, h4.trans h2⟩
      · intro w hw
        rcases List.mem_cons.mp hw with rfl | hw
        · exact b4.mono c3
        · exact c4 w hw
  obtain ⟨s3, c1, c2, c3, c4⟩ := second cur (fun w hw => hw) s1 a2
  refine ⟨s3, c1, c2, ?_⟩
  rintro e ⟨h1, h2⟩
  rcases h2 with h2 | ⟨w, hw, rfl⟩
  · obtain ⟨j, hj, rfl⟩ := List.mem_iff_getElem.mp h2
    rcases a3 j hj (by omega) h1 with h | ⟨w, hw, h⟩
    · exact h.mono c3
    · rw [← h]; exact c4 w hw
  · exact c4 w hw

/-- The state between two levels; the next level to be processed is `l`. -/
structure PhaseInv (dom : Quad d) (R : List (Quad d)) (bound l : ℕ) (cur inl old : List (Mark d)) : Prop where
  quads : inl.map Mark.q = R
  need : ∀ w ∈ old, Need dom bound (· ∈ R) w.q
  low : ∀ w ∈ old, l ≤ w.q.level
  cur_old : ∀ w ∈ cur, w ∈ old ∧ w.q.level = l
  old_cur : ∀ w ∈ old, w.q.level = l → w ∈ cur
  closed : ∀ e, (e ∈ R ∨ ∃ w ∈ old, w.q = e) → l < e.level → Closed dom bound old e
  dup : ∀ m ∈ inl, m.dup = true → m.q.level ≤ l → ∃ w ∈ cur, isAncestor (parent m.q) w.q = true
  preIn : ∀ m ∈ inl, m.pre = true → ∃ w ∈ old, m.q.level < w.q.level ∧ isAncestor (parent m.q) w.q = true
  preOut : ∀ m ∈ old, m.pre = true → m.q ∈ R ∨
    ∃ e, (e ∈ R ∨ ∃ w ∈ old, w.q = e) ∧ m.q.level < e.level ∧ isAncestor (parent m.q) e = true

theorem balanceLevels_spec (hd : 0 < d) {bs : (Quad d → ℤ) → List (Quad d) → Option ℕ} (hbs : Finds bs)
    {dom : Quad d} (hdom : Valid dom) {R : List (Quad d)} (hR : ∀ r ∈ R, FamHead dom r) {bound : ℕ} (hb : 0 < bound)
    (n : ℕ) {cur inl : List (Mark d)} {outs : List (List (Mark d))}
    (h : PhaseInv dom R bound (dom.level + 2 + n) cur inl outs.flatten) :
    ∃ inl' outs', balanceLevels bs dom bound n cur inl outs = some (inl', outs') ∧
      ∃ cur', PhaseInv dom R bound (dom.level + 2) cur' inl' outs'.flatten := by
  induction n generalizing cur inl outs with
  | zero => exact ⟨inl, outs, rfl, cur, h⟩
  | succ n ih =>
    rw [balanceLevels]
    have hfam : ∀ w ∈ outs.flatten, FamHead dom w.q := fun w hw => (h.need w hw).fam hd hdom hR
    obtain ⟨st, a1, a2, a3⟩ := balanceLevel_spec hd hbs hdom hR (bound := bound) (l := dom.level + 2 + (n + 1)) (by omega)
      (cur := cur) (old := outs.flatten) (inl := inl)
      (fun w hw => ⟨hfam w (h.cur_old w hw).1, (h.cur_old w hw).2⟩)
      ⟨h.quads, fun w hw => by simp at hw, fun m hm h1 h2 => Or.inl (h.dup m hm h1 h2),
        fun m hm h1 => by
          obtain ⟨w, hw, h2⟩ := h.preIn m hm h1
          exact ⟨w, Or.inl hw, h2⟩,
        fun m hm => by simp at hm⟩
    rw [obind a1]
    apply ih
    -- the invariant one level further down
    have hactive : ∀ e, Active R cur (dom.level + 2 + (n + 1)) e → Need dom bound (· ∈ R) e := by
      rintro e ⟨-, h1 | ⟨w, hw, rfl⟩⟩
      · exact Need.seed h1
      · exact h.need w (h.cur_old w hw).1
    have hout : ∀ w ∈ st.out, Need dom bound (· ∈ R) w.q ∧ w.q.level = dom.level + 2 + n := by
      intro w hw
      obtain ⟨e, sid, h1, h2, h3, h4⟩ := a2.source w hw
      have h5 := h1.1
      rw [h3] at h4 ⊢
      exact ⟨Need.step (hactive e h1) (by omega) h2 h4, by rw [coarseNeighbor_level]; omega⟩
    rw [List.flatten_cons]
    refine ⟨a2.quads, ?_, ?_, ?_, ?_, ?_, ?_, ?_, ?_⟩
    · intro w hw
      rcases List.mem_append.mp hw with hw | hw
      · exact (hout w hw).1
      · exact h.need w hw
    · intro w hw
      rcases List.mem_append.mp hw with hw | hw
      · exact (hout w hw).2.ge
      · have := h.low w hw; omega
    · intro w hw
      exact ⟨List.mem_append_left _ hw, (hout w hw).2⟩
    · intro w hw hwl
      rcases List.mem_append.mp hw with hw | hw
      · exact hw
      · have := h.low w hw; omega
    · intro e he hel
      have hm1 : ∀ w ∈ outs.flatten, ∃ w' ∈ st.out ++ outs.flatten, w'.q = w.q :=
        fun w hw => ⟨w, List.mem_append_right _ hw, rfl⟩
      have hm2 : ∀ w ∈ st.out, ∃ w' ∈ st.out ++ outs.flatten, w'.q = w.q :=
        fun w hw => ⟨w, List.mem_append_left _ hw, rfl⟩
      have he' : e ∈ R ∨ ∃ w ∈ outs.flatten, w.q = e := by
        rcases he with he | ⟨w, hw, he⟩
        · exact Or.inl he
        · rcases List.mem_append.mp hw with hw | hw
          · have := (hout w hw).2
            rw [he] at this
            omega
          · exact Or.inr ⟨w, hw, he⟩
      rcases Nat.lt_or_ge (dom.level + 2 + (n + 1)) e.level with h1 | h1
      · exact (h.closed e he' h1).mono hm1
      · apply Closed.mono hm2
        apply a3
        refine ⟨by omega, ?_⟩
        rcases he' with he' | ⟨w, hw, he'⟩
        · exact Or.inl he'
        · exact Or.inr ⟨w, h.old_cur w hw (by rw [he']; omega), he'⟩
    · intro m hm hdup hml
      rcases a2.dup m hm hdup (by omega) with ⟨w, hw, h1⟩ | ⟨-, w, hw, h1⟩
      · -- the parent of `w`
        obtain ⟨c1, c2⟩ := h.cur_old w hw
        have hwF := hfam w c1
        have hz := coarse_zero_inside hd hdom hwF (by omega)
        obtain ⟨x, hx, hxe⟩ := a3 w.q ⟨c2, Or.inr ⟨w, hw, rfl⟩⟩ 0 hb hz
        refine ⟨x, hx, ?_⟩
        have hmF := hR m.q (by rw [← a2.quads]; exact List.mem_map_of_mem hm)
        have hml0 := hmF.lt
        have hwl0 := hwF.valid.1
        have hpm := parent_valid hmF.valid (by omega)
        obtain ⟨p1, p2⟩ := parent_coarse_zero hd hwF.valid (by omega)
        have hxv := (coarseNeighbor_inside hd hdom hwF.valid (by omega) hz).1
        have hpw := parent_valid hwF.valid (by omega)
        have hgw := parent_valid hpw (by rw [parent_level]; omega)
        have i1 := (anc_interval hd hpm hwF.valid).mp h1
        have i2 := (anc_interval hd hgw hwF.valid).mp p2
        have i3 := parent_interval hd hxv (by rw [coarseNeighbor_level]; omega)
        rw [p1] at i3
        have hlt := start_lt_stop w.q
        have l1 : (parent m.q).level = m.q.level - 1 := rfl
        have l2 : (parent (parent w.q)).level = w.q.level - 1 - 1 := rfl
        have l3 : (coarseNeighbor w.q 0).level = w.q.level - 1 := rfl
        rw [hxe, anc_interval hd hpm hxv]
        rcases valid_cases hd hpm hgw with h2 | h2 | h2 | h2 | h2
        · omega
        · omega
        · rw [← h2] at i3; omega
        · omega
        · have := h2.2.2.1; omega
      · exact ⟨w, hw, h1⟩
    · intro m hm hpre
      obtain ⟨w, hw, h1⟩ := a2.preIn m hm hpre
      refine ⟨w, ?_, h1⟩
      rcases hw with hw | hw
      · exact List.mem_append_right _ hw
      · exact List.mem_append_left _ hw
    · intro m hm hpre
      rcases List.mem_append.mp hm with hm | hm
      · rcases a2.preOut m hm hpre with h1 | ⟨e, h1, h2⟩
        · exact Or.inl h1
        · refine Or.inr ⟨e, ?_, h2⟩
          rcases h1 with ⟨-, h1 | ⟨w, hw, h1⟩⟩ | h1
          · exact Or.inl h1
          · exact Or.inr ⟨w, List.mem_append_right _ (h.cur_old w hw).1, h1⟩
          · exact Or.inl h1
      · rcases h.preOut m hm hpre with h1 | ⟨e, h1, h2⟩
        · exact Or.inl h1
        · refine Or.inr ⟨e, ?_, h2⟩
          rcases h1 with h1 | ⟨w, hw, h1⟩
          · exact Or.inl h1
          · exact Or.inr ⟨w, List.mem_append_right _ hw, h1⟩

/-! ## Sorting -/

theorem mem_insertSorted {q x : Quad d} {l : List (Quad d)} : x ∈ insertSorted q l ↔ x = q ∨ x ∈ l := by
  induction l with
  | nil => simp [insertSorted]
  | cons r rs ih =>
    unfold insertSorted
    split
    · simp
    · simp only [List.mem_cons, ih]
      tauto

theorem mem_sortQuads {x : Quad d} {l : List (Quad d)} : x ∈ sortQuads l ↔ x ∈ l := by
  induction l with
  | nil => simp [sortQuads]
  | cons r rs ih =>
    show x ∈ insertSorted r (sortQuads rs) ↔ _
    rw [mem_insertSorted, ih, List.mem_cons]

theorem insertSorted_sorted (hd : 0 < d) {q : Quad d} {l : List (Quad d)} (hq : Int32 q.c)
    (hl : ∀ x ∈ l, Int32 x.c) (h : SortedWeak l) : SortedWeak (insertSorted q l) := by
  induction l with
  | nil => exact List.pairwise_singleton _ _
  | cons r rs ih =>
    have hr := hl r List.mem_cons_self
    obtain ⟨h1, h2⟩ := List.pairwise_cons.mp h
    unfold insertSorted
    split
    · rename_i hc
      rw [compare_nonpos_iff hd hq hr] at hc
      refine List.pairwise_cons.mpr ⟨?_, h⟩
      intro x hx
      rcases List.mem_cons.mp hx with rfl | hx
      · exact hc
      · have := h1 x hx
        rw [before_interval] at this hc ⊢
        omega
    · rename_i hc
      rw [compare_nonpos_iff hd hq hr, not_not] at hc
      refine List.pairwise_cons.mpr ⟨?_, ih (fun x hx => hl x (List.mem_cons_of_mem _ hx)) h2⟩
      intro x hx
      rcases mem_insertSorted.mp hx with rfl | hx
      · exact hc.asymm
      · exact h1 x hx

theorem sortQuads_sorted (hd : 0 < d) {l : List (Quad d)} (hl : ∀ x ∈ l, Int32 x.c) :
    SortedWeak (sortQuads l) := by
  induction l with
  | nil => exact List.Pairwise.nil
  | cons r rs ih =>
    apply insertSorted_sorted hd (hl r List.mem_cons_self)
    · intro x hx
      exact hl x (List.mem_cons_of_mem _ (mem_sortQuads.mp hx))
    · exact ih (fun x hx => hl x (List.mem_cons_of_mem _ hx))

/-! ## The whole phase -/

theorem balancePhase_spec (hd : 0 < d) {bs : (Quad d → ℤ) → List (Quad d) → Option ℕ} (hbs : Finds bs)
    {dom : Quad d} (hdom : Valid dom) {R : List (Quad d)} (hR : ∀ r ∈ R, FamHead dom r) (hsort : SortedWeak R)
    {bound maxlevel : ℕ} (hb : 0 < bound) (hmax : ∀ r ∈ R, r.level ≤ maxlevel) (fd : Quad d)
    (first last : Option (Quad d)) :
    ∃ L, balancePhase bs dom bound maxlevel fd first last R = some L ∧ SortedWeak L ∧
      (∀ x ∈ L, Need dom bound (· ∈ R) x ∧ (x ∈ R ∨ inRegion fd first last x = true)) ∧
      ∀ e, Need dom bound (· ∈ R) e → ∃ f, Need dom bound (· ∈ R) f ∧ isAncestor (parent e) f = true ∧
        (f ∈ L ∨ inRegion fd first last f = false) := by
  unfold balancePhase
  have hqs : (R.map fun q => (⟨q, false, false⟩ : Mark d)).map Mark.q = R := by
    rw [List.map_map]
    exact List.map_id' R
  have hflag : ∀ m ∈ R.map (fun q => (⟨q, false, false⟩ : Mark d)), m.dup = false ∧ m.pre = false := by
    intro m hm
    obtain ⟨q, -, rfl⟩ := List.mem_map.mp hm
    exact ⟨rfl, rfl⟩
  obtain ⟨inl, outs, a1, cur, a2⟩ := balanceLevels_spec hd hbs hdom hR hb (maxlevel - (dom.level + 2))
    (cur := []) (inl := R.map fun q => ⟨q, false, false⟩) (outs := []) (by
      refine ⟨hqs, ?_, ?_, ?_, ?_, ?_, ?_, ?_, ?_⟩
      · intro w hw; simp at hw
      · intro w hw; simp at hw
      · intro w hw; simp at hw
      · intro w hw; simp at hw
      · intro e he hel
        rcases he with he | ⟨w, hw, -⟩
        · have := hmax e he; omega
        · simp at hw
      · intro m hm h; rw [(hflag m hm).1] at h; simp at h
      · intro m hm h; rw [(hflag m hm).2] at h; simp at h
      · intro w hw; simp at hw)
  rw [obind a1]
  dsimp only
  have hall : ∀ e, Need dom bound (· ∈ R) e → e ∈ R ∨ ∃ w ∈ outs.flatten, w.q = e := by
    intro e he
    induction he with
    | seed h => exact Or.inl h
    | step _ hl hs hin ih => exact Or.inr (a2.closed _ ih (by omega) _ hs hin)
  -- members of the lists before sorting
  have hins : ∀ x, x ∈ (inl.filter fun m => !m.pre).map Mark.q ↔ ∃ m ∈ inl, m.pre = false ∧ m.q = x := by
    intro x
    simp only [List.mem_map, List.mem_filter, Bool.not_eq_true']
    constructor
    · rintro ⟨m, ⟨h1, h2⟩, h3⟩; exact ⟨m, h1, h2, h3⟩
    · rintro ⟨m, h1, h2, h3⟩; exact ⟨m, ⟨h1, h2⟩, h3⟩
  have hnew : ∀ x, x ∈ (outs.flatten.filter fun m => inRegion fd first last m.q && !m.pre).map Mark.q ↔
      ∃ m ∈ outs.flatten, inRegion fd first last x = true ∧ m.pre = false ∧ m.q = x := by
    intro x
    simp only [List.mem_map, List.mem_filter, Bool.and_eq_true, Bool.not_eq_true']
    constructor
    · rintro ⟨m, ⟨h1, h2, h3⟩, rfl⟩; exact ⟨m, h1, h2, h3, rfl⟩
    · rintro ⟨m, h1, h2, h3, rfl⟩; exact ⟨m, ⟨h1, h2, h3⟩, rfl⟩
  have hmemR : ∀ m ∈ inl, m.q ∈ R := fun m hm => by rw [← a2.quads]; exact List.mem_map_of_mem hm
  obtain ⟨L, hL, hLs, hLm⟩ : ∃ L, L = (if ((outs.flatten.filter fun m => inRegion fd first last m.q && !m.pre).map Mark.q).length > 0 then
      sortQuads ((inl.filter fun m => !m.pre).map Mark.q ++
        (outs.flatten.filter fun m => inRegion fd first last m.q && !m.pre).map Mark.q)
      else (inl.filter fun m => !m.pre).map Mark.q) ∧ SortedWeak L ∧
      ∀ x, x ∈ L ↔ (∃ m ∈ inl, m.pre = false ∧ m.q = x) ∨
        ∃ m ∈ outs.flatten, inRegion fd first last x = true ∧ m.pre = false ∧ m.q = x := by
    refine ⟨_, rfl, ?_, ?_⟩
    · split
      · apply sortQuads_sorted hd
        intro x hx
        rcases List.mem_append.mp hx with hx | hx
        · obtain ⟨m, hm, -, rfl⟩ := (hins x).mp hx
          exact (hR _ (hmemR m hm)).valid.int32
        · obtain ⟨m, hm, -, -, rfl⟩ := (hnew x).mp hx
          exact ((a2.need m hm).fam hd hdom hR).valid.int32
      · have : ((inl.filter fun m => !m.pre).map Mark.q).Sublist R := by
          rw [← a2.quads]
          exact List.Sublist.map _ List.filter_sublist
        exact List.Pairwise.sublist this hsort
    · intro x
      split
      · rw [mem_sortQuads, List.mem_append, hins, hnew]
      · rename_i hlen
        have h0 : (outs.flatten.filter fun m => inRegion fd first last m.q && !m.pre).map Mark.q = [] := by
          apply List.eq_nil_of_length_eq_zero
          omega
        rw [hins]
        constructor
        · exact Or.inl
        · rintro (h | h)
          · exact h
          · have := (hnew x).mpr h
            rw [h0] at this
            simp at this
  refine ⟨L, by rw [hL], hLs, ?_, ?_⟩
  · intro x hx
    rcases (hLm x).mp hx with ⟨m, hm, -, rfl⟩ | ⟨m, hm, h1, -, rfl⟩
    · exact ⟨Need.seed (hmemR m hm), Or.inl (hmemR m hm)⟩
    · exact ⟨a2.need m hm, Or.inr h1⟩
  · -- a finest entry in the parent is not precluded
    intro e he
    suffices h : ∀ n f, Need dom bound (· ∈ R) f → isAncestor (parent e) f = true → 29 - f.level ≤ n →
        ∃ f, Need dom bound (· ∈ R) f ∧ isAncestor (parent e) f = true ∧
          (f ∈ L ∨ inRegion fd first last f = false) by
      have hF := he.fam hd hdom hR
      have := hF.lt
      exact h _ e he (isAncestor_parent hd hF.valid (by omega)) le_rfl
    have hF := he.fam hd hdom hR
    have hel := hF.lt
    have hpe := parent_valid hF.valid (by omega)
    -- passing to a finer entry
    have down : ∀ f, Need dom bound (· ∈ R) f → isAncestor (parent e) f = true → ∀ g, Need dom bound (· ∈ R) g →
        isAncestor (parent f) g = true → isAncestor (parent e) g = true := by
      intro f hf hef g hg hfg
      have hfv := (hf.fam hd hdom hR)
      have hgv := (hg.fam hd hdom hR).valid
      have := hfv.lt
      rcases parent_inside hd hpe hfv.valid hef with h | h
      · rw [h]; exact hfg
      · rw [anc_interval hd hpe (parent_valid hfv.valid (by omega))] at h
        rw [anc_interval hd (parent_valid hfv.valid (by omega)) hgv] at hfg
        rw [anc_interval hd hpe hgv]
        omega
    intro n
    induction n with
    | zero =>
      intro f hf hef hn
      by_cases hreg : inRegion fd first last f = true
      · have hfin : ∀ g, Need dom bound (· ∈ R) g → ¬ f.level < g.level := by
          intro g hg
          have := (hg.fam hd hdom hR).valid.1
          omega
        have hin : ∀ m ∈ inl, m.q = f → f ∈ L := by
          intro m hm hmf
          rw [hLm]
          left
          refine ⟨m, hm, ?_, hmf⟩
          by_contra hp
          rw [Bool.not_eq_false] at hp
          obtain ⟨w, hw, h1, -⟩ := a2.preIn m hm hp
          rw [hmf] at h1
          exact hfin _ (a2.need w hw) h1
        have hRin : f ∈ R → f ∈ L := by
          intro h
          rw [← a2.quads] at h
          obtain ⟨m, hm, hmf⟩ := List.mem_map.mp h
          exact hin m hm hmf
        refine ⟨f, hf, hef, Or.inl ?_⟩
        rcases hall f hf with h | ⟨w, hw, hwf⟩
        · exact hRin h
        · by_cases hp : w.pre = true
          · rcases a2.preOut w hw hp with h | ⟨x, hx, h1, -⟩
            · rw [hwf] at h; exact hRin h
            · rw [hwf] at h1
              refine absurd h1 (hfin x ?_)
              rcases hx with hx | ⟨w', hw', rfl⟩
              · exact Need.seed hx
              · exact a2.need w' hw'
          · rw [hLm]
            exact Or.inr ⟨w, hw, hreg, by simpa using hp, hwf⟩
      · exact ⟨f, hf, hef, Or.inr (by simpa using hreg)⟩
    | succ n ih =>
      intro f hf hef hn
      have hf29 := (hf.fam hd hdom hR).valid.1
      have go : ∀ g, Need dom bound (· ∈ R) g → f.level < g.level → isAncestor (parent f) g = true →
          ∃ f, Need dom bound (· ∈ R) f ∧ isAncestor (parent e) f = true ∧
            (f ∈ L ∨ inRegion fd first last f = false) := by
        intro g hg hl hfg
        have := (hg.fam hd hdom hR).valid.1
        exact ih g hg (down f hf hef g hg hfg) (by omega)
      have hRin : f ∈ R → ∃ f, Need dom bound (· ∈ R) f ∧ isAncestor (parent e) f = true ∧
            (f ∈ L ∨ inRegion fd first last f = false) := by
        intro h
        rw [← a2.quads] at h
        obtain ⟨m, hm, hmf⟩ := List.mem_map.mp h
        by_cases hp : m.pre = true
        · obtain ⟨w, hw, h1, h2⟩ := a2.preIn m hm hp
          rw [hmf] at h1 h2
          exact go w.q (a2.need w hw) h1 h2
        · exact ⟨f, hf, hef, Or.inl ((hLm f).mpr (Or.inl ⟨m, hm, by simpa using hp, hmf⟩))⟩
      rcases hall f hf with h | ⟨w, hw, hwf⟩
      · exact hRin h
      · by_cases hp : w.pre = true
        · rcases a2.preOut w hw hp with h | ⟨x, hx, h1, h2⟩
          · rw [hwf] at h; exact hRin h
          · rw [hwf] at h1 h2
            refine go x ?_ h1 h2
            rcases hx with hx | ⟨w', hw', rfl⟩
            · exact Need.seed hx
            · exact a2.need w' hw'
        · by_cases hreg : inRegion fd first last f = true
          · exact ⟨f, hf, hef, Or.inl ((hLm f).mpr (Or.inr ⟨w, hw, hreg, by simpa using hp, hwf⟩))⟩
          · exact ⟨f, hf, hef, Or.inr (by simpa using hreg)⟩

end P4est
