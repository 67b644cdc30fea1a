import Verif.Lemmas.GhostExchange
import Verif.Props.Ghost
import Verif.Props.GhostCorner
import Verif.Props.Transfer
import Verif.Props.Repartition

/-! # C61: the exchange of data of ghosts -/

namespace P4est
open Spec

variable {d : ℕ}

theorem seenBy_mirror {rel : ℕ × Quad d → ℕ × Quad d → Prop} {leaves : ℕ → List (ℕ × Quad d)} {P p r : ℕ} (hr : r < P)
    {x : GhostQuad d} (hx : x ∈ seenBy rel leaves p r) : x ∈ mirrorsOf rel leaves P p := by
  classical
  obtain ⟨h1, h2, h3⟩ := mem_seenBy.mp hx
  unfold mirrorsOf
  rw [List.mem_filter]
  exact ⟨h1, decide_eq_true ⟨r, hr, fun h => h2 h.symm, h3⟩⟩

theorem mirrorsOf_nodup {rel : ℕ × Quad d → ℕ × Quad d → Prop} {leaves : ℕ → List (ℕ × Quad d)} {P p : ℕ} :
    (mirrorsOf rel leaves P p).Nodup := by
  unfold mirrorsOf
  apply List.Nodup.filter
  apply List.Nodup.of_map Prod.snd
  rw [List.zipIdx_map_snd]
  exact List.nodup_range'

open Classical in
/-- The bytes that belong to a mirror. -/
noncomputable def mirrorItem (size : ℕ) (g : GhostLayer d) (mirrorData : List (List Byte)) (x : GhostQuad d) : List Byte :=
  (mirrorData.getD (g.mirrors.idxOf x) []).take size

theorem mirrorItem_eq {size : ℕ} {g : GhostLayer d} (hn : g.mirrors.Nodup) {mirrorData : List (List Byte)} {x : GhostQuad d}
    {k : ℕ} {dat : List Byte} (hk : g.mirrors[k]? = some x) (hd : mirrorData[k]? = some dat) :
    mirrorItem size g mirrorData x = dat.take size := by
  classical
  obtain ⟨hlt, hget⟩ := List.getElem?_eq_some_iff.mp hk
  have : g.mirrors.idxOf x = k := by
    rw [← hget]; exact hn.idxOf_getElem k hlt
  unfold mirrorItem
  rw [List.getD_eq_getElem?_getD]
  have e : (mirrorData[g.mirrors.idxOf x]?) = some dat := by rw [this, hd]
  convert congrArg (fun o => (o.getD []).take size) e using 1
  rfl

/-- What the lists for the messages are. -/
theorem lists_of {rel : ℕ × Quad d → ℕ × Quad d → Prop} {leaves : ℕ → List (ℕ × Quad d)} {P r size : ℕ} {g : GhostLayer d}
    (h : GhostTables rel leaves P r g) {wanted : ℕ → Bool} {mirrorData : List (List Byte)}
    (hdat : ∀ (k : ℕ) x, g.mirrors[k]? = some x → wanted x.1.2.level = true →
      ∃ dat, mirrorData[k]? = some dat ∧ size ≤ dat.length) :
    ∃ ppiece off, Lists size P wanted g mirrorData ppiece (fun q => seenBy rel leaves r q) off (mirrorItem size g mirrorData) := by
  obtain ⟨ppiece, h1, h2⟩ := h.lists
  obtain ⟨off, h3⟩ := offsets_of_cut h1
  refine ⟨ppiece, off, h3, h2, ?_⟩
  intro m x hm hw
  obtain ⟨dat, h4, h5⟩ := hdat m x hm hw
  refine ⟨dat, h4, ?_⟩
  rw [mirrorItem_eq (by rw [h.mirrors]; exact mirrorsOf_nodup) hm h4]
  unfold firstBytes
  rw [if_pos h5]

theorem customBegin_spec {rel : ℕ × Quad d → ℕ × Quad d → Prop} {leaves : ℕ → List (ℕ × Quad d)} {P r size : ℕ}
    {g : GhostLayer d} (h : GhostTables rel leaves P r g) {mirrorData : List (List Byte)} (hs : size ≠ 0)
    (hdat : ∀ (k : ℕ) x, g.mirrors[k]? = some x → ∃ dat, mirrorData[k]? = some dat ∧ size ≤ dat.length) {off : ℕ → ℕ}
    (ho : Offsets g.ghosts g.procOffsets P (fun p => seenBy rel leaves p r) off) :
    customBegin P size g mirrorData = some ⟨(List.range P).filterMap (recvOf size off (fun p => seenBy rel leaves p r) fun _ => true),
        (List.range P).filterMap (sendOf (fun q => seenBy rel leaves r q) (fun _ => true) (mirrorItem size g mirrorData))⟩ := by
  obtain ⟨ppiece, off', hl⟩ := lists_of (wanted := fun _ => true) h (fun k x hk _ => hdat k x hk)
  have h1 := customRecvs_spec (size := size) ho P 0 (by omega)
  have h2 := customSends_spec hl P 0 (by omega)
  rw [ho.zero, ← List.range_eq_range'] at h1
  rw [hl.offs.zero, ← List.range_eq_range'] at h2
  unfold customBegin
  rw [if_neg hs, obind h1, obind h2]

theorem levelsBegin_spec {rel : ℕ × Quad d → ℕ × Quad d → Prop} {leaves : ℕ → List (ℕ × Quad d)} {P r size : ℕ}
    {g : GhostLayer d} (h : GhostTables rel leaves P r g) {minlevel maxlevel : ℤ} (h1 : ¬ (minlevel ≤ 0 ∧ maxlevel ≥ QMAXLEVEL))
    (h2 : ¬ (size = 0 ∨ minlevel > maxlevel)) {mirrorData : List (List Byte)}
    (hdat : ∀ (k : ℕ) x, g.mirrors[k]? = some x → levelMatches minlevel maxlevel x.1.2.level = true →
      ∃ dat, mirrorData[k]? = some dat ∧ size ≤ dat.length) {off : ℕ → ℕ}
    (ho : Offsets g.ghosts g.procOffsets P (fun p => seenBy rel leaves p r) off) :
    levelsBegin P minlevel maxlevel size g mirrorData =
      some ⟨(List.range P).filterMap (recvOf size off (fun p => seenBy rel leaves p r) (levelMatches minlevel maxlevel)),
        (List.range P).filterMap (sendOf (fun q => seenBy rel leaves r q) (levelMatches minlevel maxlevel)
          (mirrorItem size g mirrorData))⟩ := by
  obtain ⟨ppiece, off', hl⟩ := lists_of h hdat
  have h3 := levelsRecvs_spec (size := size) (wanted := levelMatches minlevel maxlevel) ho P 0 (by omega)
  have h4 := levelsSends_spec hl P 0 (by omega)
  rw [ho.zero, ← List.range_eq_range'] at h3
  rw [hl.offs.zero, ← List.range_eq_range'] at h4
  unfold levelsBegin
  rw [if_neg h1, if_neg h2, obind h3, obind h4]

/-- Nothing is exchanged. -/
theorem exchange_none {P size : ℕ} {gs : List (GhostLayer d)} (hl : gs.length = P) {wanted : ℕ → Bool}
    {begins : ℕ → GhostLayer d → Option GhostPost} (hb : ∀ (r : ℕ) g, gs[r]? = some g → begins r g = some ⟨[], []⟩)
    {mems : ℕ → List Byte} {order : ℕ → List GhostRecv → List GhostRecv} (ho : AnyOrder order) :
    exchangeAll size wanted order begins gs mems = some ((List.range P).map mems) := by
  have h1 := mapM_zipIdx (l := gs) (f := fun x => begins x.2 x.1) (h := fun _ => (⟨[], []⟩ : GhostPost)) (fun i x hx => hb i x hx)
  unfold exchangeAll
  rw [obind h1, ← hl]
  refine mapM_zipIdx fun i x hx => ?_
  have hi := (List.getElem?_eq_some_iff.mp hx).1
  have h2 : ((List.range gs.length).map fun _ => (⟨[], []⟩ : GhostPost))[i]? = some ⟨[], []⟩ := by
    rw [List.getElem?_map, List.getElem?_range hi]; rfl
  have h3 : order i [] = [] := List.perm_nil.mp (ho i [])
  unfold exchangeEnd
  rw [obind h2]
  simp [h3]

/-- **C61, levels.**  For ghost layers of all ranks that fit together, `p4est_ghost_exchange_custom_levels` terminates in
whatever order the messages arrive, for all ranges of levels.  Afterwards each ghost with a level in the range has the first
`size` bytes of the mirror data of the same leaf on the rank to which it belongs, and all other memory is unchanged.  Mirror
data is needed only for the mirrors with a level in the range. -/
theorem C61_exchange_levels (rel : ℕ × Quad d → ℕ × Quad d → Prop) (leaves : ℕ → List (ℕ × Quad d)) (P size : ℕ)
    (gs : List (GhostLayer d)) (hl : gs.length = P) (hg : ∀ r < P, ∃ g, gs[r]? = some g ∧ GhostTables rel leaves P r g)
    (hlev : ∀ p < P, ∀ x ∈ leaves p, x.2.level ≤ 29) (minlevel maxlevel : ℤ) (mirrorData : ℕ → List (List Byte))
    (hdat : ∀ (p : ℕ) g (k : ℕ) x, gs[p]? = some g → g.mirrors[k]? = some x → minlevel ≤ x.1.2.level → (x.1.2.level : ℤ) ≤ maxlevel →
      ∃ dat, (mirrorData p)[k]? = some dat ∧ size ≤ dat.length)
    (mems : ℕ → List Byte) (hmem : ∀ (r : ℕ) g, gs[r]? = some g → g.ghosts.length * size ≤ (mems r).length)
    (order : ℕ → List GhostRecv → List GhostRecv) (ho : AnyOrder order) :
    ∃ res, exchangeLevels order P minlevel maxlevel size gs mirrorData mems = some res ∧ res.length = P ∧
      ∀ r < P, ∃ g m, gs[r]? = some g ∧ res[r]? = some m ∧ m.length = (mems r).length ∧
        (∀ (i : ℕ) x, g.ghosts[i]? = some x → minlevel ≤ x.1.2.level → (x.1.2.level : ℤ) ≤ maxlevel →
          ∃ (p : ℕ) (gp : GhostLayer d) (k : ℕ) (dat : List Byte), p < P ∧ p ≠ r ∧ OwnedBy g i p ∧ gs[p]? = some gp ∧ gp.mirrors[k]? = some x ∧
            (mirrorData p)[k]? = some dat ∧ item size m i = dat.take size) ∧
        (∀ (i : ℕ) x, g.ghosts[i]? = some x → ¬ (minlevel ≤ x.1.2.level ∧ (x.1.2.level : ℤ) ≤ maxlevel) →
          item size m i = item size (mems r) i) ∧
        ∀ i, g.ghosts.length ≤ i → item size m i = item size (mems r) i := by
  classical
  have hw : ∀ l : ℕ, levelMatches minlevel maxlevel l = true ↔ minlevel ≤ l ∧ (l : ℤ) ≤ maxlevel := by
    intro l; simp [levelMatches]
  -- the layer of each rank
  have hg' : ∀ r : ℕ, ∃ g, r < P → gs[r]? = some g ∧ GhostTables rel leaves P r g := by
    intro r
    by_cases hr : r < P
    · obtain ⟨g, h⟩ := hg r hr
      exact ⟨g, fun _ => h⟩
    · exact ⟨⟨[], [], [], [], [], [], []⟩, fun h => absurd h hr⟩
  choose G hG using hg'
  have hget : ∀ (r : ℕ) g, gs[r]? = some g → r < P ∧ g = G r := by
    intro r g h
    have hr : r < P := by rw [← hl]; exact (List.getElem?_eq_some_iff.mp h).1
    have := (hG r hr).1
    rw [h] at this
    exact ⟨hr, Option.some.inj this⟩
  have hghost : ∀ r < P, ∀ (i : ℕ) x, (G r).ghosts[i]? = some x → ∃ p < P, ∃ a : ℕ, OwnedBy (G r) i p ∧ x ∈ seenBy rel leaves p r ∧
      (G p).mirrors[a]? = some x := by
    intro r hr i x hx
    obtain ⟨off, h3⟩ := offsets_of_cut (hG r hr).2.procs
    obtain ⟨p, hp, k, rfl, hk⟩ := h3.find hx
    have hmx : x ∈ seenBy rel leaves p r := List.mem_of_getElem? hk
    have hm : x ∈ (G p).mirrors := by rw [(hG p hp).2.mirrors]; exact seenBy_mirror hr hmx
    obtain ⟨a, ha⟩ := List.mem_iff_getElem?.mp hm
    refine ⟨p, hp, a, ⟨off p, off (p + 1), h3.get p (by omega), h3.get (p + 1) (by omega), by omega, ?_⟩, hmx, ha⟩
    rw [h3.next p hp]
    have := (List.getElem?_eq_some_iff.mp hk).1
    omega
  by_cases h0 : size = 0
  · -- nothing is exchanged
    subst h0
    have hb : ∀ (r : ℕ) g, gs[r]? = some g → levelsBegin P minlevel maxlevel 0 g (mirrorData r) = some ⟨[], []⟩ := by
      intro r g _
      unfold levelsBegin customBegin
      simp
    refine ⟨_, exchange_none hl hb ho, by simp, fun r hr => ⟨G r, mems r, (hG r hr).1, ?_, rfl, ?_, fun _ _ _ _ => rfl, fun _ _ => rfl⟩⟩
    · rw [List.getElem?_map, List.getElem?_range hr]; rfl
    · intro i x hx h1 h2
      obtain ⟨p, hp, a, ho', hmx, ha⟩ := hghost r hr i x hx
      obtain ⟨dat, hd, -⟩ := hdat p _ a x (hG p hp).1 ha h1 h2
      exact ⟨p, G p, a, dat, hp, (mem_seenBy.mp hmx).2.1, ho', (hG p hp).1, ha, hd, by simp [item]⟩
  by_cases h1 : minlevel > maxlevel
  · have hb : ∀ (r : ℕ) g, gs[r]? = some g → levelsBegin P minlevel maxlevel size g (mirrorData r) = some ⟨[], []⟩ := by
      intro r g _
      unfold levelsBegin
      rw [if_neg (by rintro ⟨h2, h3⟩; have : (QMAXLEVEL : ℤ) = 29 := rfl; omega), if_pos (Or.inr h1)]
    refine ⟨_, exchange_none hl hb ho, by simp, fun r hr => ⟨G r, mems r, (hG r hr).1, ?_, rfl, ?_, fun _ _ _ _ => rfl, fun _ _ => rfl⟩⟩
    · rw [List.getElem?_map, List.getElem?_range hr]; rfl
    · intro i x hx h2 h3; omega
  -- data is exchanged
  have hitem : ∀ p < P, ∀ (k : ℕ) x dat, (G p).mirrors[k]? = some x → (mirrorData p)[k]? = some dat →
      mirrorItem size (G p) (mirrorData p) x = dat.take size := fun p hp k x dat hk hd =>
    mirrorItem_eq (by rw [(hG p hp).2.mirrors]; exact mirrorsOf_nodup) hk hd
  have core : ∃ res, exchangeAll size (levelMatches minlevel maxlevel) order
      (fun r g => levelsBegin P minlevel maxlevel size g (mirrorData r)) gs mems = some res ∧ res.length = P ∧
      ∀ r < P, ∃ g m, gs[r]? = some g ∧ res[r]? = some m ∧ m.length = (mems r).length ∧
        (∀ (i : ℕ) x, g.ghosts[i]? = some x → ∃ p < P, OwnedBy g i p ∧ x ∈ seenBy rel leaves p r ∧
          item size m i = if levelMatches minlevel maxlevel x.1.2.level = true then mirrorItem size (G p) (mirrorData p) x
            else item size (mems r) i) ∧
        ∀ i, g.ghosts.length ≤ i → item size m i = item size (mems r) i := by
    have hlen : ∀ p < P, ∀ r < P, ∀ x ∈ seenBy rel leaves p r, levelMatches minlevel maxlevel x.1.2.level = true →
        (mirrorItem size (G p) (mirrorData p) x).length = size := by
      intro p hp r hr x hx hx'
      have hm : x ∈ (G p).mirrors := by rw [(hG p hp).2.mirrors]; exact seenBy_mirror hr hx
      obtain ⟨a, ha⟩ := List.mem_iff_getElem?.mp hm
      obtain ⟨h2, h3⟩ := (hw _).mp hx'
      obtain ⟨dat, hd, hs⟩ := hdat p _ a x (hG p hp).1 ha h2 h3
      rw [hitem p hp a x dat ha hd, List.length_take]; omega
    by_cases h2 : minlevel ≤ 0 ∧ maxlevel ≥ QMAXLEVEL
    · -- the mirrors and ghosts all have a level in the range
      have hall : ∀ p < P, ∀ x ∈ leaves p, levelMatches minlevel maxlevel x.2.level = true := by
        intro p hp x hx
        have := hlev p hp x hx
        have e : (QMAXLEVEL : ℤ) = 29 := rfl
        rw [hw]; omega
      have hsee : ∀ p < P, ∀ r, ∀ x ∈ seenBy rel leaves p r, levelMatches minlevel maxlevel x.1.2.level = true := by
        intro p hp r x hx
        have h3 := (mem_seenBy.mp hx).1
        exact hall p hp _ (List.mem_of_getElem? (List.mem_zipIdx_iff_getElem?.mp h3))
      refine exchange_core (D := fun p => mirrorItem size (G p) (mirrorData p)) hl hg ?_ hlen hmem ho
      intro r hr g hgr off hoff
      obtain ⟨-, rfl⟩ := hget r g hgr
      show levelsBegin _ _ _ _ _ _ = _
      have hbeg := customBegin_spec (hG r hr).2 h0 (mirrorData := mirrorData r) (fun k x hk => by
        have hx : x ∈ mirrorsOf rel leaves P r := by rw [← (hG r hr).2.mirrors]; exact List.mem_of_getElem? hk
        unfold mirrorsOf at hx
        have h3 := List.mem_of_getElem? (List.mem_zipIdx_iff_getElem?.mp (List.mem_filter.mp hx).1)
        obtain ⟨h4, h5⟩ := (hw _).mp (hall r hr _ h3)
        exact hdat r _ k x hgr hk h4 h5) hoff
      unfold levelsBegin
      rw [if_pos h2, hbeg]
      congr 2
      · apply List.filterMap_congr
        intro q hq
        unfold recvOf
        have e : ∀ w : ℕ → Bool, (∀ x ∈ seenBy rel leaves q r, w x.1.2.level = true) →
            (seenBy rel leaves q r).countP (fun x => w x.1.2.level) = (seenBy rel leaves q r).length :=
          fun w h => List.countP_eq_length.mpr h
        simp only [e _ (hsee q (List.mem_range.mp hq) r), e (fun _ => true) (fun _ _ => rfl)]
      · apply List.filterMap_congr
        intro q hq
        unfold sendOf
        have e : ∀ w : ℕ → Bool, (∀ x ∈ seenBy rel leaves r q, w x.1.2.level = true) →
            (seenBy rel leaves r q).countP (fun x => w x.1.2.level) = (seenBy rel leaves r q).length ∧
            (seenBy rel leaves r q).filter (fun x => w x.1.2.level) = seenBy rel leaves r q :=
          fun w h => ⟨List.countP_eq_length.mpr h, List.filter_eq_self.mpr h⟩
        simp only [(e _ (hsee r hr q)).1, (e _ (hsee r hr q)).2, (e (fun _ => true) (fun _ _ => rfl)).1, (e (fun _ => true) (fun _ _ => rfl)).2]
    · refine exchange_core (D := fun p => mirrorItem size (G p) (mirrorData p)) hl hg ?_ hlen hmem ho
      intro r hr g hgr off hoff
      obtain ⟨-, rfl⟩ := hget r g hgr
      exact levelsBegin_spec (hG r hr).2 h2 (by rintro (h | h) <;> contradiction) (fun k x hk hx => by
        obtain ⟨h4, h5⟩ := (hw _).mp hx
        exact hdat r _ k x hgr hk h4 h5) hoff
  obtain ⟨res, k1, k2, k3⟩ := core
  refine ⟨res, k1, k2, fun r hr => ?_⟩
  obtain ⟨g, m, e1, e2, e3, e4, e5⟩ := k3 r hr
  refine ⟨g, m, e1, e2, e3, ?_, ?_, e5⟩
  · intro i x hx h2 h3
    obtain ⟨p, hp, ho', hmx, h4⟩ := e4 i x hx
    have hm : x ∈ (G p).mirrors := by rw [(hG p hp).2.mirrors]; exact seenBy_mirror hr hmx
    obtain ⟨a, ha⟩ := List.mem_iff_getElem?.mp hm
    obtain ⟨dat, hd, hs⟩ := hdat p _ a x (hG p hp).1 ha h2 h3
    refine ⟨p, G p, a, dat, hp, (mem_seenBy.mp hmx).2.1, ho', (hG p hp).1, ha, hd, ?_⟩
    rw [h4, if_pos ((hw _).mpr ⟨h2, h3⟩), hitem p hp a x dat ha hd]
  · intro i x hx h2
    obtain ⟨p, hp, ho', hmx, h4⟩ := e4 i x hx
    rw [h4, if_neg (fun h => h2 ((hw _).mp h))]

/-- **C61, custom data.**  For ghost layers of all ranks that fit together, `p4est_ghost_exchange_custom` terminates in
whatever order the messages arrive.  Afterwards each ghost has the first `size` bytes of the mirror data of the same leaf on
the rank to which it belongs, and memory after the last ghost is unchanged. -/
theorem C61_exchange_custom (rel : ℕ × Quad d → ℕ × Quad d → Prop) (leaves : ℕ → List (ℕ × Quad d)) (P size : ℕ)
    (gs : List (GhostLayer d)) (hl : gs.length = P) (hg : ∀ r < P, ∃ g, gs[r]? = some g ∧ GhostTables rel leaves P r g)
    (mirrorData : ℕ → List (List Byte))
    (hdat : ∀ (p : ℕ) g (k : ℕ) x, gs[p]? = some g → g.mirrors[k]? = some x →
      ∃ dat, (mirrorData p)[k]? = some dat ∧ size ≤ dat.length)
    (mems : ℕ → List Byte) (hmem : ∀ (r : ℕ) g, gs[r]? = some g → g.ghosts.length * size ≤ (mems r).length)
    (order : ℕ → List GhostRecv → List GhostRecv) (ho : AnyOrder order) :
    ∃ res, exchangeCustom order P size gs mirrorData mems = some res ∧ res.length = P ∧
      ∀ r < P, ∃ g m, gs[r]? = some g ∧ res[r]? = some m ∧ m.length = (mems r).length ∧
        (∀ (i : ℕ) x, g.ghosts[i]? = some x → ∃ (p : ℕ) (gp : GhostLayer d) (k : ℕ) (dat : List Byte), p < P ∧ p ≠ r ∧ OwnedBy g i p ∧ gs[p]? = some gp ∧
          gp.mirrors[k]? = some x ∧ (mirrorData p)[k]? = some dat ∧ item size m i = dat.take size) ∧
        ∀ i, g.ghosts.length ≤ i → item size m i = item size (mems r) i := by
  classical
  have hg' : ∀ r : ℕ, ∃ g, r < P → gs[r]? = some g ∧ GhostTables rel leaves P r g := by
    intro r
    by_cases hr : r < P
    · obtain ⟨g, h⟩ := hg r hr
      exact ⟨g, fun _ => h⟩
    · exact ⟨⟨[], [], [], [], [], [], []⟩, fun h => absurd h hr⟩
  choose G hG using hg'
  have hget : ∀ (r : ℕ) g, gs[r]? = some g → r < P ∧ g = G r := by
    intro r g h
    have hr : r < P := by rw [← hl]; exact (List.getElem?_eq_some_iff.mp h).1
    have := (hG r hr).1
    rw [h] at this
    exact ⟨hr, Option.some.inj this⟩
  have hitem : ∀ p < P, ∀ r < P, ∀ x ∈ seenBy rel leaves p r, ∃ (k : ℕ) (dat : List Byte), (G p).mirrors[k]? = some x ∧
      (mirrorData p)[k]? = some dat ∧ size ≤ dat.length ∧ mirrorItem size (G p) (mirrorData p) x = dat.take size := by
    intro p hp r hr x hx
    have hm : x ∈ (G p).mirrors := by rw [(hG p hp).2.mirrors]; exact seenBy_mirror hr hx
    obtain ⟨a, ha⟩ := List.mem_iff_getElem?.mp hm
    obtain ⟨dat, hd, hs⟩ := hdat p _ a x (hG p hp).1 ha
    exact ⟨a, dat, ha, hd, hs, mirrorItem_eq (by rw [(hG p hp).2.mirrors]; exact mirrorsOf_nodup) ha hd⟩
  by_cases h0 : size = 0
  · subst h0
    have hb : ∀ (r : ℕ) g, gs[r]? = some g → customBegin P 0 g (mirrorData r) = some ⟨[], []⟩ := by
      intro r g _; simp [customBegin]
    refine ⟨_, exchange_none hl hb ho, by simp, fun r hr => ⟨G r, mems r, (hG r hr).1, ?_, rfl, ?_, fun _ _ => rfl⟩⟩
    · rw [List.getElem?_map, List.getElem?_range hr]; rfl
    · intro i x hx
      obtain ⟨off, h3⟩ := offsets_of_cut (hG r hr).2.procs
      obtain ⟨p, hp, k, rfl, hk⟩ := h3.find hx
      have hmx : x ∈ seenBy rel leaves p r := List.mem_of_getElem? hk
      obtain ⟨a, dat, ha, hd, -, -⟩ := hitem p hp r hr x hmx
      refine ⟨p, G p, a, dat, hp, (mem_seenBy.mp hmx).2.1,
        ⟨off p, off (p + 1), h3.get p (by omega), h3.get (p + 1) (by omega), by omega, ?_⟩, (hG p hp).1, ha, hd, by simp [item]⟩
      rw [h3.next p hp]
      have := (List.getElem?_eq_some_iff.mp hk).1
      exact Nat.add_lt_add_left this _
  obtain ⟨res, k1, k2, k3⟩ := exchange_core (begins := fun r g => customBegin P size g (mirrorData r)) (size := size)
    (wanted := fun _ => true) (D := fun p => mirrorItem size (G p) (mirrorData p)) hl hg
    (by
      intro r hr g hgr off hoff
      obtain ⟨-, rfl⟩ := hget r g hgr
      exact customBegin_spec (hG r hr).2 h0 (fun k x hk => hdat r _ k x hgr hk) hoff)
    (by
      intro p hp r hr x hx _
      obtain ⟨a, dat, ha, hd, hs, e⟩ := hitem p hp r hr x hx
      rw [e, List.length_take]; omega)
    hmem ho
  refine ⟨res, k1, k2, fun r hr => ?_⟩
  obtain ⟨g, m, e1, e2, e3, e4, e5⟩ := k3 r hr
  refine ⟨g, m, e1, e2, e3, ?_, e5⟩
  intro i x hx
  obtain ⟨p, hp, ho', hmx, h4⟩ := e4 i x hx
  obtain ⟨a, dat, ha, hd, hs, e⟩ := hitem p hp r hr x hmx
  exact ⟨p, G p, a, dat, hp, (mem_seenBy.mp hmx).2.1, ho', (hG p hp).1, ha, hd, by rw [h4, if_pos rfl, e]⟩

/-! ### The data of the leaves -/

theorem tagFrom_get {β : Type} (ls : List (List β)) : ∀ (a n : ℕ) (x : ℕ × β), (tagFrom a ls)[n]? = some x →
    a ≤ x.1 ∧ ∃ l, ls[x.1 - a]? = some l ∧ cum ls (x.1 - a) ≤ n ∧ l[n - cum ls (x.1 - a)]? = some x.2 := by
  induction ls with
  | nil => intro a n x h; simp [tagFrom] at h
  | cons l ls ih =>
    intro a n x h
    rw [tagFrom] at h
    by_cases hn : n < l.length
    · rw [List.getElem?_append_left (by simpa using hn), List.getElem?_map] at h
      cases hl : l[n]? with
      | none => rw [hl] at h; simp at h
      | some y =>
        rw [hl] at h
        simp only [Option.map_some, Option.some.injEq] at h
        subst h
        exact ⟨le_rfl, l, by simp, by simp [cum], by simpa [cum] using hl⟩
    · rw [List.getElem?_append_right (by simpa using hn), List.length_map] at h
      obtain ⟨h1, l', h2, h3, h4⟩ := ih (a + 1) _ x h
      have e : x.1 - a = (x.1 - (a + 1)) + 1 := by omega
      have ec : cum (l :: ls) (x.1 - a) = l.length + cum ls (x.1 - (a + 1)) := by
        rw [e]; unfold cum; simp
      refine ⟨by omega, l', by rw [e, List.getElem?_cons_succ, h2], by omega, ?_⟩
      rw [ec, ← h4]
      congr 1; omega

/-- The data of a leaf is found by its number. -/
theorem mirrorBytes_spec {T : ℕ} {L : List (ℕ × (Quad d × List Byte))} {rt : RankTrees (Quad d × List Byte)} (h : Holds T L rt)
    {n t : ℕ} {q : Quad d} {dat : List Byte} (hn : L[n]? = some (t, (q, dat))) : mirrorBytes rt ((t, q), n) = some dat := by
  rw [← h.split, forestLeaves] at hn
  obtain ⟨-, l, h1, h2, h3⟩ := tagFrom_get _ 0 n _ hn
  simp only [Nat.sub_zero] at h1 h2 h3
  unfold mirrorBytes
  simp only
  rw [obind h1]
  unfold cum at h2 h3
  rw [if_neg (by omega), obind h3]

/-- **C61, data of the leaves.**  For ghost layers of all ranks that fit together, `p4est_ghost_exchange_data` terminates in
whatever order the messages arrive.  Afterwards each ghost has the data of the leaf that it stands for: the leaf with its
number on the rank to which it belongs.  Here the data of a leaf are `data_size` bytes, or the 8 bytes of the pointer
`user_data` if `data_size` is 0. -/
theorem C61_exchange_data (rel : ℕ × Quad d → ℕ × Quad d → Prop) (P dataSize size T : ℕ)
    (hsize : size = if dataSize = 0 then 8 else dataSize) (L : ℕ → List (ℕ × (Quad d × List Byte)))
    (rts : ℕ → RankTrees (Quad d × List Byte)) (hrt : ∀ p < P, Holds T (L p) (rts p))
    (hdat : ∀ p < P, ∀ y ∈ L p, y.2.2.length = size) (gs : List (GhostLayer d)) (hl : gs.length = P)
    (hg : ∀ r < P, ∃ g, gs[r]? = some g ∧ GhostTables rel (fun p => (L p).map fun y => (y.1, y.2.1)) P r g)
    (mems : ℕ → List Byte) (hmem : ∀ (r : ℕ) g, gs[r]? = some g → g.ghosts.length * size ≤ (mems r).length)
    (order : ℕ → List GhostRecv → List GhostRecv) (ho : AnyOrder order) :
    ∃ res, exchangeData order P dataSize rts gs mems = some res ∧ res.length = P ∧
      ∀ r < P, ∃ g m, gs[r]? = some g ∧ res[r]? = some m ∧ m.length = (mems r).length ∧
        (∀ (i : ℕ) x, g.ghosts[i]? = some x → ∃ (p : ℕ) (dat : List Byte), p < P ∧ p ≠ r ∧ OwnedBy g i p ∧
          (L p)[x.2]? = some (x.1.1, (x.1.2, dat)) ∧ item size m i = dat) ∧
        ∀ i, g.ghosts.length ≤ i → item size m i = item size (mems r) i := by
  classical
  -- each numbered leaf has its data
  have hleaf : ∀ p < P, ∀ x : GhostQuad d, x ∈ ((L p).map fun y => (y.1, y.2.1)).zipIdx →
      ∃ dat, (L p)[x.2]? = some (x.1.1, (x.1.2, dat)) ∧ mirrorBytes (rts p) x = some dat ∧ dat.length = size := by
    intro p hp x hx
    have h1 := List.mem_zipIdx_iff_getElem?.mp hx
    rw [List.getElem?_map] at h1
    cases h2 : (L p)[x.2]? with
    | none => rw [h2] at h1; simp at h1
    | some y =>
      rw [h2] at h1
      simp only [Option.map_some, Option.some.injEq] at h1
      have e : y = (x.1.1, (x.1.2, y.2.2)) := by rw [← h1]
      refine ⟨y.2.2, by rw [← e], ?_, hdat p hp y (List.mem_of_getElem? h2)⟩
      rw [e] at h2
      exact mirrorBytes_spec (hrt p hp) h2
  have hmir : ∀ (p : ℕ) g, gs[p]? = some g → p < P ∧
      ∃ md : List (List Byte), g.mirrors.mapM (mirrorBytes (rts p)) = some md ∧
        ∀ (k : ℕ) x, g.mirrors[k]? = some x → ∃ dat, md[k]? = some dat ∧ dat.length = size ∧
          (L p)[x.2]? = some (x.1.1, (x.1.2, dat)) := by
    intro p g hgp
    have hp : p < P := by rw [← hl]; exact (List.getElem?_eq_some_iff.mp hgp).1
    obtain ⟨g', e1, e2⟩ := hg p hp
    rw [hgp] at e1
    cases e1
    have hz : ∀ x ∈ g.mirrors, x ∈ ((L p).map fun y => (y.1, y.2.1)).zipIdx := by
      intro x hx
      rw [e2.mirrors] at hx
      unfold mirrorsOf at hx
      exact (List.mem_filter.mp hx).1
    refine ⟨hp, g.mirrors.map fun x => (mirrorBytes (rts p) x).getD [], ?_, ?_⟩
    · apply mapM_some
      intro x hx
      obtain ⟨dat, -, h2, -⟩ := hleaf p hp x (hz x hx)
      rw [h2]; rfl
    · intro k x hk
      obtain ⟨dat, h1, h2, h3⟩ := hleaf p hp x (hz x (List.mem_of_getElem? hk))
      refine ⟨dat, ?_, h3, h1⟩
      rw [List.getElem?_map, hk]
      simp [h2]
  choose! hlt md hmd using hmir
  have key := C61_exchange_custom rel (fun p => (L p).map fun y => (y.1, y.2.1)) P size gs hl hg
    (fun p => (gs[p]?.map (md p)).getD [])
    (fun p g k x hgp hk => by
      obtain ⟨dat, h1, h2, -⟩ := (hmd p g hgp).2 k x hk
      exact ⟨dat, by rw [hgp]; exact h1, h2.ge⟩)
    mems hmem order ho
  have hsame : exchangeData order P dataSize rts gs mems =
      exchangeCustom order P size gs (fun p => (gs[p]?.map (md p)).getD []) mems := by
    unfold exchangeData exchangeCustom
    rw [← hsize]
    unfold exchangeAll
    have e : gs.zipIdx.mapM (fun x => dataBegin P dataSize (rts x.2) x.1) =
        gs.zipIdx.mapM (fun x => customBegin P size x.1 ((gs[x.2]?.map (md x.2)).getD [])) := by
      apply mapM_congr
      intro x hx
      have hx' := List.mem_zipIdx_iff_getElem?.mp hx
      unfold dataBegin
      rw [obind (hmd x.2 x.1 hx').1, ← hsize, hx']
      rfl
    rw [e]
  obtain ⟨res, k1, k2, k3⟩ := key
  refine ⟨res, by rw [hsame, k1], k2, fun r hr => ?_⟩
  obtain ⟨g, m, e1, e2, e3, e4, e5⟩ := k3 r hr
  refine ⟨g, m, e1, e2, e3, ?_, e5⟩
  intro i x hx
  obtain ⟨p, gp, k, dat, hp, hpr, hown, hgp, hk, hd, hi⟩ := e4 i x hx
  obtain ⟨dat', h1, h2, h3⟩ := (hmd p gp hgp).2 k x hk
  rw [hgp] at hd
  have : dat = dat' := by
    have hd : (md p gp)[k]? = some dat := hd
    rw [h1] at hd
    exact (Option.some.inj hd).symm
  subst this
  exact ⟨p, dat, hp, hpr, hown, h3, by rw [hi, ← h2, List.take_length]⟩

/-! ### A new ghost layer, and the exchange -/

/-- **C61, with a new ghost layer across faces.**  On every distributed forest, `p4est_ghost_new` with `P4EST_CONNECT_FACE`
followed by `p4est_ghost_exchange_data` gives each rank, for each leaf of another rank that has a common part of a face with
a leaf of its own, the data of this leaf.

Partial: as in `C57_ghost_face_partial`, no rank may have one single leaf that is of the smallest size. -/
theorem C61_new_exchange_face_partial (hd : d = 2 ∨ d = 3) (conn : FaceConn) (hconn : FaceConsistent d conn)
    (trees : List (List (Quad d))) (hn : conn.numTrees = trees.length) (P : ℕ) (L : ℕ → List (ℕ × (Quad d × List Byte)))
    (h : Distributed trees P fun p => (L p).map fun y => (y.1, y.2.1))
    (hone : ∀ p < P, ∀ y, L p = [y] → y.2.1.level ≠ 29) (mem : Fin d → ℤ) (dataSize size : ℕ)
    (hsize : size = if dataSize = 0 then 8 else dataSize) (hdat : ∀ p < P, ∀ y ∈ L p, y.2.2.length = size)
    (rts : ℕ → RankTrees (Quad d × List Byte)) (hrt : ∀ p < P, Holds trees.length (L p) (rts p)) :
    ∃ gs, ghostNewFace mem conn P (fun p => (L p).map fun y => (y.1, y.2.1)) = some gs ∧ gs.length = P ∧
      ∀ mems : ℕ → List Byte, (∀ (r : ℕ) g, gs[r]? = some g → g.ghosts.length * size ≤ (mems r).length) →
      ∀ order, AnyOrder order → ∃ res, exchangeData order P dataSize rts gs mems = some res ∧ res.length = P ∧
        ∀ r < P, ∃ g m, gs[r]? = some g ∧ res[r]? = some m ∧
          g.ghosts = ghostsOf (ShareFace conn) (fun p => (L p).map fun y => (y.1, y.2.1)) P r ∧
          ∀ (i : ℕ) x, g.ghosts[i]? = some x → ∃ (p : ℕ) (dat : List Byte), p < P ∧ p ≠ r ∧ OwnedBy g i p ∧
            (L p)[x.2]? = some (x.1.1, (x.1.2, dat)) ∧ item size m i = dat := by
  obtain ⟨gs, h1, h2, h3⟩ := C57_ghost_face_partial hd conn hconn trees hn P _ h (by
    intro p hp x hx
    cases hL : L p with
    | nil => rw [hL] at hx; simp at hx
    | cons y l =>
      simp only [hL, List.map_cons, List.cons.injEq, List.map_eq_nil_iff] at hx
      rw [← hx.1]
      exact hone p hp y (by rw [hL, hx.2])) mem
  have hg : ∀ r < P, ∃ g, gs[r]? = some g ∧ GhostTables (ShareFace conn) (fun p => (L p).map fun y => (y.1, y.2.1)) P r g := by
    intro r hr
    obtain ⟨g, e1, e2, e3, -, e4, -, e5⟩ := h3 r hr
    exact ⟨g, e1, e2, e3, e4, e5⟩
  refine ⟨gs, h1, h2, fun mems hmem order ho => ?_⟩
  obtain ⟨res, k1, k2, k3⟩ := C61_exchange_data (ShareFace conn) P dataSize size trees.length hsize L rts hrt hdat gs h2 hg mems
    hmem order ho
  refine ⟨res, k1, k2, fun r hr => ?_⟩
  obtain ⟨g, m, e1, e2, -, e4, -⟩ := k3 r hr
  obtain ⟨g', e1', e5⟩ := hg r hr
  rw [e1] at e1'
  cases e1'
  exact ⟨g, m, e1, e2, e5.ghosts, e4⟩

/-- **C61, with a new ghost layer across corners.**  The same in two dimensions with `P4EST_CONNECT_FULL` for all leaves with a
common point.

Partial: as in `C58_ghost_full_partial`. -/
theorem C61_new_exchange_full_partial (conn : FaceConn) (hconn : FaceConsistent 2 conn) (cc : CornerConn)
    (hcc : CornerConsistent conn.numTrees cc) (hcf : CornersOnFaces conn cc) (trees : List (List (Quad 2)))
    (hn : conn.numTrees = trees.length) (P : ℕ) (L : ℕ → List (ℕ × (Quad 2 × List Byte)))
    (h : Distributed trees P fun p => (L p).map fun y => (y.1, y.2.1))
    (hone : ∀ p < P, ∀ y, L p = [y] → y.2.1.level ≠ 29) (mem : Fin 2 → ℤ) (dataSize size : ℕ)
    (hsize : size = if dataSize = 0 then 8 else dataSize) (hdat : ∀ p < P, ∀ y ∈ L p, y.2.2.length = size)
    (rts : ℕ → RankTrees (Quad 2 × List Byte)) (hrt : ∀ p < P, Holds trees.length (L p) (rts p)) :
    ∃ gs, ghostNewFull mem conn cc P (fun p => (L p).map fun y => (y.1, y.2.1)) = some gs ∧ gs.length = P ∧
      ∀ mems : ℕ → List Byte, (∀ (r : ℕ) g, gs[r]? = some g → g.ghosts.length * size ≤ (mems r).length) →
      ∀ order, AnyOrder order → ∃ res, exchangeData order P dataSize rts gs mems = some res ∧ res.length = P ∧
        ∀ r < P, ∃ g m, gs[r]? = some g ∧ res[r]? = some m ∧
          g.ghosts = ghostsOf (Meet conn cc) (fun p => (L p).map fun y => (y.1, y.2.1)) P r ∧
          ∀ (i : ℕ) x, g.ghosts[i]? = some x → ∃ (p : ℕ) (dat : List Byte), p < P ∧ p ≠ r ∧ OwnedBy g i p ∧
            (L p)[x.2]? = some (x.1.1, (x.1.2, dat)) ∧ item size m i = dat := by
  obtain ⟨gs, h1, h2, h3⟩ := C58_ghost_full_partial conn hconn cc hcc hcf trees hn P _ h (by
    intro p hp x hx
    cases hL : L p with
    | nil => rw [hL] at hx; simp at hx
    | cons y l =>
      simp only [hL, List.map_cons, List.cons.injEq, List.map_eq_nil_iff] at hx
      rw [← hx.1]
      exact hone p hp y (by rw [hL, hx.2])) mem
  have hg : ∀ r < P, ∃ g, gs[r]? = some g ∧ GhostTables (Meet conn cc) (fun p => (L p).map fun y => (y.1, y.2.1)) P r g := by
    intro r hr
    obtain ⟨g, e1, e2, e3, -, e4, -, e5⟩ := h3 r hr
    exact ⟨g, e1, e2, e3, e4, e5⟩
  refine ⟨gs, h1, h2, fun mems hmem order ho => ?_⟩
  obtain ⟨res, k1, k2, k3⟩ := C61_exchange_data (Meet conn cc) P dataSize size trees.length hsize L rts hrt hdat gs h2 hg mems
    hmem order ho
  refine ⟨res, k1, k2, fun r hr => ?_⟩
  obtain ⟨g, m, e1, e2, -, e4, -⟩ := k3 r hr
  obtain ⟨g', e1', e5⟩ := hg r hr
  rw [e1] at e1'
  cases e1'
  exact ⟨g, m, e1, e2, e5.ghosts, e4⟩

/-! ### An exchange -/

/-- The leaves of `twoTreesLeaves`, each with two bytes: a number for its rank, and its level. -/
def ghostBytes (p : ℕ) : List (ℕ × (Quad 2 × List Byte)) :=
  (twoTreesLeaves p).map fun x => (x.1, (x.2, [Fin.ofNat 256 (10 + p), Fin.ofNat 256 x.2.level]))

theorem ghostBytes_bare : (fun p => (ghostBytes p).map fun y => (y.1, y.2.1)) = twoTreesLeaves := by
  funext p
  simp [ghostBytes, Function.comp_def]

/-- The state of the ranks of this forest. -/
def ghostByteState (p : ℕ) : RankTrees (Quad 2 × List Byte) :=
  ⟨(List.range 2).map (leavesIn (ghostBytes p)), match p with | 0 => 0 | 2 => 0 | _ => -1,
    match p with | 0 => 0 | 2 => 1 | _ => -2⟩

theorem ghostByteState_holds : ∀ p < 4, Holds twoTrees.length (ghostBytes p) (ghostByteState p) := by
  intro p hp
  have : p = 0 ∨ p = 1 ∨ p = 2 ∨ p = 3 := by omega
  rcases this with rfl | rfl | rfl | rfl
  all_goals exact ⟨by decide, by decide +kernel, by decide, by decide⟩

theorem twoSquares_ghost : (((0, child (root 2) 1), 1) : (ℕ × Quad 2) × ℕ) ∈ ghostsOf (ShareFace twoSquares) twoTreesLeaves 4 2 := by
  unfold ghostsOf
  rw [List.mem_flatMap]
  refine ⟨0, by simp, mem_seenBy.mpr ⟨by decide +kernel, ?_⟩⟩
  refine ⟨by norm_num, (0, child (root 2) 3), by decide +kernel, ![2 ^ 29, 2 ^ 29 - 1], ?_, ![2 ^ 29, 2 ^ 29], ?_, ?_⟩
  · intro i; fin_cases i <;> decide +kernel
  · intro i; fin_cases i <;> decide +kernel
  · refine ⟨?_, ?_, Or.inl ⟨rfl, 1, ?_, Or.inl ?_⟩⟩
    · intro i; fin_cases i <;> decide
    · intro i; fin_cases i <;> decide
    · intro j hj; fin_cases j
      · rfl
      · exact absurd rfl hj
    · decide

theorem ghostBytes_length : ∀ p < 4, ∀ y ∈ ghostBytes p, y.2.2.length = 2 := by
  intro p _ y hy
  obtain ⟨x, -, rfl⟩ := List.mem_map.mp hy
  rfl

/-- In this forest rank 2 has a ghost from rank 0, and obtains its two bytes, here with receives that complete in the reverse
order. -/
example (mem : Fin 2 → ℤ) : ∃ gs, ghostNewFace mem twoSquares 4 twoTreesLeaves = some gs ∧
    ∃ (g : GhostLayer 2) (i : ℕ), gs[2]? = some g ∧ g.ghosts[i]? = some ((0, child (root 2) 1), 1) ∧
      ∀ mems : ℕ → List Byte, (∀ (r : ℕ) (g : GhostLayer 2), gs[r]? = some g → g.ghosts.length * 2 ≤ (mems r).length) →
        ∃ res m, exchangeData (fun _ l => l.reverse) 4 2 ghostByteState gs mems = some res ∧ res[2]? = some m ∧
          item 2 m i = [10, 1] := by
  have hd : Distributed twoTrees 4 fun p => (ghostBytes p).map fun y => (y.1, y.2.1) := by
    rw [ghostBytes_bare]; exact twoTrees_distributed
  obtain ⟨gs, h1, h2, h3⟩ := C61_new_exchange_face_partial (by norm_num) twoSquares twoSquares_consistent twoTrees rfl 4 ghostBytes
    hd (by
      intro p hp y hy
      have h1 : (ghostBytes p).length = 1 := by rw [hy]; rfl
      interval_cases p <;> exact absurd h1 (by decide)) mem 2 2 rfl ghostBytes_length ghostByteState ghostByteState_holds
  rw [ghostBytes_bare] at h1 h3
  obtain ⟨res0, -, -, h4⟩ := h3 (fun r => List.replicate ((gs[r]?.elim 0 fun g => g.ghosts.length) * 2) 0)
    (fun r g hg => by simp [hg]) (fun _ l => l) (fun _ _ => List.Perm.refl _)
  obtain ⟨g, m0, e1, -, e3, -⟩ := h4 2 (by norm_num)
  have hm := twoSquares_ghost
  rw [← e3] at hm
  obtain ⟨i, hi⟩ := List.mem_iff_getElem?.mp hm
  refine ⟨gs, h1, g, i, e1, hi, fun mems hmem => ?_⟩
  obtain ⟨res, k1, -, k3⟩ := h3 mems hmem (fun _ l => l.reverse) (fun _ l => List.reverse_perm l)
  obtain ⟨g', m, e1', e2, -, e4⟩ := k3 2 (by norm_num)
  rw [e1] at e1'
  cases e1'
  obtain ⟨p, dat, hp, hp2, -, h5, h6⟩ := e4 i _ hi
  refine ⟨res, m, k1, e2, ?_⟩
  rw [h6]
  interval_cases p
  · have h7 : (ghostBytes 0)[1]? = some (0, (child (root 2) 1, [10, 1])) := by decide +kernel
    rw [h7] at h5
    simp only [Option.some.injEq, Prod.mk.injEq, true_and] at h5
    exact h5.symm
  · exact absurd h5 (by simp [ghostBytes, twoTreesLeaves])
  · exact absurd rfl hp2
  · exact absurd h5 (by simp [ghostBytes, twoTreesLeaves])

/-- A square with the first child refined. -/
def mixedTree : List (Quad 2) := childrenv (child (root 2) 0) ++ (childrenv (root 2)).drop 1

/-- The first rank has the four smaller leaves and one larger one. -/
def mixedLeaves (p : ℕ) : List (ℕ × Quad 2) :=
  ((mixedTree.drop ([0, 5].getD p 7)).take ([5, 2].getD p 0)).map fun q => (0, q)

theorem mixed_distributed : Distributed [mixedTree] 2 mixedLeaves where
  complete := by
    simp only [List.mem_singleton, forall_eq]
    refine treeComplete_of_path ?_ (by decide +kernel)
    have h : ∀ q ∈ mixedTree, isValid q = true := by decide +kernel
    exact fun q hq => isValid_iff.mp (h q hq)
  someTree := by simp
  split := by decide +kernel

theorem mixed_ghosts : (((0, child (child (root 2) 0) 2), 2) : GhostQuad 2) ∈ ghostsOf (ShareFace oneSquare) mixedLeaves 2 1 ∧
    (((0, child (root 2) 1), 4) : GhostQuad 2) ∈ ghostsOf (ShareFace oneSquare) mixedLeaves 2 1 := by
  unfold ghostsOf
  constructor
  · rw [List.mem_flatMap]
    refine ⟨0, by simp, mem_seenBy.mpr ⟨by decide +kernel, ?_⟩⟩
    refine ⟨by norm_num, (0, child (root 2) 2), by decide +kernel, ![0, 2 ^ 29 - 1], ?_, ![0, 2 ^ 29], ?_, ?_⟩
    · intro i; fin_cases i <;> decide +kernel
    · intro i; fin_cases i <;> decide +kernel
    · refine ⟨?_, ?_, Or.inl ⟨rfl, 1, ?_, Or.inl ?_⟩⟩
      · intro i; fin_cases i <;> decide
      · intro i; fin_cases i <;> decide
      · intro j hj; fin_cases j
        · rfl
        · exact absurd rfl hj
      · decide
  · rw [List.mem_flatMap]
    refine ⟨0, by simp, mem_seenBy.mpr ⟨by decide +kernel, ?_⟩⟩
    refine ⟨by norm_num, (0, child (root 2) 3), by decide +kernel, ![2 ^ 29, 2 ^ 29 - 1], ?_, ![2 ^ 29, 2 ^ 29], ?_, ?_⟩
    · intro i; fin_cases i <;> decide +kernel
    · intro i; fin_cases i <;> decide +kernel
    · refine ⟨?_, ?_, Or.inl ⟨rfl, 1, ?_, Or.inl ?_⟩⟩
      · intro i; fin_cases i <;> decide
      · intro i; fin_cases i <;> decide
      · intro j hj; fin_cases j
        · rfl
        · exact absurd rfl hj
      · decide

/-- In this forest the second rank has ghosts of two levels from the first.  An exchange for level 1 alone leaves the data of
the smaller ghost as it was. -/
example (mem : Fin 2 → ℤ) : ∃ gs, ghostNewFace mem oneSquare 2 mixedLeaves = some gs ∧
    ∃ (g : GhostLayer 2) (i j : ℕ), gs[1]? = some g ∧ g.ghosts[i]? = some ((0, child (child (root 2) 0) 2), 2) ∧
      g.ghosts[j]? = some ((0, child (root 2) 1), 4) ∧
      ∃ res m, exchangeLevels (fun _ l => l.reverse) 2 1 1 3 gs
          (fun p => gs[p]?.elim [] fun g => g.mirrors.map fun _ => [Fin.ofNat 256 p, 8, 9])
          (fun p => List.replicate ((gs[p]?.elim 0 fun g => g.ghosts.length) * 3) 7) = some res ∧
        res[1]? = some m ∧ item 3 m j = [0, 8, 9] ∧
        item 3 m i = item 3 (List.replicate (g.ghosts.length * 3) 7) i := by
  obtain ⟨gs, h1, h2, h3⟩ := C57_ghost_face_partial (by norm_num) oneSquare oneSquare_consistent [mixedTree] rfl 2 mixedLeaves
    mixed_distributed (by
      intro p hp x hx
      have h1 : (mixedLeaves p).length = 1 := by rw [hx]; rfl
      interval_cases p <;> exact absurd h1 (by decide)) mem
  have hg : ∀ r < 2, ∃ g, gs[r]? = some g ∧ GhostTables (ShareFace oneSquare) mixedLeaves 2 r g := by
    intro r hr
    obtain ⟨g, e1, e2, e3, -, e4, -, e5⟩ := h3 r hr
    exact ⟨g, e1, e2, e3, e4, e5⟩
  have hlev : ∀ p < 2, ∀ x ∈ mixedLeaves p, x.2.level ≤ 29 := by
    intro p hp
    interval_cases p <;> decide +kernel
  obtain ⟨res, k1, k2, k3⟩ := C61_exchange_levels (ShareFace oneSquare) mixedLeaves 2 3 gs h2 hg hlev 1 1
    (fun p => gs[p]?.elim [] fun g => g.mirrors.map fun _ => [Fin.ofNat 256 p, 8, 9])
    (fun p g k x hgp hk _ _ => ⟨[Fin.ofNat 256 p, 8, 9], by simp only [hgp, Option.elim_some, List.getElem?_map, hk, Option.map_some], le_rfl⟩)
    (fun p => List.replicate ((gs[p]?.elim 0 fun g => g.ghosts.length) * 3) 7)
    (fun r g hgr => by simp [hgr]) (fun _ l => l.reverse) (fun _ l => List.reverse_perm l)
  obtain ⟨g, m, e1, e2, -, e4, e5, -⟩ := k3 1 (by norm_num)
  obtain ⟨g', e1', e6⟩ := hg 1 (by norm_num)
  rw [e1] at e1'
  cases e1'
  obtain ⟨hm1, hm2⟩ := mixed_ghosts
  rw [← e6.ghosts] at hm1 hm2
  obtain ⟨i, hi⟩ := List.mem_iff_getElem?.mp hm1
  obtain ⟨j, hj⟩ := List.mem_iff_getElem?.mp hm2
  refine ⟨gs, h1, g, i, j, e1, hi, hj, res, m, k1, e2, ?_, ?_⟩
  · obtain ⟨p, gp, k, dat, hp, hp1, -, hgp, hk, hdat, h7⟩ := e4 j _ hj (by decide) (by decide)
    have hp0 : p = 0 := by omega
    subst hp0
    simp only [hgp, Option.elim_some, List.getElem?_map, hk, Option.map_some, Option.some.injEq] at hdat
    rw [h7, ← hdat]
    rfl
  · have := e5 i _ hi (by decide)
    rw [this, e1]
    rfl

end P4est
