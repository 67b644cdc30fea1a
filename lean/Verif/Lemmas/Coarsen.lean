import Verif.Model.Coarsen
import Verif.Lemmas.Refine

/-! # The coarsening loop as an operation on lists -/

namespace P4est
open Spec

variable {d : ℕ} {α σ : Type}

theorem two_le_pow (hd : 0 < d) : 2 ≤ 2 ^ d := by
  calc 2 = 2 ^ 1 := rfl
    _ ≤ 2 ^ d := Nat.pow_le_pow_right (by norm_num) hd

/-- The leaf that replaces a family and the user state afterwards. -/
def newParent (cb : CoarsenCb d α σ) (fam : List (Leaf d α)) (q : Quad d) (s : σ) : Leaf d α × σ :=
  match cb.replace with
  | none => (⟨q, (cb.init q s).1⟩, (cb.init q s).2)
  | some f => (⟨q, (f fam [⟨q, (cb.init q s).1⟩] (cb.init q s).2).1 0⟩,
      (f fam [⟨q, (cb.init q s).1⟩] (cb.init q s).2).2)

theorem makeParent_eq (cb : CoarsenCb d α σ) (fam : List (Leaf d α)) (q : Quad d) (s : σ) :
    makeParent cb fam q s = ([(newParent cb fam q s).1], (newParent cb fam q s).2) := by
  unfold makeParent newParent callReplace
  cases cb.replace <;> simp

@[simp] theorem newParent_q (cb : CoarsenCb d α σ) (fam : List (Leaf d α)) (q : Quad d) (s : σ) :
    (newParent cb fam q s).1.q = q := by
  unfold newParent; cases cb.replace <;> rfl

/-- The window starting at `w`. -/
def win (d : ℕ) (L : List (Leaf d α)) (w : ℕ) : List (Leaf d α) := (L.drop w).take (2 ^ d)

/-- The child ids in the window are 0, 1, ..., 2^d-1. -/
def IdsOk (fam : List (Leaf d α)) : Prop := fam.map (fun x => childId x.q) = List.range (2 ^ d)

instance (fam : List (Leaf d α)) : Decidable (IdsOk fam) := by unfold IdsOk; infer_instance

/-- The result of one turn on the list of leaves: the new list, the new window position
and the new user state. -/
def listTurn (cb : CoarsenCb d α σ) (recursive orphans : Bool) (L : List (Leaf d α)) (w : ℕ)
    (s : σ) : List (Leaf d α) × ℕ × σ :=
  if IdsOk (win d L w) then
    if (cb.coarsen (win d L w) s).1 then
      match L[w]? with
      | none => (L, w, s)
      | some c0 =>
        let p := newParent cb (win d L w) (parent c0.q) (cb.coarsen (win d L w) s).2
        (L.take w ++ p.1 :: L.drop (w + 2 ^ d),
          if childId p.1.q ≤ w ∧ recursive = true then w - childId p.1.q else w + 1, p.2)
    else (L, w + 1, (cb.coarsen (win d L w) s).2)
  else
    match L[w]? with
    | none => (L, w + 1, s)
    | some c0 => (L, w + 1, if orphans then (cb.coarsen [c0] s).2 else s)

/-- Logical and physical contents agree. -/
structure CInv (incount : ℕ) (st : CState d α σ) (L : List (Leaf d α)) : Prop where
  arrCount : st.arr.count = incount
  len : L.length + st.length = incount
  entry : ∀ i, i < L.length → L[i]? = some (st.arr.get (if i < st.start then i else i + st.length))
  ahead : st.window < st.start ∨ st.window = L.length
  near : st.start ≤ st.window + 2 ^ d
  inside : st.window ≤ L.length
  startLe : st.start ≤ L.length ∨ L.length ≤ st.window + 1

theorem gather_eq {incount : ℕ} {st : CState d α σ} {L : List (Leaf d α)} (h : CInv incount st L)
    (hw : st.window + 2 ^ d ≤ L.length) : ∀ (n zz : ℕ) (acc : List (Leaf d α)), zz + n = 2 ^ d →
    gather st n zz acc =
      if ((L.drop (st.window + zz)).take n).map (fun x => childId x.q) = List.range' zz n then
        some (some (acc ++ (L.drop (st.window + zz)).take n)) else some none := by
  intro n
  induction n with
  | zero => intro zz acc _; simp [gather]
  | succ n ih =>
    intro zz acc hzz
    have hi : st.window + zz < L.length := by omega
    have he := h.entry _ hi
    have hlen := h.len
    have hpos : st.pos zz = if st.window + zz < st.start then st.window + zz
        else st.window + zz + st.length := by
      unfold CState.pos; split <;> omega
    have hidx : st.arr.index (st.pos zz) = some (L[st.window + zz]'hi) := by
      rw [List.getElem?_eq_getElem hi, Option.some.injEq] at he
      rw [LArr.index, h.arrCount, if_pos, hpos, he]
      rw [hpos]; split <;> omega
    rw [gather, hidx]
    simp only [Option.bind_eq_bind, Option.bind_some]
    have hdrop : L.drop (st.window + zz) = L[st.window + zz] :: L.drop (st.window + (zz + 1)) := by
      rw [List.drop_eq_getElem_cons hi]; rfl
    rw [hdrop, List.take_succ_cons, List.map_cons, List.range'_succ]
    by_cases hc : zz = childId (L[st.window + zz]).q
    · rw [if_neg (by simpa using hc), ih (zz + 1) _ (by omega)]
      have : (childId (L[st.window + zz]).q :: List.map (fun x => childId x.q)
          (List.take n (List.drop (st.window + (zz + 1)) L)) = zz :: List.range' (zz + 1) n) ↔
          List.map (fun x => childId x.q) (List.take n (List.drop (st.window + (zz + 1)) L)) =
            List.range' (zz + 1) n := by
        rw [List.cons.injEq]; exact ⟨fun h => h.2, fun h => ⟨hc.symm, h⟩⟩
      by_cases hm : List.map (fun x => childId x.q) (List.take n (List.drop (st.window + (zz + 1)) L)) =
            List.range' (zz + 1) n
      · rw [if_pos hm, if_pos (this.mpr hm), List.append_assoc, List.singleton_append]
      · rw [if_neg hm, if_neg (fun h => hm (this.mp h))]
    · rw [if_pos hc, if_neg]
      rw [List.cons.injEq]; exact fun h => hc h.1.symm

/-- Moving the window keeps the invariant. -/
theorem advance_inv (hd : 0 < d) {incount : ℕ} {st : CState d α σ} {L : List (Leaf d α)} (h : CInv incount st L)
    (hw : st.window < L.length) :
    ∃ st', advance incount st = some st' ∧ CInv incount st' L ∧ st'.window = st.window + 1 ∧
      st'.s = st.s ∧ st'.perLevel = st.perLevel ∧ st'.removed = st.removed := by
  have hlen := h.len
  have hcount := h.arrCount
  have hD := two_le_pow hd
  have hws : st.window < st.start := by rcases h.ahead with h' | h' <;> omega
  have hnear := h.near
  unfold advance
  by_cases hc : st.window + 1 = st.start ∧ st.start + st.length < incount
  · simp only [if_pos hc]
    by_cases hl : 0 < st.length
    · rw [if_pos hl, LArr.index, if_pos (by omega), Option.bind_eq_bind, Option.bind_some, LArr.write,
        if_pos (by omega), Option.bind_eq_bind, Option.bind_some]
      refine ⟨_, rfl, ⟨hcount, hlen, ?_, ?_, ?_, ?_, ?_⟩, rfl, rfl, rfl, rfl⟩
      · intro i hi
        rw [h.entry i hi]
        simp only
        congr 1
        by_cases h1 : i < st.start
        · rw [if_pos h1, if_pos (by omega), Function.update_of_ne (by omega)]
        · rw [if_neg h1]
          by_cases h2 : i = st.start
          · subst h2
            rw [if_pos (by omega), Function.update_self]
          · rw [if_neg (by omega), Function.update_of_ne (by omega)]
      · simp only; omega
      · simp only; omega
      · simp only; omega
      · simp only; omega
    · rw [if_neg hl]
      simp only [Option.bind_eq_bind, Option.bind_some]
      refine ⟨_, rfl, ⟨hcount, hlen, ?_, ?_, ?_, ?_, ?_⟩, rfl, rfl, rfl, rfl⟩
      · intro i hi
        rw [h.entry i hi]
        have : st.length = 0 := by omega
        simp [this]
      · simp only; omega
      · simp only; omega
      · simp only; omega
      · simp only; omega
  · rw [if_neg hc]
    have hst := h.startLe
    refine ⟨_, rfl, ⟨hcount, hlen, h.entry, ?_, ?_, ?_, ?_⟩, rfl, rfl, rfl, rfl⟩
    · simp only; omega
    · simp only; omega
    · simp only; omega
    · simp only; omega

theorem win_length {L : List (Leaf d α)} {w : ℕ} (h : w + 2 ^ d ≤ L.length) :
    (win d L w).length = 2 ^ d := by
  unfold win; simp; omega

/-- The counters after a turn, given the old list: only a coarsening changes them. -/
def turnLevels (cb : CoarsenCb d α σ) (L : List (Leaf d α)) (w : ℕ) (s : σ) (per : ℕ → ℤ) : ℕ → ℤ :=
  if IdsOk (win d L w) ∧ (cb.coarsen (win d L w) s).1 = true then
    match L[w]? with
    | none => per
    | some c0 => bump (bump per c0.q.level (-2 ^ d)) (parent c0.q).level 1
  else per

/-- One turn of the array loop is one turn on the list. -/
theorem coarsenLoop_turn (hd : 0 < d) (cb : CoarsenCb d α σ) (recursive orphans : Bool) (incount : ℕ)
    {st : CState d α σ} {L : List (Leaf d α)} (h : CInv incount st L)
    (hw : st.window + 2 ^ d ≤ L.length) (hrem : L.length + st.removed = incount) :
    ∃ st', coarsenLoop cb recursive orphans incount st = coarsenLoop cb recursive orphans incount st' ∧
      CInv incount st' (listTurn cb recursive orphans L st.window st.s).1 ∧
      st'.window = (listTurn cb recursive orphans L st.window st.s).2.1 ∧
      st'.s = (listTurn cb recursive orphans L st.window st.s).2.2 ∧
      st'.perLevel = turnLevels cb L st.window st.s st.perLevel ∧
      (listTurn cb recursive orphans L st.window st.s).1.length + st'.removed = incount := by
  have hlen := h.len
  have hcount := h.arrCount
  have hD := two_le_pow hd
  have hws : st.window < st.start := by rcases h.ahead with h' | h' <;> omega
  have hnear := h.near
  have hwl : st.window < L.length := by omega
  have hpos0 : st.pos 0 = st.window := by unfold CState.pos; simp [hws]
  have hidx0 : st.arr.index (st.pos 0) = some L[st.window] := by
    have he := h.entry _ hwl
    rw [if_pos hws, List.getElem?_eq_getElem hwl, Option.some.injEq] at he
    rw [hpos0, LArr.index, hcount, if_pos (by omega), he]
  have hLw : L[st.window]? = some L[st.window] := List.getElem?_eq_getElem hwl
  have hg := gather_eq h hw (2 ^ d) 0 [] (by omega)
  rw [Nat.add_zero, List.nil_append] at hg
  rw [← List.range_eq_range'] at hg
  have hg' : gather st (2 ^ d) 0 [] =
      if IdsOk (win d L st.window) then some (some (win d L st.window)) else some none := by
    rw [hg]; congr
  rw [coarsenLoop, if_pos (by omega)]
  unfold coarsenTurn listTurn turnLevels
  rw [hg']
  by_cases hids : IdsOk (win d L st.window)
  · rw [if_pos hids, if_pos hids]
    simp only [Option.bind_eq_bind, Option.bind_some]
    by_cases hask : (cb.coarsen (win d L st.window) st.s).1 = true
    · rw [if_pos hask, if_pos hask, if_pos ⟨hids, hask⟩, hidx0, hLw]
      simp only [Option.bind_some, makeParent_eq, List.head?_cons]
      rw [hpos0, LArr.write, if_pos (by omega)]
      simp only [Option.bind_some, newParent_q]
      set p := newParent cb (win d L st.window) (parent L[st.window].q) (cb.coarsen (win d L st.window) st.s).2 with hp
      set st1 : CState d α σ := ⟨⟨Function.update st.arr.get st.window p.1, st.arr.count⟩, st.window,
        st.window + 1, st.length + 2 ^ d - 1,
        bump (bump st.perLevel L[st.window].q.level (-2 ^ d)) (parent L[st.window].q).level 1,
        st.removed + 2 ^ d - 1, p.2⟩ with hst1
      set L' := L.take st.window ++ p.1 :: L.drop (st.window + 2 ^ d) with hL'
      have hL'len : L'.length = L.length + 1 - 2 ^ d := by
        rw [hL']; simp; omega
      have hentry : ∀ i, i < L'.length → L'[i]? =
          some (st1.arr.get (if i < st1.start then i else i + st1.length)) := by
        intro i hi
        simp only [hst1]
        rw [hL', List.getElem?_append]
        have htl : (L.take st.window).length = st.window := by simp; omega
        rw [htl]
        by_cases h1 : i < st.window
        · rw [if_pos h1, if_pos (by omega), Function.update_of_ne (by omega), List.getElem?_take_of_lt h1,
            h.entry i (by omega), if_pos (by omega)]
        · rw [if_neg h1]
          by_cases h2 : i = st.window
          · subst h2; simp
          · rw [if_neg (by omega), Function.update_of_ne (by omega)]
            obtain ⟨k, hk⟩ : ∃ k, i = st.window + 1 + k := ⟨i - (st.window + 1), by omega⟩
            subst hk
            rw [show st.window + 1 + k - st.window = k + 1 by omega, List.getElem?_cons_succ,
              List.getElem?_drop, h.entry _ (by omega), if_neg (by omega)]
            congr 2; omega
      have hinv1 : ∀ w, w ≤ st.window → st.window + 1 ≤ w + 2 ^ d → CInv incount { st1 with window := w } L' := by
        intro w hw1 hw2
        refine ⟨hcount, ?_, hentry, ?_, ?_, ?_, ?_⟩ <;> simp only [hst1] <;> omega
      by_cases hr : childId (parent L[st.window].q) ≤ st.window ∧ recursive = true
      · rw [if_pos hr, if_pos hr]
        have hcid := childId_lt (parent L[st.window].q)
        refine ⟨_, rfl, hinv1 _ (by omega) (by omega), rfl, rfl, rfl, ?_⟩
        rw [hL'len]; simp only [hst1]; omega
      · rw [if_neg hr, if_neg hr]
        obtain ⟨st2, e2, h2, hw2, hs2, hl2, hr2⟩ := advance_inv hd (hinv1 st.window le_rfl (by omega))
          (by simp only; omega)
        have e2' : advance incount st1 = some st2 := e2
        rw [e2']
        simp only [Option.bind_some]
        refine ⟨st2, rfl, h2, hw2, hs2, hl2, ?_⟩
        rw [hr2, hL'len]; simp only [hst1]; omega
    · rw [if_neg hask, if_neg hask, if_neg (fun h => hask h.2), Option.bind_some]
      rw [if_neg (by simp only; omega)]
      have hinv1 : CInv incount { st with s := (cb.coarsen (win d L st.window) st.s).2 } L :=
        ⟨h.arrCount, h.len, h.entry, h.ahead, h.near, h.inside, h.startLe⟩
      obtain ⟨st2, e2, h2, hw2, hs2, hl2, hr2⟩ := advance_inv hd hinv1 hwl
      rw [e2]
      simp only [Option.bind_some]
      refine ⟨st2, rfl, h2, hw2, hs2, hl2, ?_⟩
      rw [hr2]; exact hrem
  · rw [if_neg hids, if_neg hids,
      if_neg (show ¬ (IdsOk (win d L st.window) ∧ _) from fun h => hids h.1), hLw]
    simp only [Option.bind_eq_bind, Option.bind_some]
    have hinv1 : ∀ s : σ, CInv incount { st with s := s } L := fun s =>
      ⟨h.arrCount, h.len, h.entry, h.ahead, h.near, h.inside, h.startLe⟩
    cases orphans with
    | true =>
      simp only [if_true, hidx0, Option.bind_some]
      rw [if_neg (by omega)]
      obtain ⟨st2, e2, h2, hw2, hs2, hl2, hr2⟩ := advance_inv hd (hinv1 (cb.coarsen [L[st.window]] st.s).2) hwl
      rw [e2]
      simp only [Option.bind_some]
      refine ⟨st2, rfl, h2, hw2, hs2, hl2, ?_⟩
      rw [hr2]; exact hrem
    | false =>
      simp only [Bool.false_eq_true, if_false, Option.bind_some]
      rw [if_neg (by omega)]
      obtain ⟨st2, e2, h2, hw2, hs2, hl2, hr2⟩ := advance_inv hd h hwl
      rw [e2]
      simp only [Option.bind_some]
      refine ⟨st2, rfl, h2, hw2, hs2, hl2, ?_⟩
      rw [hr2]; exact hrem


/-- The array loop terminates without an access out of bounds, and every predicate kept by the
turns on the list holds at the end. -/
theorem coarsenLoop_run (hd : 0 < d) (cb : CoarsenCb d α σ) (recursive orphans : Bool) (incount : ℕ)
    (P : List (Leaf d α) → ℕ → σ → (ℕ → ℤ) → Prop)
    (hP : ∀ L w s per, w + 2 ^ d ≤ L.length → P L w s per →
      P (listTurn cb recursive orphans L w s).1 (listTurn cb recursive orphans L w s).2.1
        (listTurn cb recursive orphans L w s).2.2 (turnLevels cb L w s per))
    (st : CState d α σ) (L : List (Leaf d α)) (h : CInv incount st L)
    (hrem : L.length + st.removed = incount) (h0 : P L st.window st.s st.perLevel) :
    ∃ st' L', coarsenLoop cb recursive orphans incount st = some st' ∧ CInv incount st' L' ∧
      L'.length + st'.removed = incount ∧ P L' st'.window st'.s st'.perLevel ∧
      ¬ st'.window + 2 ^ d ≤ L'.length := by
  induction hn : L.length using Nat.strong_induction_on generalizing st L with
  | _ n ih =>
  induction hm : L.length - st.window using Nat.strong_induction_on generalizing st L with
  | _ m ih2 =>
  have hlen := h.len
  by_cases hw : st.window + 2 ^ d ≤ L.length
  · obtain ⟨st', he, h', hw', hs', hp', hr'⟩ := coarsenLoop_turn hd cb recursive orphans incount h hw hrem
    have hP' := hP L st.window st.s st.perLevel hw h0
    rw [← hw', ← hs', ← hp'] at hP'
    have hD := two_le_pow hd
    rw [he]
    have hcase : (listTurn cb recursive orphans L st.window st.s).1.length < L.length ∨
        ((listTurn cb recursive orphans L st.window st.s).1 = L ∧
          (listTurn cb recursive orphans L st.window st.s).2.1 = st.window + 1) := by
      have hLw : L[st.window]? = some L[st.window] := List.getElem?_eq_getElem (by omega)
      unfold listTurn
      rw [hLw]
      split
      · split
        · left; simp; omega
        · right; exact ⟨rfl, rfl⟩
      · right; exact ⟨rfl, rfl⟩
    rcases hcase with hc | ⟨hc1, hc2⟩
    · exact ih _ (by omega) st' _ h' hr' hP' rfl
    · rw [hc1] at h' hr' hP'
      exact ih2 (L.length - st'.window) (by omega) st' L h' hr' hP' hn rfl
  · rw [coarsenLoop, if_neg (by omega)]
    exact ⟨st, L, rfl, h, hrem, h0, hw⟩

theorem closeHole_eq (length : ℕ) (hl : 0 < length) : ∀ (n zz : ℕ) (a : LArr d α), length ≤ zz →
    (n ≠ 0 → zz + n ≤ a.count) →
    ∃ a', closeHole length n zz a = some a' ∧ a'.count = a.count ∧
      ∀ i, a'.get i = if zz - length ≤ i ∧ i < zz - length + n then a.get (i + length) else a.get i := by
  intro n
  induction n with
  | zero =>
    intro zz a _ _
    refine ⟨a, rfl, rfl, fun i => ?_⟩
    rw [if_neg (by omega)]
  | succ n ih =>
    intro zz a hz hb
    have := hb (by omega)
    rw [closeHole, LArr.index, if_pos (by omega)]
    simp only [Option.bind_eq_bind, Option.bind_some]
    rw [LArr.write, if_pos (by omega)]
    simp only [Option.bind_some]
    obtain ⟨a', e, hc, hg⟩ := ih (zz + 1) ⟨Function.update a.get (zz - length) (a.get zz), a.count⟩ (by omega)
      (fun _ => by simp only; omega)
    refine ⟨a', e, hc, fun i => ?_⟩
    rw [hg]
    simp only
    by_cases h1 : i = zz - length
    · subst h1
      rw [if_neg (by omega), if_pos (by omega), Function.update_self, Nat.sub_add_cancel hz]
    · by_cases h2 : zz + 1 - length ≤ i ∧ i < zz + 1 - length + n
      · rw [if_pos h2, if_pos (by omega), Function.update_of_ne (by omega)]
      · rw [if_neg h2, if_neg (by omega), Function.update_of_ne h1]

theorem toList_eq_of {a : LArr d α} {L : List (Leaf d α)} (hc : a.count = L.length)
    (hg : ∀ i, i < L.length → L[i]? = some (a.get i)) : a.toList = L := by
  unfold LArr.toList
  rw [hc]
  refine List.ext_getElem (by simp) fun i h1 h2 => ?_
  have := hg i h2
  rw [List.getElem?_eq_getElem h2, Option.some.injEq] at this
  simp [this]

/-- Calls of the callback with single leaves. -/
def orphanRun (cb : CoarsenCb d α σ) (ls : List (Leaf d α)) (s : σ) : σ :=
  ls.foldl (fun s x => (cb.coarsen [x] s).2) s

theorem callOrphans_eq (cb : CoarsenCb d α σ) {a : LArr d α} {L : List (Leaf d α)}
    (hc : a.count = L.length) (hg : ∀ i, i < L.length → L[i]? = some (a.get i)) :
    ∀ (n zz : ℕ) (s : σ), zz + n = L.length →
      callOrphans cb a n zz s = some (orphanRun cb (L.drop zz) s) := by
  intro n
  induction n with
  | zero =>
    intro zz s h
    rw [callOrphans, List.drop_of_length_le (by omega)]; rfl
  | succ n ih =>
    intro zz s h
    have hz : zz < L.length := by omega
    have := hg zz hz
    rw [List.getElem?_eq_getElem hz, Option.some.injEq] at this
    rw [callOrphans, LArr.index, if_pos (by omega), Option.bind_eq_bind, Option.bind_some, ih _ _ (by omega), ← this,
      List.drop_eq_getElem_cons hz]
    rfl

/-- The state after the loop, as far as the rest of the program and the user can see it. -/
theorem coarsenTree_eq (hd : 0 < d) (cb : CoarsenCb d α σ) (recursive orphans : Bool) (t : Tree d α)
    (prevOffset : ℤ) (s : σ)
    (P : List (Leaf d α) → ℕ → σ → (ℕ → ℤ) → Prop)
    (hP : ∀ L w s per, w + 2 ^ d ≤ L.length → P L w s per →
      P (listTurn cb recursive orphans L w s).1 (listTurn cb recursive orphans L w s).2.1
        (listTurn cb recursive orphans L w s).2.2 (turnLevels cb L w s per))
    (h0 : P t.quads.toList 0 s t.perLevel) :
    ∃ arr w per rem s', coarsenTree cb recursive orphans t prevOffset s =
        some (⟨arr, per, maxFromCounters per, prevOffset⟩, rem, prevOffset + sumCounters per,
          if orphans then orphanRun cb (arr.toList.drop w) s' else s') ∧
      P arr.toList w s' per ∧ w ≤ arr.toList.length ∧ ¬ w + 2 ^ d ≤ arr.toList.length ∧
      arr.toList.length + rem = t.quads.toList.length := by
  have hD := two_le_pow hd
  have hinv : CInv t.quads.count (⟨t.quads, 0, 1, 0, t.perLevel, 0, s⟩ : CState d α σ) t.quads.toList := by
    refine ⟨rfl, by simp [LArr.toList], ?_, by simp only; omega, by simp only; omega, by simp, ?_⟩
    · intro i hi
      rw [LArr.toList_length] at hi
      simp [LArr.toList, hi]
    · simp only; omega
  obtain ⟨st, L, he, hi, hr, hPL, hlast⟩ := coarsenLoop_run hd cb recursive orphans _ P hP _ _ hinv
    (by simp [LArr.toList]) h0
  have hlen := hi.len
  have hcount := hi.arrCount
  unfold coarsenTree
  simp only []
  rw [he]
  simp only [Option.bind_eq_bind, Option.bind_some]
  have key : ∃ arr : LArr d α, compact t.quads.count st = some arr ∧
      arr.count = L.length ∧ ∀ i, i < L.length → L[i]? = some (arr.get i) := by
    unfold compact
    by_cases hl : 0 < st.length
    · rw [if_pos hl]
      obtain ⟨a, e, hc, hg⟩ := closeHole_eq st.length hl (t.quads.count - (st.start + st.length))
        (st.start + st.length) st.arr (by omega) (by omega)
      rw [e, Option.bind_eq_bind, Option.bind_some]
      refine ⟨_, rfl, by simp only [LArr.resize]; omega, fun i hi' => ?_⟩
      rw [hi.entry i hi']
      simp only [LArr.resize]
      rw [hg]
      congr 1
      by_cases h1 : i < st.start
      · rw [if_pos h1, if_neg (by omega)]
      · rw [if_neg h1, if_pos (by omega)]
    · rw [if_neg hl]
      refine ⟨_, rfl, by omega, fun i hi' => ?_⟩
      rw [hi.entry i hi']
      have : st.length = 0 := by omega
      simp [this]
  obtain ⟨arr, ea, hc, hg⟩ := key
  rw [ea, Option.bind_some]
  have hL := toList_eq_of hc hg
  have hin := hi.inside
  refine ⟨arr, st.window, st.perLevel, st.removed, st.s, ?_, by rw [hL]; exact hPL, by rw [hL]; exact hin,
    by rw [hL]; exact hlast, by rw [hL, LArr.toList_length]; exact hr⟩
  unfold tailOrphans
  cases orphans with
  | false => simp
  | true =>
    simp only [if_true]
    rw [callOrphans_eq cb hc hg _ _ _ (by omega), hL]
    rfl

end P4est
