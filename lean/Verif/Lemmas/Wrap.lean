import Verif.Model.Wrap
import Verif.Lemmas.CoarsenOnce

/-! # Lemmas on adaptation with flags -/

namespace P4est
open Spec

variable {d : ℕ}

/-- The leaf is refined: it has the flag and is not on the finest level. -/
def wrapSplits (m : Quad d → WrapFlag) (q : Quad d) : Bool := (m q).refine && decide (q.level < 29)

/-- The temporary flags written for a leaf. -/
def wrapTemp (m : Quad d → WrapFlag) (q : Quad d) : List WrapFlag :=
  if wrapSplits m q then List.replicate (2 ^ d) WrapFlag.zero else [{ m q with refine := false }]

/-- The new leaves for a leaf. -/
def wrapKids (m : Quad d → WrapFlag) (q : Quad d) : List (Quad d) :=
  if wrapSplits m q then childrenv q else [q]

theorem wrapFill_eq (flag : WrapFlag) (c : ℕ) : ∀ (n k : ℕ) (P Z : List WrapFlag), P.length = c + k → n ≤ Z.length →
    wrapFill flag (P ++ Z) c k n = some (P ++ List.replicate n flag ++ Z.drop n) := by
  intro n
  induction n with
  | zero => intro k P Z _ _; simp [wrapFill]
  | succ n ih =>
    intro k P Z hP hZ
    cases Z with
    | nil => simp at hZ
    | cons z Z =>
      rw [wrapFill, if_pos (by simp; omega)]
      have : (P ++ z :: Z).set (c + k) flag = (P ++ [flag]) ++ Z := by
        rw [List.set_append_right _ _ (by omega), hP]; simp
      rw [this, ih (k + 1) (P ++ [flag]) Z (by simp; omega) (by simpa using hZ)]
      simp [List.replicate_succ]

theorem wrapRefineFn_eq {st : WrapSt} {A R T Z : List WrapFlag} {f z : WrapFlag} (hA : A.length = st.inside)
    (hf : st.flags = A ++ f :: R) (ht : st.temp = T ++ z :: Z) (hT : T.length = st.inside + (2 ^ d - 1) * st.replaced)
    (hr : (st.replaced : ℤ) ≤ st.numRefine) :
    wrapRefineFn d (some st) = (f.refine, some ⟨A ++ WrapFlag.zero :: R, T ++ { f with refine := false } :: Z, st.inside + 1,
      st.replaced, st.numRefine⟩) := by
  unfold wrapRefineFn
  simp only [hf]
  rw [List.getElem?_append_right (by omega), show st.inside - A.length = 0 by omega]
  simp only [List.getElem?_cons_zero]
  rw [if_pos hr, if_pos (by rw [ht]; simp; omega), ht, ← hT, List.set_append_right _ _ (by omega),
    List.set_append_right _ _ (by omega)]
  simp [hA]

theorem initAll_wrap (s : Option WrapSt) : ∀ qs : List (Quad d), (initAll (wrapRefineCb d).init qs s).2 = s := by
  intro qs
  induction qs with
  | nil => rfl
  | cons q qs ih => simpa [initAll, wrapRefineCb] using ih

theorem makeChildren_wrap (x : Leaf d Unit) (s : Option WrapSt) :
    (makeChildren (wrapRefineCb d) x s).2 = wrapReplaceRefine d 1 (2 ^ d) s := by
  have h1 := initAll_wrap s (childrenv x.q)
  have h2 : (initAll (wrapRefineCb d).init (childrenv x.q) s).1.length = 2 ^ d := by
    have := congrArg List.length (initAll_length (wrapRefineCb d).init (childrenv x.q) s)
    simpa [childrenv] using this
  unfold makeChildren callReplace
  change wrapReplaceRefine d 1 (initAll (wrapRefineCb d).init (childrenv x.q) s).1.length
    (initAll (wrapRefineCb d).init (childrenv x.q) s).2 = _
  rw [h1, h2]

theorem wrapReplaceRefine_eq {st : WrapSt} {T Z : List WrapFlag}
    (ht : st.temp = T ++ WrapFlag.zero :: Z) (hT : T.length = st.inside - 1 + (2 ^ d - 1) * st.replaced)
    (hZ : 2 ^ d - 1 ≤ Z.length) :
    wrapReplaceRefine d 1 (2 ^ d) (some st) = some { st with
      temp := T ++ List.replicate (2 ^ d) WrapFlag.zero ++ Z.drop (2 ^ d - 1), replaced := st.replaced + 1 } := by
  have hD : 0 < 2 ^ d := by positivity
  unfold wrapReplaceRefine
  simp only [ht]
  rw [← hT, List.getElem?_append_right (le_refl _)]
  simp only [Nat.sub_self, List.getElem?_cons_zero, Option.bind_eq_bind, Option.bind_some]
  rw [if_pos ⟨trivial, trivial, rfl, rfl⟩]
  have := wrapFill_eq WrapFlag.zero T.length (2 ^ d - 1) 1 (T ++ [WrapFlag.zero]) Z (by simp) hZ
  rw [List.append_assoc, List.singleton_append] at this
  rw [this]
  have e : List.replicate (2 ^ d) WrapFlag.zero = [WrapFlag.zero] ++ List.replicate (2 ^ d - 1) WrapFlag.zero := by
    rw [← List.replicate_one, List.replicate_append_replicate]
    congr 1; omega
  simp [e]

/-- Refinement of a list of leaves with the callbacks of the wrap. -/
theorem wrap_refine_list (m : Quad d → WrapFlag) (hm : ∀ q, (m q).refine = true → (m q).coarsen = false) :
    ∀ (ls : List (Leaf d Unit)) (st : WrapSt) (A R T Z : List WrapFlag),
      A.length = st.inside → st.flags = A ++ ls.map (fun x => m x.q) ++ R → st.temp = T ++ Z →
      T.length = st.inside + (2 ^ d - 1) * st.replaced →
      ls.length + (2 ^ d - 1) * (ls.countP fun x => (m x.q).refine) ≤ Z.length →
      ((st.replaced + ls.countP fun x => (m x.q).refine : ℕ) : ℤ) ≤ st.numRefine →
      ∃ st' Z', (runAll (leafResult (wrapRefineCb d) false 29) ls (some st)).2 = some st' ∧
        (runAll (leafResult (wrapRefineCb d) false 29) ls (some st)).1.map Leaf.q = ls.flatMap (fun x => wrapKids m x.q) ∧
        st'.inside = st.inside + ls.length ∧
        st'.flags = A ++ List.replicate ls.length WrapFlag.zero ++ R ∧
        st'.temp = T ++ ls.flatMap (fun x => wrapTemp m x.q) ++ Z' ∧
        st'.replaced = st.replaced + (ls.countP fun x => wrapSplits m x.q) ∧
        st'.numRefine = st.numRefine ∧
        Z.length ≤ Z'.length + ls.length + (2 ^ d - 1) * (ls.countP fun x => (m x.q).refine) := by
  have hD : 0 < 2 ^ d := by positivity
  intro ls
  induction ls with
  | nil =>
    intro st A R T Z hA hf ht hT hZ hr
    exact ⟨st, Z, rfl, rfl, by simp, by simpa using hf, by simpa using ht, by simp, rfl, by simp⟩
  | cons x xs ih =>
    intro st A R T Z hA hf ht hT hZ hr
    obtain ⟨z, Z, rfl⟩ : ∃ z Z', Z = z :: Z' := by
      cases Z with
      | nil => simp at hZ
      | cons z Z => exact ⟨z, Z, rfl⟩
    have hr' : (st.replaced : ℤ) ≤ st.numRefine := by push_cast at hr; omega
    have hfn := wrapRefineFn_eq (d := d) (f := m x.q) (z := z) (R := xs.map (fun x => m x.q) ++ R) hA (by rw [hf]; simp) ht hT hr'
    have hcall : (wrapRefineCb d).refine x (some st) = wrapRefineFn d (some st) := rfl
    simp only [List.length_cons, List.countP_cons] at hZ hr
    by_cases hs : wrapSplits m x.q = true
    · have hs' := hs
      unfold wrapSplits at hs'
      have hask : ((wrapRefineCb d).refine x (some st)).1 = (m x.q).refine := by rw [hcall, hfn]
      have hst := congrArg Prod.snd (hcall.trans hfn)
      dsimp only at hst
      have hrx : (m x.q).refine = true := by simp at hs'; exact hs'.1
      have hcx := hm _ hrx
      have hzero : ({ m x.q with refine := false } : WrapFlag) = WrapFlag.zero := by
        simp [WrapFlag.zero, hcx]
      rw [hzero] at hst
      rw [hrx, if_pos rfl] at hZ hr
      have hrep := wrapReplaceRefine_eq (d := d) (st := ⟨A ++ WrapFlag.zero :: (xs.map (fun x => m x.q) ++ R),
        T ++ WrapFlag.zero :: Z, st.inside + 1, st.replaced, st.numRefine⟩) (T := T) (Z := Z) rfl (by simpa using hT)
        (by
          have : (2 ^ d - 1) * (List.countP (fun x => (m x.q).refine) xs + 1) =
            (2 ^ d - 1) * (List.countP (fun x => (m x.q).refine) xs) + (2 ^ d - 1) := by ring
          omega)
      obtain ⟨st', Z', h1, h2, h3, h4, h5, h6, h7, h8⟩ := ih ⟨A ++ WrapFlag.zero :: (xs.map (fun x => m x.q) ++ R),
        T ++ List.replicate (2 ^ d) WrapFlag.zero ++ Z.drop (2 ^ d - 1), st.inside + 1, st.replaced + 1, st.numRefine⟩
        (A ++ [WrapFlag.zero]) R (T ++ List.replicate (2 ^ d) WrapFlag.zero) (Z.drop (2 ^ d - 1)) (by simp [hA])
        (by simp) rfl (by
          have : (2 ^ d - 1) * (st.replaced + 1) = (2 ^ d - 1) * st.replaced + (2 ^ d - 1) := by ring
          simp only [List.length_append, List.length_replicate]
          omega)
        (by
          have : (2 ^ d - 1) * (List.countP (fun x => (m x.q).refine) xs + 1) =
            (2 ^ d - 1) * (List.countP (fun x => (m x.q).refine) xs) + (2 ^ d - 1) := by ring
          simp only [List.length_drop] at hZ ⊢
          omega)
        (by dsimp only; push_cast at hr ⊢; omega)
      have hleaf : leafResult (wrapRefineCb d) false 29 x (some st) =
          ((makeChildren (wrapRefineCb d) x ((wrapRefineCb d).refine x (some st)).2).1, some ⟨A ++ WrapFlag.zero :: (xs.map (fun x => m x.q) ++ R),
        T ++ List.replicate (2 ^ d) WrapFlag.zero ++ Z.drop (2 ^ d - 1), st.inside + 1, st.replaced + 1, st.numRefine⟩) := by
        rw [leafResult_yes (by rw [hask]; exact hs'), runAll_map]
        have : (fun (y : Leaf d Unit) => itemResult (wrapRefineCb d) false (29 - y.q.level) (y, true)) = fun y s => ([y], s) := by
          funext y s; simp [itemResult]
        rw [this, runAll_single, makeChildren_wrap, hst, hrep]
      refine ⟨st', Z', ?_, ?_, ?_, ?_, ?_, ?_, h7, ?_⟩
      · simp only [runAll, hleaf]; exact h1
      · simp only [runAll, hleaf, List.map_append, List.flatMap_cons, makeChildren_quads]
        rw [h2, wrapKids, if_pos hs]
      · rw [h3]; simp; omega
      · rw [h4]; simp [List.replicate_succ]
      · rw [h5]; simp [wrapTemp, hs]
      · rw [h6]; simp [hs]; omega
      · simp only [List.countP_cons, hrx, if_true, List.length_cons, List.length_drop] at h8 ⊢
        have : (2 ^ d - 1) * (List.countP (fun x => (m x.q).refine) xs + 1) =
            (2 ^ d - 1) * (List.countP (fun x => (m x.q).refine) xs) + (2 ^ d - 1) := by ring
        omega
    · have hs' := Bool.eq_false_iff.mpr hs
      have hask : ((wrapRefineCb d).refine x (some st)).1 = (m x.q).refine := by rw [hcall, hfn]
      have hst := congrArg Prod.snd (hcall.trans hfn)
      dsimp only at hst
      have hcnt : List.countP (fun x => (m x.q).refine) xs ≤
        List.countP (fun x => (m x.q).refine) xs + (if (m x.q).refine = true then 1 else 0) := by omega
      have hmul := Nat.mul_le_mul_left (2 ^ d - 1) hcnt
      obtain ⟨st', Z', h1, h2, h3, h4, h5, h6, h7, h8⟩ := ih ⟨A ++ WrapFlag.zero :: (xs.map (fun x => m x.q) ++ R),
        T ++ { m x.q with refine := false } :: Z, st.inside + 1, st.replaced, st.numRefine⟩
        (A ++ [WrapFlag.zero]) R (T ++ [{ m x.q with refine := false }]) Z (by simp [hA])
        (by simp) (by simp) (by simp; omega)
        (by omega)
        (by dsimp only; push_cast at hr ⊢; split_ifs at hr <;> omega)
      have hleaf : leafResult (wrapRefineCb d) false 29 x (some st) = ([x], some ⟨A ++ WrapFlag.zero :: (xs.map (fun x => m x.q) ++ R),
        T ++ { m x.q with refine := false } :: Z, st.inside + 1, st.replaced, st.numRefine⟩) := by
        rw [leafResult_no (by rw [hask]; exact hs'), hst]
      refine ⟨st', Z', ?_, ?_, ?_, ?_, ?_, ?_, h7, ?_⟩
      · simp only [runAll, hleaf]; exact h1
      · simp only [runAll, hleaf, List.map_append, List.flatMap_cons]
        rw [h2, wrapKids, if_neg hs]; simp
      · rw [h3]; simp; omega
      · rw [h4]; simp [List.replicate_succ]
      · rw [h5]; simp [wrapTemp, hs]
      · rw [h6]; simp [hs]
      · simp only [List.countP_cons, List.length_cons] at h8 ⊢
        omega

/-! ## Coarsening -/

theorem wrapAllCoarsen_eq (temp : List WrapFlag) : ∀ (n pos : ℕ) (F Y : List WrapFlag), temp.drop pos = F ++ Y → F.length = n →
    wrapAllCoarsen temp pos n = some (F.all fun f => f.coarsen) := by
  intro n
  induction n with
  | zero => intro pos F Y _ hF; rw [List.length_eq_zero_iff.mp hF]; rfl
  | succ n ih =>
    intro pos F Y h hF
    cases F with
    | nil => simp at hF
    | cons f F =>
      have h1 : temp[pos]? = some f := by
        rw [← Nat.add_zero pos, ← List.getElem?_drop, h]; rfl
      have h2 : temp.drop (pos + 1) = F ++ Y := by
        rw [← List.drop_drop, h]; rfl
      rw [wrapAllCoarsen, h1]
      simp only [Option.bind_eq_bind, Option.bind_some, List.all_cons]
      rw [ih (pos + 1) F Y h2 (by simpa using hF)]
      cases f.coarsen <;> simp

/-- Callback that approves a family if all of its members are marked. -/
def markedCb (c : Quad d → Bool) : CoarsenCb d Unit Unit where
  coarsen := fun fam _ => (fam.all fun x => c x.q, ())
  init := fun _ s => ((), s)
  replace := none

theorem orphanRun_wrap : ∀ (L : List (Leaf d Unit)) (st : WrapSt),
    orphanRun (wrapCoarsenCb d) L (some st) = some { st with inside := st.inside + L.length } := by
  intro L
  induction L with
  | nil => intro st; rfl
  | cons x xs ih =>
    intro st
    have : ((wrapCoarsenCb d).coarsen [x] (some st)).2 = some { st with inside := st.inside + 1 } := by
      simp [wrapCoarsenCb, wrapCoarsenFn]
    rw [orphanRun, List.foldl_cons, this]
    have h := ih { st with inside := st.inside + 1 }
    rw [orphanRun] at h
    rw [h]
    simp; omega

theorem makeParent_wrap (fam : List (Leaf d Unit)) (q : Quad d) (s : Option WrapSt) :
    makeParent (wrapCoarsenCb d) fam q s = ([⟨q, ()⟩], s) := rfl

theorem makeParent_marked (c : Quad d → Bool) (fam : List (Leaf d Unit)) (q : Quad d) (s : Unit) :
    makeParent (markedCb c) fam q s = ([⟨q, ()⟩], s) := rfl

/-- Coarsening of a list of leaves with the callback of the wrap. -/
theorem wrap_coarsen_list (hd : 0 < d) (c : Quad d → Bool) (n : ℕ) :
    ∀ (L : List (Leaf d Unit)) (st : WrapSt) (T S Z : List WrapFlag), L.length ≤ n → st.temp = T ++ S ++ Z →
      T.length = st.inside → S.map WrapFlag.coarsen = L.map (fun x => c x.q) →
      ∃ k, (onceRun (wrapCoarsenCb d) true L (some st)).2 =
          some { st with inside := st.inside + L.length, replaced := st.replaced + k } ∧
        (onceRun (wrapCoarsenCb d) true L (some st)).1 = (onceRun (markedCb c) true L ()).1 ∧
        (onceRun (markedCb c) true L ()).1.length + (2 ^ d - 1) * k = L.length ∧
        (k = 0 → (onceRun (markedCb c) true L ()).1 = L) := by
  have hD : 0 < 2 ^ d := by positivity
  have hD2 : 2 ^ d ≠ 1 := by
    have := Nat.pow_le_pow_right (show 0 < 2 by omega) (show 1 ≤ d by omega)
    omega
  induction n with
  | zero =>
    intro L st T S Z hn ht hT hS
    rw [List.length_eq_zero_iff.mp (by omega : L.length = 0)]
    exact ⟨0, by simp [onceRun], by simp [onceRun], by simp [onceRun], fun _ => by simp [onceRun]⟩
  | succ n ih =>
    intro L st T S Z hn ht hT hS
    by_cases hl : L.length < 2 ^ d
    · rw [onceRun_short _ _ _ _ hl, onceRun_short _ _ _ _ hl]
      exact ⟨0, by simp [orphanRun_wrap], rfl, by simp, fun _ => rfl⟩
    obtain ⟨x, xs, rfl⟩ : ∃ x xs, L = x :: xs := by
      cases L with
      | nil => simp at hl
      | cons x xs => exact ⟨x, xs, rfl⟩
    have hSl : S.length = (x :: xs).length := by simpa using congrArg List.length hS
    obtain ⟨f, S1, rfl⟩ : ∃ f S1, S = f :: S1 := by
      cases S with
      | nil => simp at hSl
      | cons f S1 => exact ⟨f, S1, rfl⟩
    have hS1 : S1.map WrapFlag.coarsen = xs.map (fun x => c x.q) := by
      simp only [List.map_cons, List.cons.injEq] at hS; exact hS.2
    -- one step without coarsening
    have hstep : ∃ k, (onceRun (wrapCoarsenCb d) true xs (some { st with inside := st.inside + 1 })).2 =
          some { st with inside := st.inside + 1 + xs.length, replaced := st.replaced + k } ∧
        (onceRun (wrapCoarsenCb d) true xs (some { st with inside := st.inside + 1 })).1 =
          (onceRun (markedCb c) true xs ()).1 ∧
        (onceRun (markedCb c) true xs ()).1.length + (2 ^ d - 1) * k = xs.length ∧
        (k = 0 → (onceRun (markedCb c) true xs ()).1 = xs) :=
      ih xs { st with inside := st.inside + 1 } (T ++ [f]) S1 Z (by simpa using hn)
        (by simp [ht]) (by simp [hT]) hS1
    by_cases hfam : ∃ p, Valid p ∧ p.level < 29 ∧ ((x :: xs).take (2 ^ d)).map Leaf.q = childrenv p
    · obtain ⟨p, hp, hpl, hf⟩ := hfam
      have hlen : ((x :: xs).take (2 ^ d)).length = 2 ^ d := by rw [List.length_take]; omega
      have hall : wrapAllCoarsen st.temp st.inside (2 ^ d) = some (((x :: xs).take (2 ^ d)).all fun x => c x.q) := by
        rw [wrapAllCoarsen_eq st.temp (2 ^ d) st.inside ((f :: S1).take (2 ^ d)) ((f :: S1).drop (2 ^ d) ++ Z)
          (by rw [ht, ← hT, List.append_assoc, List.drop_left, ← List.append_assoc, List.take_append_drop])
          (by rw [List.length_take]; omega)]
        have : ((f :: S1).take (2 ^ d)).map WrapFlag.coarsen = ((x :: xs).take (2 ^ d)).map (fun x => c x.q) := by
          rw [List.map_take, hS, List.map_take]
        have h2 := congrArg (fun l => l.all id) this
        simp only [List.all_map] at h2
        rw [Option.some.injEq]
        exact h2
      have hcall : (wrapCoarsenCb d).coarsen ((x :: xs).take (2 ^ d)) (some st) =
          if ((x :: xs).take (2 ^ d)).all (fun x => c x.q) then
            (true, some { st with inside := st.inside + 1 + (2 ^ d - 1), replaced := st.replaced + 1 })
          else (false, some { st with inside := st.inside + 1 }) := by
        change wrapCoarsenFn d ((x :: xs).take (2 ^ d)).length (some st) = _
        rw [hlen, wrapCoarsenFn]
        simp only [hD2, if_false, hall]
        cases (((x :: xs).take (2 ^ d)).all fun x => c x.q) <;> simp
      have hcall2 : ((markedCb c).coarsen ((x :: xs).take (2 ^ d)) ()).1 = ((x :: xs).take (2 ^ d)).all (fun x => c x.q) := rfl
      by_cases hb : (((x :: xs).take (2 ^ d)).all fun x => c x.q) = true
      · rw [hb, if_pos rfl] at hcall
        rw [onceRun_yes (wrapCoarsenCb d) true x xs (some st) hp hpl (by omega) hf (by rw [hcall]),
          onceRun_yes (markedCb c) true x xs () hp hpl (by omega) hf (by rw [hcall2]; exact hb), hcall]
        simp only [makeParent_wrap, makeParent_marked]
        obtain ⟨k, h1, h2, h3, -⟩ := ih ((x :: xs).drop (2 ^ d))
          { st with inside := st.inside + 1 + (2 ^ d - 1), replaced := st.replaced + 1 }
          (T ++ (f :: S1).take (2 ^ d)) ((f :: S1).drop (2 ^ d)) Z
          (by rw [List.length_drop]; omega)
          (by rw [ht, List.append_assoc T ((f :: S1).take _), List.take_append_drop])
          (by rw [List.length_append, List.length_take, hT]; dsimp only; omega)
          (by rw [List.map_drop, hS, List.map_drop])
        refine ⟨k + 1, ?_, ?_, ?_, fun h => by omega⟩
        · rw [h1, List.length_drop]
          simp only [Option.some.injEq, WrapSt.mk.injEq, true_and, and_true]
          constructor <;> omega
        · rw [h2]
        · change ([_] ++ (onceRun (markedCb c) true ((x :: xs).drop (2 ^ d)) ()).1).length + _ = _
          rw [List.length_append, List.length_singleton]
          rw [List.length_drop] at h3
          have : (2 ^ d - 1) * (k + 1) = (2 ^ d - 1) * k + (2 ^ d - 1) := by ring
          omega
      · have hb' := Bool.eq_false_iff.mpr hb
        rw [if_neg hb] at hcall
        rw [onceRun_no (wrapCoarsenCb d) true x xs (some st) hp hpl (by omega) hf (by rw [hcall]),
          onceRun_no (markedCb c) true x xs () hp hpl (by omega) hf (by rw [hcall2]; exact hb'), hcall]
        obtain ⟨k, h1, h2, h3, h4⟩ := hstep
        refine ⟨k, ?_, ?_, ?_, fun h => congrArg (x :: ·) (h4 h)⟩
        · rw [h1, List.length_cons]
          simp only [Option.some.injEq, WrapSt.mk.injEq, true_and, and_true]
          omega
        · rw [h2]
        · change (x :: (onceRun (markedCb c) true xs ()).1).length + _ = _
          simp only [List.length_cons]
          omega
    · have hno : ∀ p, Valid p → p.level < 29 → ((x :: xs).take (2 ^ d)).map Leaf.q ≠ childrenv p :=
        fun p h1 h2 h3 => hfam ⟨p, h1, h2, h3⟩
      rw [onceRun_orphan (wrapCoarsenCb d) true x xs (some st) (by omega) hno,
        onceRun_orphan (markedCb c) true x xs () (by omega) hno]
      have : (if true = true then ((wrapCoarsenCb d).coarsen [x] (some st)).2 else some st) =
        some { st with inside := st.inside + 1 } := by
        simp [wrapCoarsenCb, wrapCoarsenFn]
      rw [this]
      obtain ⟨k, h1, h2, h3, h4⟩ := hstep
      refine ⟨k, ?_, ?_, ?_, fun h => congrArg (x :: ·) (h4 h)⟩
      · rw [h1, List.length_cons]
        simp only [Option.some.injEq, WrapSt.mk.injEq, true_and, and_true]
        omega
      · rw [h2]
      · change (x :: (onceRun (markedCb c) true xs ()).1).length + _ = _
        simp only [List.length_cons]
        omega

end P4est
