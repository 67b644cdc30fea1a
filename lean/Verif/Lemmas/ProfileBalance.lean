import Verif.Lemmas.Profile

/-! # Refinement of columns and the passes that balance a profile -/

namespace P4est
open Spec

/-- The second list arises from the first by splitting layers. -/
inductive Refines : List ℕ → List ℕ → Prop
  | nil : Refines [] []
  | cons {n : ℕ} {s a c : List ℕ} : Splits n s → Refines a c → Refines (n :: a) (s ++ c)

theorem Refines.nil_left {c : List ℕ} (h : Refines [] c) : c = [] := by cases h; rfl

theorem Refines.uncons {n : ℕ} {a c : List ℕ} (h : Refines (n :: a) c) :
    ∃ s t, c = s ++ t ∧ Splits n s ∧ Refines a t := by
  cases h with
  | cons hs hr => exact ⟨_, _, rfl, hs, hr⟩

theorem Refines.one {n : ℕ} {s : List ℕ} (h : Splits n s) : Refines [n] s := by
  simpa using Refines.cons h .nil

theorem Refines.of_one {n : ℕ} {s : List ℕ} (h : Refines [n] s) : Splits n s := by
  obtain ⟨s, t, rfl, hs, ht⟩ := h.uncons
  rw [ht.nil_left, List.append_nil]; exact hs

theorem Refines.append {a a' c c' : List ℕ} (h : Refines a c) (h' : Refines a' c') :
    Refines (a ++ a') (c ++ c') := by
  induction h with
  | nil => simpa using h'
  | cons hs _ ih => rw [List.cons_append, List.append_assoc]; exact .cons hs ih

theorem Refines.unappend : ∀ {a a' c : List ℕ}, Refines (a ++ a') c →
    ∃ s t, c = s ++ t ∧ Refines a s ∧ Refines a' t
  | [], a', c, h => ⟨[], c, rfl, .nil, h⟩
  | n :: a, a', c, h => by
    rw [List.cons_append] at h
    obtain ⟨s, t, rfl, hs, ht⟩ := h.uncons
    obtain ⟨s', t', rfl, h1, h2⟩ := ht.unappend
    exact ⟨s ++ s', t', by simp, .cons hs h1, h2⟩

theorem Refines.refl : ∀ {a : List ℕ}, (∀ l ∈ a, l ≤ 30) → Refines a a
  | [], _ => .nil
  | n :: a, h => .cons (s := [n]) (.leaf (h n (by simp))) (Refines.refl fun l hl => h l (by simp [hl]))

theorem Splits.reverse {n : ℕ} {s : List ℕ} (h : Splits n s) : Splits n s.reverse := by
  induction h with
  | leaf h => exact .leaf h
  | node h _ _ i1 i2 => rw [List.reverse_append]; exact .node h i2 i1

theorem Refines.reverse {a c : List ℕ} (h : Refines a c) : Refines a.reverse c.reverse := by
  induction h with
  | nil => exact .nil
  | cons hs _ ih =>
    rw [List.reverse_cons, List.reverse_append]
    exact ih.append (.one hs.reverse)

theorem Splits.trans {n : ℕ} {s : List ℕ} (h : Splits n s) : ∀ {t : List ℕ}, Refines s t → Splits n t := by
  induction h with
  | leaf h => intro t ht; exact ht.of_one
  | node h _ _ i1 i2 =>
    intro t ht
    obtain ⟨u, v, rfl, h1, h2⟩ := ht.unappend
    exact .node h (i1 h1) (i2 h2)

theorem Refines.trans {a c : List ℕ} (h : Refines a c) : ∀ {t : List ℕ}, Refines c t → Refines a t := by
  induction h with
  | nil => intro t ht; exact ht
  | cons hs _ ih =>
    intro t ht
    obtain ⟨u, v, rfl, h1, h2⟩ := ht.unappend
    exact .cons (hs.trans h1) (ih h2)

theorem Refines.le {a c : List ℕ} (h : Refines a c) : ∀ l ∈ c, l ≤ 30 := by
  induction h with
  | nil => simp
  | cons hs _ ih =>
    intro l hl
    rcases List.mem_append.1 hl with hl | hl
    · exact (hs.le l hl).2
    · exact ih l hl

theorem Refines.tall_eq {a c : List ℕ} (h : Refines a c) : tall a = tall c := by
  induction h with
  | nil => rfl
  | cons hs _ ih => rw [tall_cons, tall_append, hs.tall_eq, ih]

theorem Refines.column {a c : List ℕ} (h : Refines a c) :
    ∀ {z e : ℕ}, Column z a e → Column z c e := by
  induction h with
  | nil => exact fun h => h
  | cons hs _ ih =>
    intro z e h
    rw [column_append, hs.tall_eq]
    exact ⟨hs.column h.2.1, ih h.2.2⟩

theorem Refines.finer {a c : List ℕ} (h : Refines a c) : Finer a c := by
  induction h with
  | nil => exact fun x => le_refl _
  | @cons n s a c hs _ ih =>
    refine at_append (a := [n]) (R := fun x y => x ≤ y) (by rw [tall_one, hs.tall_eq]) (fun x hx => ?_) ih
    rw [tall_one] at hx
    rw [levelAt_one hx]
    exact (hs.le _ (levelAt_mem (by rwa [hs.tall_eq]))).1

/-- Of two columns of the same extent, one that is nowhere coarser arises by splitting layers. -/
theorem refines_of_finer : ∀ {a c : List ℕ} {z e : ℕ}, Column z a e → Column z c e → Finer a c → Refines a c
  | [], c, z, e, ha, hc, h => by
    have hz : z = e := ha
    match c, hc with
    | [], _ => exact .nil
    | m :: c, hc => have := column_le hc; have := len_pos m; omega
  | n :: a, c, z, e, ha, hc, h => by
    have hle := column_le ha
    have := len_pos n
    match c, hc with
    | [], hc => have hz : z = e := hc; omega
    | m :: c, hc =>
      have hm : n ≤ m := by have := h 0; rwa [levelAt_zero, levelAt_zero] at this
      obtain ⟨s, rest, he, hs, hr⟩ := column_splits' hc ha.2.1 hle hm
      rw [he] at h ⊢
      refine .cons hs (refines_of_finer ha.2.2 hr ?_)
      exact at_upper (a := [n]) (b := s) (R := fun x y => x ≤ y) (by rw [tall_one, hs.tall_eq]) h

theorem Refines.last {a s : List ℕ} {q : ℕ} (h : Refines (a ++ [q]) s) :
    ∃ s' p, s = s' ++ [p] ∧ q ≤ p := by
  obtain ⟨u, v, rfl, _, h2⟩ := h.unappend
  have h3 := h2.of_one
  refine ⟨u ++ v.dropLast, v.getLast h3.ne_nil, ?_, (h3.le _ (List.getLast_mem _)).1⟩
  rw [List.append_assoc, List.dropLast_append_getLast]

/-! ### One layer after another -/

theorem writeLayer_zero {l n : ℕ} (h : l - 1 ≤ n) : writeLayer l n = ([n], n) := by
  simp [writeLayer, h, stackDown]

/-- The layers `n + k`, `n + k`, `n + k - 1`, ..., `n + 1`. -/
def stair (n k : ℕ) : List ℕ := (n + k) :: (stackDown k (n + k) (n + k)).1

theorem stackDown_fst (k m l l' : ℕ) : (stackDown k m l).1 = (stackDown k m l').1 := by
  cases k <;> rfl

theorem stair_succ (n k : ℕ) : stair n (k + 1) = (n + k + 1) :: (n + k + 1) :: (stair n k).tail := by
  simp only [stair, stackDown, List.tail_cons]
  rw [show n + (k + 1) = n + k + 1 by omega, Nat.add_sub_cancel, stackDown_fst k (n + k) _ (n + k)]

theorem stair_cons (n k : ℕ) : stair n k = (n + k) :: (stair n k).tail := rfl

theorem stackDown_snd : ∀ (k n l : ℕ), (stackDown (k + 1) (n + (k + 1)) l).2 = n + 1
  | 0, n, l => rfl
  | k + 1, n, l => by
    rw [stackDown]
    have := stackDown_snd k n (n + (k + 1 + 1))
    rw [show n + (k + 1 + 1) - 1 = n + (k + 1) by omega]
    exact this

/-- What is written for a layer. -/
theorem writeLayer_eq {l n : ℕ} (h : n < l - 1) :
    writeLayer l n = (stair n (l - 1 - n), n + 1) := by
  have hm : max (l - 1) n = l - 1 := by omega
  have he : l - 1 = n + (l - 1 - n) := by omega
  obtain ⟨k, hk⟩ : ∃ k, l - 1 - n = k + 1 := ⟨l - 1 - n - 1, by omega⟩
  simp only [writeLayer, hm, stair]
  rw [← he]
  refine Prod.ext rfl ?_
  show (stackDown (l - 1 - n) (l - 1) (l - 1)).2 = n + 1
  rw [hk, show l - 1 = n + (k + 1) by omega]
  exact stackDown_snd k n _

theorem stair_splits {n : ℕ} : ∀ {k : ℕ}, n + k ≤ 30 → Splits n (stair n k)
  | 0, h => by simpa [stair, stackDown] using Splits.leaf h
  | k + 1, h => by
    have ih := stair_splits (n := n) (k := k) (by omega)
    rw [stair_succ]
    refine ih.trans ?_
    rw [stair_cons n k]
    have h1 : Splits (n + k) ([n + k + 1] ++ [n + k + 1]) :=
      .node (by omega) (.leaf (by omega)) (.leaf (by omega))
    exact Refines.cons h1 (Refines.refl fun l hl => (ih.le l (List.mem_of_mem_tail hl)).2)

/-- A split of a layer whose first part is of level at least `n + k` splits the stair. -/
theorem stair_least {n m : ℕ} {s : List ℕ} (hs : Splits n (m :: s)) : ∀ {k : ℕ}, n + k ≤ m →
    Refines (stair n k) (m :: s)
  | 0, h => by simpa [stair, stackDown] using Refines.one hs
  | k + 1, h => by
    have ih := stair_least hs (k := k) (by omega)
    rw [stair_cons] at ih
    obtain ⟨u, v, he, hu, hv⟩ := ih.uncons
    rw [stair_succ]
    cases hu with
    | leaf h' =>
      simp only [List.cons_append, List.nil_append, List.cons.injEq] at he
      omega
    | @node _ a b h' h1 h2 =>
      rw [he, List.append_assoc]
      exact .cons h1 (.cons h2 hv)

theorem stair_chain (n : ℕ) : ∀ k, List.IsChain (fun p q : ℕ => p ≤ q + 1 ∧ q ≤ p) (stair n k)
  | 0 => by simp [stair, stackDown]
  | 1 => by simp [stair, stackDown]
  | k + 2 => by
    have ih := stair_chain n (k + 1)
    rw [stair_succ] at ih
    rw [stair_succ, stair_succ, List.tail_cons]
    simp only [List.isChain_cons_cons] at ih ⊢
    exact ⟨⟨by omega, le_refl _⟩, ⟨by omega, by omega⟩, ih.2⟩

theorem stair_last (n : ℕ) : ∀ k, ∃ t, stair n (k + 1) = t ++ [n + 1]
  | 0 => ⟨[n + 1], rfl⟩
  | k + 1 => by
    obtain ⟨t, ht⟩ := stair_last n k
    rw [stair_cons] at ht
    rw [stair_succ]
    match t, ht with
    | [], ht =>
      have h1 := congrArg List.tail ht
      simp only [List.tail_cons, List.nil_append] at h1
      rw [stair_succ, List.tail_cons] at h1
      simp at h1
    | a :: t, ht =>
      simp only [List.cons_append, List.cons.injEq] at ht
      exact ⟨(n + (k + 1) + 1) :: (n + (k + 1) + 1) :: t, by rw [ht.2]; simp⟩

/-! ### A pass over all layers -/

/-- What the loop of one pass writes for the layers after one of level `l`. -/
def passAfter : ℕ → List ℕ → List ℕ
  | _, [] => []
  | l, n :: rest => (writeLayer l n).1 ++ passAfter (writeLayer l n).2 rest

/-- What one pass writes. -/
def pass : List ℕ → List ℕ
  | [] => []
  | n :: rest => n :: passAfter n rest

theorem selfLoop_eq : ∀ (rest : List ℕ) (l : ℕ) (w : List ℕ), selfLoop rest l w = w ++ passAfter l rest
  | [], l, w => by simp [selfLoop, passAfter]
  | n :: rest, l, w => by
    simp only [selfLoop, passAfter]
    rw [selfLoop_eq rest]; simp

theorem onePass_eq {a : List ℕ} (h : a ≠ []) : balanceSelfOnePass a = some (pass a.reverse) := by
  unfold balanceSelfOnePass
  match hr : a.reverse with
  | [] => exact absurd (by simpa using hr) h
  | n :: rest => simp [selfLoop_eq, pass]

/-- What is known of the layers written for a layer of level `n` after one of level `l`. -/
theorem writeLayer_spec {l n : ℕ} (hl : l ≤ 30) (hn : n ≤ 30) :
    ∃ m s, (writeLayer l n).1 = m :: s ∧ Splits n (m :: s) ∧ l ≤ m + 1 ∧ (n ≤ l + 1 → m ≤ l + 1) ∧
      List.IsChain (fun p q : ℕ => p ≤ q + 1 ∧ q ≤ p) (m :: s) ∧
      (∃ t, m :: s = t ++ [(writeLayer l n).2]) ∧ n ≤ (writeLayer l n).2 ∧ (writeLayer l n).2 ≤ 30 ∧
      ∀ {m' : ℕ} {s' : List ℕ}, Splits n (m' :: s') → l ≤ m' + 1 → Refines (m :: s) (m' :: s') := by
  by_cases h : l - 1 ≤ n
  · rw [writeLayer_zero h]
    exact ⟨n, [], rfl, .leaf hn, by omega, fun h => h, by simp, ⟨[], rfl⟩, le_refl _, hn,
      fun hs _ => .one hs⟩
  · rw [writeLayer_eq (by omega)]
    obtain ⟨k, hk⟩ : ∃ k, l - 1 - n = k + 1 := ⟨l - 1 - n - 1, by omega⟩
    refine ⟨n + (l - 1 - n), (stair n (l - 1 - n)).tail, rfl, stair_splits (by omega), by omega,
      fun _ => by omega, stair_chain _ _, ?_, by simp, by simp; omega, ?_⟩
    · rw [← stair_cons, hk]; exact stair_last n k
    · intro m' s' hs hm; exact stair_least hs (by omega)

theorem passAfter_refines : ∀ {rest : List ℕ} {l : ℕ}, l ≤ 30 → (∀ n ∈ rest, n ≤ 30) →
    Refines rest (passAfter l rest)
  | [], _, _, _ => .nil
  | n :: rest, l, hl, h => by
    obtain ⟨m, s, he, hs, _, _, _, _, _, h2, _⟩ := writeLayer_spec hl (h n (by simp))
    rw [passAfter, he]
    exact .cons hs (passAfter_refines h2 fun x hx => h x (by simp [hx]))

theorem chain_join {R : ℕ → ℕ → Prop} {l m p : ℕ} {s t u : List ℕ} (h1 : R l m)
    (h2 : List.IsChain R (m :: s)) (he : m :: s = t ++ [p]) (h3 : List.IsChain R (p :: u)) :
    List.IsChain R (l :: ((m :: s) ++ u)) := by
  have h4 : List.IsChain R ((m :: s) ++ u) := by
    rw [he] at h2 ⊢
    rw [List.append_assoc]
    exact List.isChain_split.2 ⟨h2, h3⟩
  rw [List.cons_append] at h4 ⊢
  exact List.isChain_cons_cons.2 ⟨h1, h4⟩

/-- No layer written is followed by one coarser by two levels. -/
theorem passAfter_down : ∀ {rest : List ℕ} {l : ℕ}, l ≤ 30 → (∀ n ∈ rest, n ≤ 30) →
    List.IsChain (fun p q : ℕ => p ≤ q + 1) (l :: passAfter l rest)
  | [], _, _, _ => by simp [passAfter]
  | n :: rest, l, hl, h => by
    obtain ⟨m, s, he, hs, h1, _, hc, ⟨t, ht⟩, _, h2, _⟩ := writeLayer_spec hl (h n (by simp))
    rw [passAfter, he]
    exact chain_join h1 (hc.imp fun _ _ h => h.1) ht
      (passAfter_down h2 fun x hx => h x (by simp [hx]))

/-- If no layer is followed by one finer by two levels then no layer written is. -/
theorem passAfter_up : ∀ {rest : List ℕ} {l n0 : ℕ}, l ≤ 30 → (∀ n ∈ rest, n ≤ 30) → n0 ≤ l →
    List.IsChain (fun p q : ℕ => q ≤ p + 1) (n0 :: rest) →
    List.IsChain (fun p q : ℕ => q ≤ p + 1) (l :: passAfter l rest)
  | [], _, _, _, _, _, _ => by simp [passAfter]
  | n :: rest, l, n0, hl, h, h0, hc0 => by
    obtain ⟨m, s, he, hs, _, h1, hc, ⟨t, ht⟩, h3, h2, _⟩ := writeLayer_spec hl (h n (by simp))
    rw [passAfter, he]
    obtain ⟨h5, h6⟩ := List.isChain_cons_cons.1 hc0
    exact chain_join (h1 (by omega)) (hc.imp fun _ _ h => by omega) ht
      (passAfter_up h2 (fun x hx => h x (by simp [hx])) h3 h6)

/-- The layers written are the coarsest. -/
theorem passAfter_least : ∀ {rest : List ℕ} {l l' : ℕ} {w : List ℕ}, l ≤ 30 → (∀ n ∈ rest, n ≤ 30) →
    l ≤ l' → Refines rest w → List.IsChain (fun p q : ℕ => p ≤ q + 1) (l' :: w) →
    Refines (passAfter l rest) w
  | [], _, _, _, _, _, _, hr, _ => by rw [hr.nil_left]; exact .nil
  | n :: rest, l, l', w, hl, h, h0, hr, hc0 => by
    obtain ⟨m, s, he, hs, _, _, _, ⟨t, ht⟩, _, h2, hmin⟩ := writeLayer_spec hl (h n (by simp))
    obtain ⟨u, v, rfl, hu, hv⟩ := hr.uncons
    match u, hu.ne_nil, hu with
    | m' :: s', _, hu =>
      rw [List.cons_append] at hc0
      obtain ⟨h5, h6⟩ := List.isChain_cons_cons.1 hc0
      have hq := hmin hu (by omega)
      have hq' := hq
      rw [ht] at hq'
      obtain ⟨t', p, he', hp⟩ := hq'.last
      rw [passAfter, he]
      refine hq.append (passAfter_least h2 (fun x hx => h x (by simp [hx])) hp hv ?_)
      rw [← List.cons_append, he', List.append_assoc] at h6
      exact (List.isChain_split.1 h6).2

theorem pass_refines {r : List ℕ} (h : ∀ n ∈ r, n ≤ 30) : Refines r (pass r) := by
  match r with
  | [] => exact .nil
  | n :: rest =>
    exact .cons (s := [n]) (.leaf (h n (by simp)))
      (passAfter_refines (h n (by simp)) fun x hx => h x (by simp [hx]))

theorem pass_down {r : List ℕ} (h : ∀ n ∈ r, n ≤ 30) :
    List.IsChain (fun p q : ℕ => p ≤ q + 1) (pass r) := by
  match r with
  | [] => simp [pass]
  | n :: rest => exact passAfter_down (h n (by simp)) fun x hx => h x (by simp [hx])

theorem pass_up {r : List ℕ} (h : ∀ n ∈ r, n ≤ 30) (hc : List.IsChain (fun p q : ℕ => q ≤ p + 1) r) :
    List.IsChain (fun p q : ℕ => q ≤ p + 1) (pass r) := by
  match r with
  | [] => simp [pass]
  | n :: rest => exact passAfter_up (h n (by simp)) (fun x hx => h x (by simp [hx])) (le_refl _) hc

theorem pass_least {r w : List ℕ} (h : ∀ n ∈ r, n ≤ 30) (hr : Refines r w)
    (hc : List.IsChain (fun p q : ℕ => p ≤ q + 1) w) : Refines (pass r) w := by
  match r with
  | [] => exact hr
  | n :: rest =>
    obtain ⟨u, v, rfl, hu, hv⟩ := hr.uncons
    obtain ⟨t, p, rfl, hp⟩ := (Refines.one hu).last (a := []) 
    refine .cons hu (passAfter_least (h n (by simp)) (fun x hx => h x (by simp [hx])) hp hv ?_)
    rw [List.append_assoc] at hc
    exact (List.isChain_split.1 hc).2

theorem pass_ne_nil {r : List ℕ} (h : r ≠ []) : pass r ≠ [] := by
  match r, h with
  | n :: rest, _ => simp [pass]

theorem chain_reverse {R : ℕ → ℕ → Prop} {l : List ℕ} :
    List.IsChain R l.reverse ↔ List.IsChain (fun p q => R q p) l := List.isChain_reverse

theorem chain_and {R S : ℕ → ℕ → Prop} : ∀ {l : List ℕ}, List.IsChain R l → List.IsChain S l →
    List.IsChain (fun p q => R p q ∧ S p q) l
  | [], _, _ => by simp
  | [_], _, _ => by simp
  | a :: b :: l, h1, h2 => by
    rw [List.isChain_cons_cons] at h1 h2 ⊢
    exact ⟨⟨h1.1, h2.1⟩, chain_and h1.2 h2.2⟩

/-- The profile balanced in itself is the coarsest graded refinement. -/
theorem balanceSelf_refines {a : List ℕ} (h0 : a ≠ []) (h : ∀ n ∈ a, n ≤ 30) :
    ∃ c, balanceSelf a = some c ∧ Refines a c ∧ Graded c ∧
      ∀ c', Refines a c' → Graded c' → Refines c c' := by
  have hr : ∀ n ∈ a.reverse, n ≤ 30 := fun n hn => h n (by simpa using hn)
  have h1 := pass_refines hr
  have hw : ∀ n ∈ (pass a.reverse).reverse, n ≤ 30 := fun n hn => h1.le n (by simpa using hn)
  have h2 := pass_refines hw
  refine ⟨pass (pass a.reverse).reverse, ?_, ?_, ?_, ?_⟩
  · simp only [balanceSelf]
    rw [onePass_eq h0]
    exact onePass_eq (pass_ne_nil (by simpa using h0))
  · have := h1.reverse
    rw [List.reverse_reverse] at this
    exact this.trans h2
  · have h3 := pass_down hw
    have h4 := pass_up hw (chain_reverse.2 (pass_down hr))
    exact chain_and h3 h4
  · intro c' hc hg
    refine pass_least hw ?_ (hg.imp fun _ _ h => h.1)
    have := pass_least hr hc.reverse (chain_reverse.2 (hg.imp fun _ _ h => h.2))
    have := this.reverse
    rwa [List.reverse_reverse] at this

end P4est
