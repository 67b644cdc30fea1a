import Verif.Props.Coarsen

/-! # Non-recursive coarsening as a function of lists -/

namespace P4est
open Spec

variable {d : ℕ} {α σ : Type}

open Classical in
/-- Non-recursive coarsening of a list of leaves: the windows from left to right. -/
noncomputable def onceRun (cb : CoarsenCb d α σ) (orphans : Bool) (L : List (Leaf d α)) (s : σ) :
    List (Leaf d α) × σ :=
  match L with
  | [] => ([], s)
  | x :: xs =>
    if (x :: xs).length < 2 ^ d then
      (x :: xs, if orphans then orphanRun cb (x :: xs) s else s)
    else if ∃ p, Valid p ∧ p.level < 29 ∧ ((x :: xs).take (2 ^ d)).map Leaf.q = childrenv p then
      let r := cb.coarsen ((x :: xs).take (2 ^ d)) s
      if r.1 then
        let m := makeParent cb ((x :: xs).take (2 ^ d)) (parent x.q) r.2
        let t := onceRun cb orphans ((x :: xs).drop (2 ^ d)) m.2
        (m.1 ++ t.1, t.2)
      else
        let t := onceRun cb orphans xs r.2
        (x :: t.1, t.2)
    else
      let t := onceRun cb orphans xs (if orphans then (cb.coarsen [x] s).2 else s)
      (x :: t.1, t.2)
termination_by L.length
decreasing_by
  all_goals simp only [List.length_cons, List.length_drop]
  all_goals have : 0 < 2 ^ d := by positivity
  all_goals omega

theorem onceRun_short (cb : CoarsenCb d α σ) (orphans : Bool) (L : List (Leaf d α)) (s : σ) (h : L.length < 2 ^ d) :
    onceRun cb orphans L s = (L, if orphans then orphanRun cb L s else s) := by
  cases L with
  | nil => cases orphans <;> simp [onceRun, orphanRun]
  | cons x xs => rw [onceRun, if_pos h]

theorem onceRun_yes (cb : CoarsenCb d α σ) (orphans : Bool) (x : Leaf d α) (xs : List (Leaf d α)) (s : σ)
    {p : Quad d} (hp : Valid p) (hpl : p.level < 29) (hl : 2 ^ d ≤ (x :: xs).length)
    (hf : ((x :: xs).take (2 ^ d)).map Leaf.q = childrenv p)
    (hask : (cb.coarsen ((x :: xs).take (2 ^ d)) s).1 = true) :
    onceRun cb orphans (x :: xs) s =
      ((makeParent cb ((x :: xs).take (2 ^ d)) (parent x.q) (cb.coarsen ((x :: xs).take (2 ^ d)) s).2).1 ++
        (onceRun cb orphans ((x :: xs).drop (2 ^ d))
          (makeParent cb ((x :: xs).take (2 ^ d)) (parent x.q) (cb.coarsen ((x :: xs).take (2 ^ d)) s).2).2).1,
        (onceRun cb orphans ((x :: xs).drop (2 ^ d))
          (makeParent cb ((x :: xs).take (2 ^ d)) (parent x.q) (cb.coarsen ((x :: xs).take (2 ^ d)) s).2).2).2) := by
  rw [onceRun, if_neg (by omega), if_pos ⟨p, hp, hpl, hf⟩]
  simp only [hask, if_true]

theorem onceRun_no (cb : CoarsenCb d α σ) (orphans : Bool) (x : Leaf d α) (xs : List (Leaf d α)) (s : σ)
    {p : Quad d} (hp : Valid p) (hpl : p.level < 29) (hl : 2 ^ d ≤ (x :: xs).length)
    (hf : ((x :: xs).take (2 ^ d)).map Leaf.q = childrenv p)
    (hask : (cb.coarsen ((x :: xs).take (2 ^ d)) s).1 = false) :
    onceRun cb orphans (x :: xs) s = (x :: (onceRun cb orphans xs (cb.coarsen ((x :: xs).take (2 ^ d)) s).2).1,
      (onceRun cb orphans xs (cb.coarsen ((x :: xs).take (2 ^ d)) s).2).2) := by
  rw [onceRun, if_neg (by omega), if_pos ⟨p, hp, hpl, hf⟩]
  simp only [hask, Bool.false_eq_true, if_false]

theorem onceRun_orphan (cb : CoarsenCb d α σ) (orphans : Bool) (x : Leaf d α) (xs : List (Leaf d α)) (s : σ)
    (hl : 2 ^ d ≤ (x :: xs).length)
    (hf : ∀ p, Valid p → p.level < 29 → ((x :: xs).take (2 ^ d)).map Leaf.q ≠ childrenv p) :
    onceRun cb orphans (x :: xs) s = (x :: (onceRun cb orphans xs (if orphans then (cb.coarsen [x] s).2 else s)).1,
      (onceRun cb orphans xs (if orphans then (cb.coarsen [x] s).2 else s)).2) := by
  rw [onceRun, if_neg (by omega), if_neg (by rintro ⟨p, h1, h2, h3⟩; exact hf p h1 h2 h3)]

theorem childrenv_head {p : Quad d} {x : Leaf d α} {xs : List (Leaf d α)} (hp : Valid p) (hpl : p.level < 29)
    (hf : ((x :: xs).take (2 ^ d)).map Leaf.q = childrenv p) : parent x.q = p := by
  have hD : 0 < 2 ^ d := by positivity
  have h := congrArg (fun l => l[0]?) hf
  simp only [List.getElem?_map, List.getElem?_take, if_pos hD, List.getElem?_cons_zero, Option.map_some, childrenv,
    List.getElem?_range hD, Option.some.injEq] at h
  rw [h]
  exact parent_child hp.aligned (by omega) 0

/-- The in-place algorithm on one tree without recursion computes `onceRun`. -/
theorem coarsenTree_once (hd : 0 < d) (cb : CoarsenCb d α σ) (orphans : Bool) (t : Tree d α) (prevOffset : ℤ) (s : σ)
    (hv : ∀ q ∈ quadsOf t, Valid q) (hg : Gapless (quadsOf t)) :
    ∃ t' rem off, coarsenTree cb false orphans t prevOffset s =
        some (t', rem, off, (onceRun cb orphans t.quads.toList s).2) ∧
      t'.quads.toList = (onceRun cb orphans t.quads.toList s).1 ∧
      t'.quads.toList.length + rem = t.quads.toList.length ∧ t'.offset = prevOffset := by
  obtain ⟨a, b, hG⟩ := good_of hv hg
  have hD : 0 < 2 ^ d := by positivity
  have hcons : ∀ (L : List (Leaf d α)) w, w + 2 ^ d ≤ L.length → ∃ x xs, L.drop w = x :: xs ∧ L.drop (w + 1) = xs ∧
      L.take (w + 1) = L.take w ++ [x] ∧ L[w]? = some x := by
    intro L w hw
    have hlt : w < L.length := by omega
    exact ⟨L[w], L.drop (w + 1), List.drop_eq_getElem_cons hlt, rfl,
      by rw [List.take_add_one, List.getElem?_eq_getElem hlt]; rfl, List.getElem?_eq_getElem hlt⟩
  obtain ⟨t', w, rem, off, s', he, -, ⟨hP1, hP2⟩, hw1, hw2, hrem, ho, -⟩ := coarsenTree_good hd cb false orphans t
    prevOffset s hG
    (fun L w s' => L.take w ++ (onceRun cb orphans (L.drop w) s').1 = (onceRun cb orphans t.quads.toList s).1 ∧
      (onceRun cb orphans (L.drop w) s').2 = (onceRun cb orphans t.quads.toList s).2)
    (by
      rintro L w s1 p x s2 hGL hw hp hpl hf hx hask hmk ⟨h1, h2⟩
      obtain ⟨y, ys, hdrop, -, -, -⟩ := hcons L w hw
      simp only [Bool.false_eq_true, and_false, if_false]
      have hlen : (L.take w).length = w := by simp; omega
      have e1 : (L.take w ++ x :: L.drop (w + 2 ^ d)).take (w + 1) = L.take w ++ [x] := by
        rw [List.take_append, hlen, List.take_of_length_le (by omega)]
        simp
      have e2 : (L.take w ++ x :: L.drop (w + 2 ^ d)).drop (w + 1) = L.drop (w + 2 ^ d) := by
        rw [List.drop_append, hlen, List.drop_of_length_le (by omega)]
        simp
      unfold win at hf hask hmk
      rw [hdrop] at hf hask hmk h1 h2
      have hl : 2 ^ d ≤ (y :: ys).length := by rw [← hdrop, List.length_drop]; omega
      rw [onceRun_yes cb orphans y ys s1 hp hpl hl hf hask, childrenv_head hp hpl hf, hmk] at h1 h2
      rw [← hdrop, List.drop_drop] at h1 h2
      rw [e1, e2]
      simpa using ⟨h1, h2⟩)
    (by
      rintro L w s1 p hGL hw hp hpl hf hask ⟨h1, h2⟩
      obtain ⟨y, ys, hdrop, hdrop1, htake, -⟩ := hcons L w hw
      unfold win at hf hask ⊢
      rw [hdrop] at hf hask h1 h2 ⊢
      have hl : 2 ^ d ≤ (y :: ys).length := by rw [← hdrop, List.length_drop]; omega
      rw [onceRun_no cb orphans y ys s1 hp hpl hl hf hask] at h1 h2
      rw [htake, hdrop1]
      simpa using ⟨h1, h2⟩)
    (by
      rintro L w s1 x hGL hw hx hnf ⟨h1, h2⟩
      obtain ⟨y, ys, hdrop, hdrop1, htake, hget⟩ := hcons L w hw
      have : x = y := by rw [hx] at hget; simpa using hget
      subst this
      unfold win at hnf
      rw [hdrop] at hnf h1 h2
      have hl : 2 ^ d ≤ (x :: ys).length := by rw [← hdrop, List.length_drop]; omega
      rw [onceRun_orphan cb orphans x ys s1 hl (fun p h1 h2 => hnf p h1.aligned (by omega))] at h1 h2
      rw [htake, hdrop1]
      simpa using ⟨h1, h2⟩)
    (by simp)
  have hshort : (t'.quads.toList.drop w).length < 2 ^ d := by rw [List.length_drop]; omega
  rw [onceRun_short _ _ _ _ hshort] at hP1 hP2
  refine ⟨t', rem, off, by rw [he, ← hP2], ?_, hrem, ho⟩
  rw [← hP1]
  exact (List.take_append_drop w _).symm

end P4est
