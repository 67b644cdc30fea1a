import Verif.Spec.ResetData
import Mathlib.Data.List.Nodup

/-! # C101: resetting the data of the leaves -/

namespace P4est
open Spec

variable {d : ℕ} {π α σ : Type}

theorem callInit_other {init : Option (ℕ → Quad d → π → Option α → σ → α × σ)} {up : π} {t : ℕ} {q : Quad d}
    {p : Option (ℕ × ℕ)} {m : ℕ × ℕ → α} {s : σ} {a : ℕ × ℕ} (h : p ≠ some a) :
    (callInit init up t q p m s).1 a = m a := by
  unfold callInit
  cases init with
  | none => rfl
  | some f =>
    cases p with
    | none => rfl
    | some b => exact Function.update_of_ne (fun e => h (by rw [e])) _ _

/-- The loop, for leaves whose new blocks are different. -/
theorem resetLoop_data (f : ℕ → Quad d → π → Option α → σ → α × σ) (up : π) (doresize : Bool) (size : ℕ) :
    ∀ (L : List (ℕ × Quad d × Option (ℕ × ℕ))) (pool : Option (ℕ × ℕ)) (m : ℕ × ℕ → α) (s : σ),
      ((resetLoop (some f) up doresize size L pool m s).1.filterMap fun x => x.2.2).Nodup →
      (∀ a, (∀ x ∈ (resetLoop (some f) up doresize size L pool m s).1, x.2.2 ≠ some a) →
        (resetLoop (some f) up doresize size L pool m s).2.2.1 a = m a) ∧
      ((resetLoop (some f) up doresize size L pool m s).1.map fun x =>
          x.2.2.map (resetLoop (some f) up doresize size L pool m s).2.2.1,
        (resetLoop (some f) up doresize size L pool m s).2.2.2) =
        initInOrder f up (L.map fun x => (x.1, x.2.1))
          ((resetLoop (some f) up doresize size L pool m s).1.map fun x => x.2.2.map m) s
  | [], _, _, _, _ => ⟨fun _ _ => rfl, rfl⟩
  | (t, q, p) :: rest, pool, m, s, hnd => by
    simp only [resetLoop] at hnd ⊢
    generalize ha : (if doresize then (if size > 0 then poolAlloc pool else (none, pool)) else (p, pool)) = a at *
    generalize hc : callInit (some f) up t q a.1 m s = c at *
    have hcs : c.2 = (f t q up (a.1.map m) s).2 := by rw [← hc]; rfl
    have hnd' : ((resetLoop (some f) up doresize size rest a.2 c.1 c.2).1.filterMap fun x => x.2.2).Nodup := by
      rw [List.filterMap_cons] at hnd
      cases h1 : a.1 with
      | none => simpa [h1] using hnd
      | some b => simp only [h1] at hnd; exact (List.nodup_cons.mp hnd).2
    have hfresh : ∀ x ∈ (resetLoop (some f) up doresize size rest a.2 c.1 c.2).1, ∀ b, x.2.2 = some b → a.1 ≠ some b := by
      intro x hx b hb h1
      rw [List.filterMap_cons] at hnd
      simp only [h1] at hnd
      exact (List.nodup_cons.mp hnd).1 (List.mem_filterMap.mpr ⟨x, hx, hb⟩)
    obtain ⟨h1, h2⟩ := resetLoop_data f up doresize size rest a.2 c.1 c.2 hnd'
    generalize hz : resetLoop (some f) up doresize size rest a.2 c.1 c.2 = z at *
    refine ⟨?_, ?_⟩
    · intro b hb
      rw [h1 b fun x hx => hb x (List.mem_cons_of_mem _ hx), ← hc]
      exact callInit_other (hb _ List.mem_cons_self)
    · simp only [List.map_cons, initInOrder]
      have hsame : z.1.map (fun x => x.2.2.map c.1) = z.1.map fun x => x.2.2.map m := by
        apply List.map_congr_left
        intro x hx
        cases hb : x.2.2 with
        | none => rfl
        | some b =>
          have := callInit_other (init := some f) (up := up) (t := t) (q := q) (m := m) (s := s) (hfresh x hx b hb)
          rw [hc] at this
          simp [this]
      rw [hsame, hcs] at h2
      have hfst := congrArg Prod.fst h2
      have hsnd := congrArg Prod.snd h2
      simp only at hfst hsnd
      rw [hfst, hsnd]
      refine Prod.ext ?_ rfl
      simp only [List.cons.injEq, and_true]
      cases hb : a.1 with
      | none => rfl
      | some b =>
        have hz' : z.2.2.1 b = c.1 b := h1 b fun x hx e => hfresh x hx b e hb
        simp only [Option.map_some, Option.some.injEq]
        rw [hz', ← hc]
        unfold callInit
        simp [hb]

theorem resetLoop_null (up : π) (doresize : Bool) (size : ℕ) :
    ∀ (L : List (ℕ × Quad d × Option (ℕ × ℕ))) (pool : Option (ℕ × ℕ)) (m : ℕ × ℕ → α) (s : σ),
      (resetLoop (none : Option (ℕ → Quad d → π → Option α → σ → α × σ)) up doresize size L pool m s).2.2 = (m, s)
  | [], _, _, _ => rfl
  | (t, q, p) :: rest, pool, m, s => by
    simp only [resetLoop, callInit]
    exact resetLoop_null up doresize size rest _ m s

variable {init : Option (ℕ → Quad d → π → Option α → σ → α × σ)} {up : π} {size : ℕ}

theorem resetLoop_keep : ∀ (L : List (ℕ × Quad d × Option (ℕ × ℕ))) (pool : Option (ℕ × ℕ)) (m : ℕ × ℕ → α) (s : σ),
    (resetLoop init up false size L pool m s).1 = L ∧ (resetLoop init up false size L pool m s).2.1 = pool
  | [], _, _, _ => ⟨rfl, rfl⟩
  | (t, q, p) :: rest, pool, m, s => by
    simp only [resetLoop, Bool.false_eq_true, if_false]
    obtain ⟨h1, h2⟩ := resetLoop_keep rest pool (callInit init up t q p m s).1 (callInit init up t q p m s).2
    exact ⟨by rw [h1], h2⟩

theorem resetLoop_drop : ∀ (L : List (ℕ × Quad d × Option (ℕ × ℕ))) (pool : Option (ℕ × ℕ)) (m : ℕ × ℕ → α) (s : σ),
    (resetLoop init up true 0 L pool m s).1 = L.map (fun x => (x.1, x.2.1, none)) ∧
      (resetLoop init up true 0 L pool m s).2.1 = pool
  | [], _, _, _ => ⟨rfl, rfl⟩
  | (t, q, p) :: rest, pool, m, s => by
    simp only [resetLoop, if_true, gt_iff_lt, lt_irrefl, if_false, List.map_cons]
    obtain ⟨h1, h2⟩ := resetLoop_drop rest pool (callInit init up t q none m s).1 (callInit init up t q none m s).2
    exact ⟨by rw [h1], h2⟩

theorem resetLoop_alloc (hs : 0 < size) (id : ℕ) :
    ∀ (L : List (ℕ × Quad d × Option (ℕ × ℕ))) (n : ℕ) (m : ℕ × ℕ → α) (s : σ),
    (resetLoop init up true size L (some (id, n)) m s).1.map (fun x => (x.1, x.2.1)) = L.map (fun x => (x.1, x.2.1)) ∧
    (resetLoop init up true size L (some (id, n)) m s).1.map (fun x => x.2.2) =
      (List.range' n L.length).map (fun k => some (id, k)) ∧
      (resetLoop init up true size L (some (id, n)) m s).2.1 = some (id, n + L.length)
  | [], _, _, _ => ⟨rfl, rfl, rfl⟩
  | (t, q, p) :: rest, n, m, s => by
    simp only [resetLoop, if_true, gt_iff_lt, hs, poolAlloc, List.map_cons, List.length_cons, List.range'_succ]
    obtain ⟨h1, h2, h3⟩ := resetLoop_alloc hs id rest (n + 1) (callInit init up t q (some (id, n)) m s).1
      (callInit init up t q (some (id, n)) m s).2
    exact ⟨by rw [h1], by rw [h2], by rw [h3]; congr 2; omega⟩

/-- C101.  After `p4est_reset_data` the leaves are the same, the size and the user pointer are the new ones, and
every leaf has a block of its own of the current pool, or none for size zero; when the size has not changed it
is the old block.  The callback, if there is one, has been invoked once for each leaf in order, with the new
user pointer, and the data of each leaf are what the callback left in the block: no later call has overwritten
them.  Without a callback the data of unchanged size are kept. -/
theorem C101_reset (F : DataForest d π α) (hF : DataOk F) (size : ℕ)
    (init : Option (ℕ → Quad d → π → Option α → σ → α × σ)) (up : π) (s : σ) :
    DataOk (resetData F size init up s).1 ∧
    (resetData F size init up s).1.dataSize = size ∧ (resetData F size init up s).1.userPointer = up ∧
    (resetData F size init up s).1.leaves.map (fun x => (x.1, x.2.1)) = F.leaves.map (fun x => (x.1, x.2.1)) ∧
    (F.dataSize = size → (resetData F size init up s).1.leaves = F.leaves ∧
      (resetData F size init up s).1.pool = F.pool) ∧
    ∃ before : List (Option α), before.length = F.leaves.length ∧ (∀ x ∈ before, x.isSome = decide (0 < size)) ∧
      (F.dataSize = size → before = dataOf F) ∧
      match init with
      | none => dataOf (resetData F size init up s).1 = before ∧ (resetData F size init up s).2 = s
      | some f => (dataOf (resetData F size init up s).1, (resetData F size init up s).2) =
          initInOrder f up (F.leaves.map fun x => (x.1, x.2.1)) before s := by
  obtain ⟨hF0, hF1⟩ := hF
  -- what the loop does with the blocks
  have key : ∀ z, z = resetData F size init up s → DataOk z.1 ∧
      z.1.leaves.map (fun x => (x.1, x.2.1)) = F.leaves.map (fun x => (x.1, x.2.1)) ∧
      (F.dataSize = size → z.1.leaves = F.leaves ∧ z.1.pool = F.pool) := by
    intro z hz
    by_cases he : F.dataSize = size
    · have hb : decide (F.dataSize ≠ size) = false := by simp [he]
      obtain ⟨k1, k2⟩ := resetLoop_keep (init := init) (up := up) (size := size) F.leaves F.pool F.mem s
      have e1 : z.1.leaves = F.leaves := by rw [hz]; unfold resetData; simp only [hb, Bool.false_eq_true, if_false]; exact k1
      have e2 : z.1.pool = F.pool := by rw [hz]; unfold resetData; simp only [hb, Bool.false_eq_true, if_false]; exact k2
      have e3 : z.1.dataSize = F.dataSize := by rw [hz, he]; rfl
      have e4 : z.1.made = F.made := by rw [hz]; unfold resetData; simp [hb]
      refine ⟨?_, by rw [e1], fun _ => ⟨e1, e2⟩⟩
      unfold DataOk
      rw [e1, e2, e3, e4]
      exact ⟨hF0, hF1⟩
    · have hb : decide (F.dataSize ≠ size) = true := by simp [he]
      rcases Nat.eq_zero_or_pos size with h0 | h0
      · subst h0
        obtain ⟨k1, k2⟩ := resetLoop_drop (init := init) (up := up) F.leaves none F.mem s
        have e1 : z.1.leaves = F.leaves.map (fun x => (x.1, x.2.1, none)) := by
          rw [hz]; unfold resetData; simp only [hb, if_true, gt_iff_lt, lt_irrefl, if_false]; exact k1
        have e2 : z.1.pool = none := by
          rw [hz]; unfold resetData; simp only [hb, if_true, gt_iff_lt, lt_irrefl, if_false]; exact k2
        have e3 : z.1.dataSize = 0 := by rw [hz]; rfl
        refine ⟨⟨fun _ => ⟨e2, ?_⟩, fun h => by omega⟩, by rw [e1, List.map_map]; rfl, fun h => absurd h he⟩
        rw [e1]
        intro x hx
        obtain ⟨y, _, rfl⟩ := List.mem_map.mp hx
        rfl
      · obtain ⟨k1, k2, k3⟩ := resetLoop_alloc (init := init) (up := up) h0 F.made F.leaves 0 F.mem s
        have e0 : z.1.leaves = (resetLoop init up true size F.leaves (some (F.made, 0)) F.mem s).1 := by
          rw [hz]; unfold resetData; simp only [hb, if_true, gt_iff_lt, h0]
        have e2 : z.1.pool = some (F.made, 0 + F.leaves.length) := by
          rw [hz]; unfold resetData; simp only [hb, if_true, gt_iff_lt, h0]; exact k3
        have e3 : z.1.dataSize = size := by rw [hz]; rfl
        have e4 : z.1.made = F.made + 1 := by rw [hz]; unfold resetData; simp [hb, h0]
        refine ⟨⟨fun h => by omega, fun _ => ⟨F.made, _, e2, by omega, ?_, ?_⟩⟩, by rw [e0]; exact k1, fun h => absurd h he⟩
        · rw [e0, k2]
          exact List.Nodup.map (fun a b h => by simpa using h) List.nodup_range'
        · intro x hx
          rw [e0] at hx
          have := List.mem_map_of_mem (f := fun x : ℕ × Quad d × Option (ℕ × ℕ) => x.2.2) hx
          rw [k2] at this
          obtain ⟨k, hk, hk'⟩ := List.mem_map.mp this
          rw [List.mem_range'_1] at hk
          exact ⟨k, by omega, hk'.symm⟩
  obtain ⟨hok, hpos, hsame⟩ := key _ rfl
  have hsize : (resetData F size init up s).1.dataSize = size := rfl
  refine ⟨hok, rfl, rfl, hpos, hsame, (resetData F size init up s).1.leaves.map (fun x => x.2.2.map F.mem), ?_, ?_, ?_, ?_⟩
  · have := congrArg List.length hpos
    simpa using this
  · intro x hx
    obtain ⟨y, hy, rfl⟩ := List.mem_map.mp hx
    rcases Nat.eq_zero_or_pos size with h0 | h0
    · rw [(hok.1 (by rw [hsize]; exact h0)).2 y hy, h0]; rfl
    · obtain ⟨id, n, _, _, _, h⟩ := hok.2 (by rw [hsize]; exact h0)
      obtain ⟨k, _, e⟩ := h y hy
      rw [e]; simp [h0]
  · intro h
    rw [(hsame h).1]; rfl
  · have hnd : ((resetData F size init up s).1.leaves.filterMap fun x => x.2.2).Nodup := by
      rcases Nat.eq_zero_or_pos size with h0 | h0
      · have := (hok.1 (by rw [hsize]; exact h0)).2
        rw [List.filterMap_eq_nil_iff.mpr fun x hx => this x hx]
        exact List.nodup_nil
      · obtain ⟨id, n, _, _, h, _⟩ := hok.2 (by rw [hsize]; exact h0)
        have h' : (((resetData F size init up s).1.leaves.map fun x => x.2.2).filterMap fun y => y).Nodup :=
          h.filterMap fun a b c ha hb => by rw [Option.mem_def.mp ha, Option.mem_def.mp hb]
        rwa [List.filterMap_map] at h'
    cases init with
    | none =>
      have := resetLoop_null (α := α) (σ := σ) up (decide (F.dataSize ≠ size)) size F.leaves
        (if decide (F.dataSize ≠ size) then (if size > 0 then some (F.made, 0) else none) else F.pool) F.mem s
      constructor
      · unfold dataOf
        rw [show (resetData F size none up s).1.mem = F.mem from congrArg Prod.fst this]
      · exact congrArg Prod.snd this
    | some f => exact (resetLoop_data f up _ size F.leaves _ F.mem s hnd).2

/-- Two leaves of one tree with data of size 8 get data of size 16: the callback counts its calls and adds the
user pointer. -/
example : DataOk (⟨8, 0, some (0, 2), 1, fun a => a.2, [(0, ⟨fun _ => 0, 1⟩, some (0, 1)), (0, ⟨fun _ => 2 ^ 29, 1⟩, some (0, 0))]⟩ :
      DataForest 2 ℕ ℕ) ∧
    (let z := resetData (⟨8, 0, some (0, 2), 1, fun a => a.2, [(0, ⟨fun _ => 0, 1⟩, some (0, 1)), (0, ⟨fun _ => 2 ^ 29, 1⟩, some (0, 0))]⟩ :
      DataForest 2 ℕ ℕ) 16 (some fun _ _ up _ n => (up + n, n + 1)) 100 0
    (dataOf z.1, z.2)) = ([some 100, some 101], 2) := by
  refine ⟨⟨fun h => absurd h (by decide), fun _ => ⟨0, 2, rfl, by decide, by decide, ?_⟩⟩, by decide +kernel⟩
  intro x hx
  simp only [List.mem_cons, List.not_mem_nil, or_false] at hx
  rcases hx with rfl | rfl
  · exact ⟨1, by decide, rfl⟩
  · exact ⟨0, by decide, rfl⟩

end P4est
