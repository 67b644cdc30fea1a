import Verif.Model.Partition

/-! # Removing the quadrants that a process does not own

Models p4est_tree_remove_nonowned of src/p4est_algorithms.c.  Each stored quadrant comes with its user data. -/

namespace P4est

variable {d : ℕ} {β : Type}

/-- The condition of src/p4est_algorithms.c:1284-1294. -/
def outsideOwned (full : Bool × Bool) (first next : GPos d) (q : Quad d) : Bool :=
  !isInsideRoot q ||
    (!full.1 && (decide (compare q first.quad < 0) && decide (∃ i, q.c i ≠ first.c i))) ||
    (!full.2 && decide (compare next.quad (lastDesc q QMAXLEVEL) ≤ 0))

/-- The variables of the loop: the array, `prev_good`, `removed`, `quadrants_per_level`, and the data that have
been freed. -/
structure Removal (d : ℕ) (β : Type) where
  quads : List (Quad d × β)
  prevGood : ℕ
  removed : ℕ
  perLevel : ℕ → ℤ
  freed : List β

/-- The body of the loop, src/p4est_algorithms.c:1282-1322, for `bad` as its condition. -/
def removalStep (bad : Quad d → Bool) (incount : ℕ) (s : Removal d β) (zz : ℕ) : Removal d β :=
  match s.quads[zz]? with
  | none => s
  | some x =>
    if bad x.1 then
      { s with
        removed := s.removed + 1
        perLevel := fun l => if l = x.1.level then s.perLevel l - 1 else s.perLevel l
        freed := s.freed ++ [x.2] }
    else
      let k := if s.prevGood = incount then 0 else s.prevGood + 1
      { s with
        quads := if zz > k then s.quads.set k x else s.quads
        prevGood := k }

/-- `p4est_tree_remove_nonowned`, src/p4est_algorithms.c:1248-1345: the quadrants, `quadrants_per_level`,
`maxlevel`, the result and the freed data.  `maxlevel` is the value before the call.  The first and the last
local tree are arguments. -/
def removeNonowned (gfp : List (GPos d)) (rank : ℕ) (firstLocal lastLocal tree : ℤ) (quads : List (Quad d × β))
    (perLevel : ℕ → ℤ) (maxlevel : ℕ) : Option (List (Quad d × β) × (ℕ → ℤ) × ℕ × ℕ × List β) :=
  if quads.length = 0 then some (quads, perLevel, maxlevel, 0, [])
  else do
    let full ← fullTree gfp rank firstLocal lastLocal tree
    let first ← gfp[rank]?
    let next ← gfp[rank + 1]?
    let n := quads.length
    let s := (List.range n).foldl (removalStep (outsideOwned full first next) n) ⟨quads, n, 0, perLevel, []⟩
    let kept := if s.prevGood = n then s.quads.take 0 else s.quads.take (s.prevGood + 1)
    some (kept, s.perLevel, kept.foldl (fun m x => max m x.1.level) 0, s.removed, s.freed)

end P4est
