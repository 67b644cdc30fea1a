import Verif.Model.Quadrant
import Mathlib.Logic.Function.Basic

/-! # `p4est_reset_data`, src/p4est.c:632-678

Memory is modelled as far as it matters here: a block of user data has an address that consists of the
number of its pool and its position in the pool.  The library function `sc_mempool_alloc` gives the next
position of the pool; `sc_mempool_new` makes a pool with a new number and without blocks.  The content of a
block that has not been written is arbitrary. -/

namespace P4est

variable {d : ℕ} {π α σ : Type}

/-- The parts of `p4est_t` that the function touches, src/p4est.h:155-200.  `pool` is `user_data_pool` with the
number of its blocks in use, `made` the number of pools made so far and `mem` the content of all blocks.  The
local leaves of all trees are one list; each comes with the number of its tree and the pointer
`p.user_data`. -/
structure DataForest (d : ℕ) (π α : Type) where
  dataSize : ℕ
  userPointer : π
  pool : Option (ℕ × ℕ)
  made : ℕ
  mem : ℕ × ℕ → α
  leaves : List (ℕ × Quad d × Option (ℕ × ℕ))

/-- `sc_mempool_alloc`. -/
def poolAlloc : Option (ℕ × ℕ) → Option (ℕ × ℕ) × Option (ℕ × ℕ)
  | some (id, n) => (some (id, n), some (id, n + 1))
  | none => (none, none)

/-- Call of `init_fn`, src/p4est.c:672-674.  The callback gets the number of the tree, the quadrant, the
`user_pointer`, the content of the block if there is one, and the user state; it returns the new content.
Simplification: it writes no other block. -/
def callInit (init : Option (ℕ → Quad d → π → Option α → σ → α × σ)) (up : π) (t : ℕ) (q : Quad d)
    (p : Option (ℕ × ℕ)) (m : ℕ × ℕ → α) (s : σ) : (ℕ × ℕ → α) × σ :=
  match init with
  | none => (m, s)
  | some f =>
    let r := f t q up (p.map m) s
    (match p with
     | some a => Function.update m a r.1
     | none => m, r.2)

/-- The loops over the local trees and their leaves, src/p4est.c:658-677. -/
def resetLoop (init : Option (ℕ → Quad d → π → Option α → σ → α × σ)) (up : π) (doresize : Bool) (size : ℕ) :
    List (ℕ × Quad d × Option (ℕ × ℕ)) → Option (ℕ × ℕ) → (ℕ × ℕ → α) → σ →
      List (ℕ × Quad d × Option (ℕ × ℕ)) × Option (ℕ × ℕ) × (ℕ × ℕ → α) × σ
  | [], pool, m, s => ([], pool, m, s)
  | (t, q, p) :: rest, pool, m, s =>
    let a := if doresize then (if size > 0 then poolAlloc pool else (none, pool)) else (p, pool)
    let c := callInit init up t q a.1 m s
    let z := resetLoop init up doresize size rest a.2 c.1 c.2
    ((t, q, a.1) :: z.1, z.2)

/-- `p4est_reset_data`, src/p4est.c:632-678. -/
def resetData (F : DataForest d π α) (size : ℕ) (init : Option (ℕ → Quad d → π → Option α → σ → α × σ)) (up : π)
    (s : σ) : DataForest d π α × σ :=
  let doresize := decide (F.dataSize ≠ size)
  let pool := if doresize then (if size > 0 then some (F.made, 0) else none) else F.pool
  let made := if doresize && decide (size > 0) then F.made + 1 else F.made
  let z := resetLoop init up doresize size F.leaves pool F.mem s
  (⟨size, up, z.2.1, made, z.2.2.1, z.1⟩, z.2.2.2)

end P4est
