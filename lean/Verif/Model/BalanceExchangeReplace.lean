import Verif.Model.BalanceExchange
import Verif.Model.BalanceReplace

/-! # p4est_balance_ext with a replace callback, within one tree: src/p4est.c -/

namespace P4est

variable {d : ℕ} {α σ : Type}

/-- `p4est_balance_ext`, src/p4est.c:1248-2378, with a replace callback, for a tree without neighbors that is shared by
`n` processes; see `balanceShared`. -/
def balanceSharedExt (bs : (Quad d → ℤ) → List (Quad d) → Option ℕ) (init : Quad d → σ → α × σ)
    (replace : List (Leaf d α) → List (Leaf d α) → σ → (ℕ → α) × σ) (k n : ℕ)
    (ends : ℕ → Quad d × Quad d) (ts : ℕ → Tree d α) (ss : ℕ → σ) (i : ℕ) : Option (Tree d α × σ) := do
  let firsts ← (List.range n).mapM fun j => balanceSubtreeExt bs init replace k (ends j).1 (ends j).2 (ts j) (ss j)
  let me ← firsts[i]?
  let B ← mergedBorder k n (fun j => ⟨(ends j).1, (ends j).2, (firsts[j]?).elim [] fun x => x.1.quads.toList.map Leaf.q⟩) i
  let r ← balanceBorderExt bs init replace k (ends i).1 (ends i).2 B me.1 me.2.1
  some (r.1, r.2.1)

end P4est
