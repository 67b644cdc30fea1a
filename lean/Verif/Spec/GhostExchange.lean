import Verif.Model.GhostExchange
import Verif.Spec.Ghost

/-! # Specification of the exchange of data of ghosts -/

namespace P4est.Spec

variable {d : ℕ}

/-- The tables of the ghost layer of rank `r` that an exchange of data uses: the ghosts are the leaves of other ranks that
are related to a leaf of `r`, `proc_offsets` cuts them by owner, the mirrors are the leaves of `r` that are related to a
leaf of another rank, and `mirror_proc_offsets` cuts `mirror_proc_mirrors` such that the mirrors listed for `p` are the
ghosts that `p` has from `r`. -/
structure GhostTables (rel : ℕ × Quad d → ℕ × Quad d → Prop) (leaves : ℕ → List (ℕ × Quad d)) (P r : ℕ)
    (g : GhostLayer d) : Prop where
  ghosts : g.ghosts = ghostsOf rel leaves P r
  procs : CutInto g.ghosts g.procOffsets P (fun p => seenBy rel leaves p r)
  mirrors : g.mirrors = mirrorsOf rel leaves P r
  lists : ∃ piece, CutInto g.mirrorProcMirrors g.mirrorProcOffsets P piece ∧
    ∀ p < P, (piece p).map (fun i => g.mirrors[i]?) = (seenBy rel leaves r p).map some

/-- Ghost `i` is a leaf of rank `p` according to the offsets. -/
def OwnedBy (g : GhostLayer d) (i p : ℕ) : Prop :=
  ∃ a b, g.procOffsets[p]? = some a ∧ g.procOffsets[p + 1]? = some b ∧ a ≤ i ∧ i < b

/-- Item number `i` in an array of items of the same size. -/
def item (size : ℕ) (mem : List Byte) (i : ℕ) : List Byte := (mem.drop (i * size)).take size

/-- Requests complete in an order that depends on the rank and on the requests. -/
def AnyOrder (order : ℕ → List GhostRecv → List GhostRecv) : Prop := ∀ r l, (order r l).Perm l

end P4est.Spec
