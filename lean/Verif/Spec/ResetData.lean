import Verif.Model.ResetData

/-! # What resetting the data means -/

namespace P4est.Spec

variable {d : ℕ} {π α σ : Type}

/-- The user data of the leaves, in order: `none` for a leaf without a block. -/
def dataOf (F : DataForest d π α) : List (Option α) := F.leaves.map fun x => x.2.2.map F.mem

/-- Without data there is no pool and no block; otherwise every leaf has a block of its own in the pool. -/
def DataOk (F : DataForest d π α) : Prop :=
  (F.dataSize = 0 → F.pool = none ∧ ∀ x ∈ F.leaves, x.2.2 = none) ∧
  (0 < F.dataSize → ∃ id n, F.pool = some (id, n) ∧ id < F.made ∧ (F.leaves.map fun x => x.2.2).Nodup ∧
    ∀ x ∈ F.leaves, ∃ k < n, x.2.2 = some (id, k))

/-- The callback is invoked on each leaf in order, on the content of the leaf's own block; the results are the
new contents and the last user state. -/
def initInOrder (f : ℕ → Quad d → π → Option α → σ → α × σ) (up : π) :
    List (ℕ × Quad d) → List (Option α) → σ → List (Option α) × σ
  | (t, q) :: qs, x :: xs, s =>
    let r := f t q up x s
    let z := initInOrder f up qs xs r.2
    ((x.map fun _ => r.1) :: z.1, z.2)
  | _, _, s => ([], s)

end P4est.Spec
