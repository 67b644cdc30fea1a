import Mathlib.Data.List.Chain
import Verif.Spec.Basic

/-! # Specification vocabulary for leaf lists -/

namespace P4est.Spec

variable {d : ℕ}

/-- The cells covered by a list of quadrants. -/
def Cover (ls : List (Quad d)) : Set (Fin d → ℤ) := {p | ∃ q ∈ ls, p ∈ Cells q}

/-- Each quadrant begins exactly where the previous one ends. -/
def Gapless (ls : List (Quad d)) : Prop := ls.IsChain (fun q r => stop q = start r)

/-- In curve order and without overlap: each quadrant ends before all later ones begin. -/
def Linear (ls : List (Quad d)) : Prop :=
  ls.Pairwise (fun q r => Before q r ∧ Cells q ∩ Cells r = ∅)

/-- In curve order, ancestors first. -/
def Sorted (ls : List (Quad d)) : Prop := ls.Pairwise Before

end P4est.Spec
