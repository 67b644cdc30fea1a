import Verif.Model.File
import Verif.Spec.Inflate

/-! # Specification of what can be saved to a file -/

namespace P4est.Spec

/-- Numbers that fit into `n` bytes. -/
def Fits (n : ℕ) (a : List ℤ) : Prop := ∀ x ∈ a, -(256 ^ n : ℤ) ≤ 2 * x ∧ 2 * x < 256 ^ n

/-- An array is `NULL` or has the documented length, and its entries fit into their type. -/
structure ArrayOf (there : Prop) (size count : ℕ) (a : List ℤ) : Prop where
  absent : ¬ there → a = []
  length : there → a.length = count
  fits : Fits size a

/-- The arrays of a connectivity have the lengths documented in p4est_connectivity.h and p8est_connectivity.h,
and numbers fit into their types. -/
structure ConnShape (d : ℕ) (c : ConnFile) (numEtt numCtt : ℕ) : Prop where
  vertices : c.vertices.length = 3 * c.numVertices * 8
  treeToEdge : ArrayOf (d = 3 ∧ 0 < c.numEdges) 4 (12 * c.numTrees) c.treeToEdge
  treeToVertex : ArrayOf (0 < c.numVertices) 4 (2 ^ d * c.numTrees) c.treeToVertex
  treeToCorner : ArrayOf (0 < c.numCorners) 4 (2 ^ d * c.numTrees) c.treeToCorner
  treeToTree : ArrayOf True 4 (2 * d * c.numTrees) c.treeToTree
  treeToFace : ArrayOf True 1 (2 * d * c.numTrees) c.treeToFace
  attr : c.attr.length = c.numTrees * c.attrBytes
  ettOffset : ArrayOf (d = 3) 4 (c.numEdges + 1) c.ettOffset
  edgeToTree : ArrayOf (d = 3 ∧ 0 < c.numEdges) 4 numEtt c.edgeToTree
  edgeToEdge : ArrayOf (d = 3 ∧ 0 < c.numEdges) 1 numEtt c.edgeToEdge
  cttOffset : ArrayOf True 4 (c.numCorners + 1) c.cttOffset
  cornerToTree : ArrayOf (0 < c.numCorners) 4 numCtt c.cornerToTree
  cornerToCorner : ArrayOf (0 < c.numCorners) 1 numCtt c.cornerToCorner
  ettLast : d = 3 → c.ettOffset[c.numEdges]? = some (numEtt : ℤ)
  cttLast : c.cttOffset[c.numCorners]? = some (numCtt : ℤ)
  noEdges : d ≠ 3 → c.numEdges = 0 ∧ numEtt = 0
  numTrees : c.numTrees < 2 ^ 31
  numVertices : c.numVertices < 2 ^ 31
  numEdges : c.numEdges < 2 ^ 31
  numEtt : numEtt < 2 ^ 31
  numCorners : c.numCorners < 2 ^ 31
  numCtt : numCtt < 2 ^ 31
  attrBytes : c.attrBytes < 2 ^ 64

end P4est.Spec
