import Verif.Model.Iterate
import Verif.Spec.Ghost
import Verif.Spec.Refine

/-! # What an iteration over volumes and faces shows to the callbacks

Of the model only the records for the calls (`IterCall`, `FaceInfo`, `FaceSide`, `SideData`, `FaceSlot`) are used. -/

namespace P4est.Spec

variable {d : ℕ}

/-! ### Faces -/

/-- The unit cell `b` of the quadrant `q` lies at face `f` of `q`. -/
def CellAtFace (f : ℕ) (q : Quad d) (b : Fin d → ℤ) : Prop :=
  b ∈ Cells q ∧ ∀ i : Fin d, (i : ℕ) = f / 2 → if f % 2 = 1 then b i + 1 = q.c i + side q else b i = q.c i

/-- Two unit cells, each given with its tree, have a common side, which is face `f` of the first and face `g` of the second. -/
def FacetOf (conn : FaceConn) (f g : ℕ) (x y : ℕ × (Fin d → ℤ)) : Prop :=
  InTree x.2 ∧ InTree y.2 ∧
  ((x.1 = y.1 ∧ g / 2 = f / 2 ∧ g % 2 ≠ f % 2 ∧
      ∀ i : Fin d, y.2 i = if (i : ℕ) = f / 2 then (if f % 2 = 1 then x.2 i + 1 else x.2 i - 1) else x.2 i) ∨
   ∃ o T, conn.treeToTree[2 * d * x.1 + f]? = some y.1 ∧ conn.treeToFace[2 * d * x.1 + f]? = some (g + 2 * d * o) ∧
    (y.1 ≠ x.1 ∨ g ≠ f) ∧ Glues f g o T ∧ AtFace f x.2 ∧ AtFace g y.2 ∧ T '' Facet f x.2 = Facet g y.2)

/-- Face `f` of the quadrant `x` and face `g` of the quadrant `y` have a common part. -/
def FacesMeet (conn : FaceConn) (f g : ℕ) (x y : ℕ × Quad d) : Prop :=
  ∃ a b, CellAtFace f x.2 a ∧ CellAtFace g y.2 b ∧ FacetOf conn f g (x.1, a) (y.1, b)

/-- Face `f` of the quadrant `x` and face `g` of the quadrant `y` of the same size are the same. -/
def SameFace (conn : FaceConn) (f g : ℕ) (x y : ℕ × Quad d) : Prop :=
  Valid x.2 ∧ Valid y.2 ∧ x.2.level = y.2.level ∧
  (∀ a, CellAtFace f x.2 a → ∃ b, CellAtFace g y.2 b ∧ FacetOf conn f g (x.1, a) (y.1, b)) ∧
  ∀ b, CellAtFace g y.2 b → ∃ a, CellAtFace f x.2 a ∧ FacetOf conn f g (x.1, a) (y.1, b)

/-- Leaves with a common part of a face differ by at most one level. -/
def MeshBalanced (conn : FaceConn) (trees : List (List (Quad d))) : Prop :=
  ∀ x ∈ forestLeaves trees, ∀ y ∈ forestLeaves trees, ShareFace conn x y → y.2.level ≤ x.2.level + 1

/-! ### What a call lists -/

/-- The entries of one side. -/
def SideData.slots : SideData d → List (FaceSlot d)
  | .full x => [x]
  | .hanging xs => xs

/-- The local leaf in an entry, with the face. -/
def slotFaces (t f : ℕ) (x : FaceSlot d) : List ((ℕ × Quad d) × ℕ) :=
  if x.isGhost then [] else (x.quad.map fun q => ((t, q), f)).toList

/-- The local leaves on one side, each with its face. -/
def sideFaces (s : FaceSide d) : List ((ℕ × Quad d) × ℕ) := (SideData.slots s.data).flatMap (slotFaces s.tree s.face)

/-- The local leaves that a call of the face callback lists, each with the face by which it lies there. -/
def localFaces : IterCall d → List ((ℕ × Quad d) × ℕ)
  | .volume _ _ _ => []
  | .face info => info.sides.flatMap sideFaces

/-- The leaf for which the volume callback is called, with its number in the tree. -/
def volumeOf : IterCall d → Option ((ℕ × Quad d) × ℕ)
  | .volume t q n => some ((t, q), n)
  | .face _ => none

/-- The quadrant `q` is listed on a side. -/
def Lists (s : FaceSide d) (q : Quad d) : Prop := ∃ x ∈ SideData.slots s.data, x.quad = some q

/-- The leaf is listed on the one side of the call, the other one on the other side. -/
def BothListed (c : FaceInfo d) (x : ℕ × Quad d) (f : ℕ) (y : ℕ × Quad d) (g : ℕ) : Prop :=
  ∃ s s' : FaceSide d, (c.sides = [s, s'] ∨ c.sides = [s', s]) ∧ s.tree = x.1 ∧ s.face = f ∧ Lists s x.2 ∧
    s'.tree = y.1 ∧ s'.face = g ∧ Lists s' y.2

/-! ### A correct call -/

/-- What a rank knows: its leaves in each tree, and its ghosts with their trees. -/
structure Known (d : ℕ) where
  loc : ℕ → List (Quad d)
  gho : List (ℕ × Quad d)

/-- A known leaf. -/
def Known.Has (K : Known d) (x : ℕ × Quad d) : Prop := x.2 ∈ K.loc x.1 ∨ x ∈ K.gho

/-- The entry for the quadrant `q` of tree `t`: the leaf with its number among the local ones of its tree or among the
ghosts, or the values for a missing quadrant if nothing is known in `q`. -/
def SlotShows (K : Known d) (t : ℕ) (q : Quad d) (x : FaceSlot d) : Prop :=
  (∃ n : ℕ, (K.loc t)[n]? = some q ∧ x = ⟨some q, n, false⟩) ∨
  (∃ n : ℕ, K.gho[n]? = some (t, q) ∧ x = ⟨some q, n, true⟩) ∨
  (x = ⟨none, -1, true⟩ ∧ ∀ y, K.Has y → y.1 = t → Disjoint (Cells y.2) (Cells q))

/-- The side for the quadrant `a`: the entry for `a` itself, or, if the side is hanging, those for the children of `a` at the face,
in the order of their numbers. -/
def SideShows (K : Known d) (s : FaceSide d) (a : Quad d) : Prop :=
  match s.data with
  | .full x => SlotShows K s.tree a x
  | .hanging xs => a.level < 29 ∧ ¬ K.Has (s.tree, a) ∧ xs.length = 2 ^ (d - 1) ∧
      ∀ j < 2 ^ (d - 1), ∃ k x, faceCorner d s.face j = some k ∧ xs[j]? = some x ∧ SlotShows K s.tree (kid a k) x

/-- The side is one leaf. -/
def FullLeaf (K : Known d) (s : FaceSide d) (a : Quad d) : Prop := K.Has (s.tree, a) ∧ ∃ x, s.data = .full x ∧ x.quad = some a

/-- A correct call of the face callback. -/
inductive FaceCallOk (conn : FaceConn) (K : Known d) (info : FaceInfo d) : Prop
  /-- A face on the boundary of the domain: one side with one leaf. -/
  | outside (s : FaceSide d) (a : Quad d) (sides : info.sides = [s]) (boundary : info.treeBoundary = true)
      (orientation : info.orientation = 0) (tree : conn.treeToTree[2 * d * s.tree + s.face]? = some s.tree)
      (face : conn.treeToFace[2 * d * s.tree + s.face]? = some s.face) (valid : Valid a)
      (at_face : ∀ b, CellAtFace s.face a b → AtFace s.face b) (shows : SideShows K s a) (leaf : FullLeaf K s a)
  /-- A face inside a tree. -/
  | inside (s s' : FaceSide d) (a a' : Quad d) (sides : info.sides = [s, s']) (boundary : info.treeBoundary = false)
      (orientation : info.orientation = 0) (tree : s'.tree = s.tree) (upper : s.face % 2 = 1) (lower : s'.face + 1 = s.face)
      (same : SameFace conn s.face s'.face (s.tree, a) (s'.tree, a')) (off_face : ∀ b, CellAtFace s.face a b → ¬ AtFace s.face b)
      (shows : SideShows K s a) (shows' : SideShows K s' a') (leaf : FullLeaf K s a ∨ FullLeaf K s' a')
  /-- A face between trees; the first side has the smaller tree, or the smaller face of the same tree. -/
  | between (s s' : FaceSide d) (a a' : Quad d) (sides : info.sides = [s, s']) (boundary : info.treeBoundary = true)
      (tree : conn.treeToTree[2 * d * s.tree + s.face]? = some s'.tree)
      (face : conn.treeToFace[2 * d * s.tree + s.face]? = some (s'.face + 2 * d * info.orientation))
      (first : s.tree < s'.tree ∨ s.tree = s'.tree ∧ s.face < s'.face)
      (same : SameFace conn s.face s'.face (s.tree, a) (s'.tree, a')) (at_face : ∀ b, CellAtFace s.face a b → AtFace s.face b)
      (shows : SideShows K s a) (shows' : SideShows K s' a') (leaf : FullLeaf K s a ∨ FullLeaf K s' a')

/-! ### The input -/

/-- Ghosts that the search can use: leaves of other ranks in the order of the forest, with the offsets of the trees. -/
structure GhostArray (trees : List (List (Quad d))) (mine : List (ℕ × Quad d)) (g : GhostLayer d) : Prop where
  order : (g.ghosts.map Prod.fst).Sublist (forestLeaves trees)
  other : ∀ x ∈ g.ghosts, x.1 ∉ mine
  cut : CutInto g.ghosts g.treeOffsets trees.length fun t => g.ghosts.filter fun x => decide (x.1.1 = t)

/-- The ghosts in the argument; `none` is `NULL`. -/
def ghostArg (ghost : Option (GhostLayer d)) : List (ℕ × Quad d) := (ghost.elim [] GhostLayer.ghosts).map Prod.fst

/-- What a rank knows. -/
def knownBy (rt : RankTrees (Quad d)) (ghost : Option (GhostLayer d)) : Known d := ⟨fun t => rt.trees.getD t [], ghostArg ghost⟩

end P4est.Spec
