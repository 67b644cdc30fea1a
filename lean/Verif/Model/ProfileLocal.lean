import Verif.Model.Profile

/-! # Model of the exchange of layer profiles between columns, src/p6est_profile.c:523-872

The profiles of one process.  Each column (`e`, numbered in the order of the columns) has nine nodes of the
`p4est_lnodes_t` of degree 2: number 4 is its center, 1, 3, 5, 7 are the centers of the faces, 0, 2, 6, 8 the
corners.  The table `element_nodes` is a parameter of the model.  The profile of a node, kept by the code as a range
(`lnode_ranges`) of one array (`lnode_columns`), is a list; a node without profile has the empty list.
`p6est_profile_compress` only moves the ranges in the array and is left out. -/

namespace P4est

/-- The balance types of `p8est_connect_type_t` with which the functions are called, src/p8est_connectivity.h:120-128. -/
inductive LayerBalance where
  | face
  | edge
  | full
  deriving DecidableEq

/-- What the functions read and do not change: `en` is `lnodes->element_nodes`, `num` is
`lnodes->num_local_elements`. -/
structure ProfileMesh where
  en : ℕ → ℕ → ℕ
  num : ℕ
  btype : LayerBalance
  diff : ℕ

/-- The changing members of `p6est_profile_t`, src/p6est_profile.h:47-60: the profiles of the nodes,
`lnode_changed[evenodd]`, `lnode_changed[evenodd ^ 1]` and `enode_counts` by element and position. -/
structure Profiles where
  prof : ℕ → List ℕ
  changed : ℕ → Bool
  next : ℕ → Bool
  counts : ℕ → ℕ → ℕ

/-- The position is a corner: `i != 1 && j != 1` with `i = k % 3`, `j = k / 3`. -/
def isCornerPos (k : ℕ) : Bool := decide (k % 3 ≠ 1) && decide (k / 3 ≠ 1)

/-- `faceprof` and `cornerprof`, src/p6est_profile.c:618-633 and 813-824. -/
def profileDemands (m : ProfileMesh) (self : List ℕ) : Option (List ℕ × List ℕ) := do
  let face ← if m.btype = .face then balanceFace self m.diff else balanceFull self m.diff
  let corner ← match m.btype with
    | .face => some []
    | .edge => balanceFace self m.diff
    | .full => balanceFull self m.diff
  some (face, corner)

/-- `thisprof`, src/p6est_profile.c:638-655 and 829-846; `none` if the position is skipped. -/
def profileFor (m : ProfileMesh) (self face corner : List ℕ) (k : ℕ) : Option (List ℕ) :=
  if isCornerPos k then if m.btype = .face then none else some corner
  else if k = 4 then some self
  else some face

/-- Assignment to one entry. -/
def setAt {β : Type} (f : ℕ → β) (n : ℕ) (x : β) : ℕ → β := fun i => if i = n then x else f i

/-- Assignment to one entry of a table. -/
def setAt2 {β : Type} (f : ℕ → ℕ → β) (e k : ℕ) (x : β) : ℕ → ℕ → β := setAt f e (setAt (f e) k x)

/-- The profile is written to a node for the first time, src/p6est_profile.c:656-676. -/
def newNode (m : ProfileMesh) (e : ℕ) (self face corner : List ℕ) (s : Profiles) (k : ℕ) : Option Profiles :=
  match profileFor m self face corner k with
  | none => some s
  | some this =>
    let n := m.en e k
    let s := { s with counts := setAt2 s.counts e k this.length }
    if (s.prof n).length = 0 then some { s with prof := setAt s.prof n this }
    else do
      let work ← profileUnion this (s.prof n)
      if work.length > (s.prof n).length then some { s with prof := setAt s.prof n work }
      else some s

/-- One column in `p6est_profile_new_local`, src/p6est_profile.c:604-696. -/
def newColumn (m : ProfileMesh) (layers : ℕ → List ℕ) (s : Profiles) (e : ℕ) : Option Profiles := do
  let self ← balanceSelf (layers e)
  let (face, corner) ← profileDemands m self
  (List.range 9).foldlM (newNode m e self face corner) s

/-- `p6est_profile_new_local` for `P6EST_PROFILE_UNION`, src/p6est_profile.c:523-703; `layers e` are the levels of
the layers of column `e`. -/
def profileNewLocal (m : ProfileMesh) (layers : ℕ → List ℕ) : Option Profiles :=
  (List.range m.num).foldlM (newColumn m layers)
    { prof := fun _ => [], changed := fun _ => true, next := fun _ => false, counts := fun _ _ => 0 }

/-- One position in the loop of src/p6est_profile.c:769-807: `thisprof` and `any_prof_change` after reading
the profile of the node. -/
def absorbNode (m : ProfileMesh) (e : ℕ) (s : Profiles) (this : List ℕ × Bool) (k : ℕ) : Option (List ℕ × Bool) :=
  let n := m.en e k
  if ¬ s.changed n then some this
  else if isCornerPos k ∧ m.btype = .face then some this
  else if k = 4 then some this
  else if s.counts e k = (s.prof n).length then some this
  else do
    let work ← profileUnion this.1 (s.prof n)
    if work.length > this.1.length then some (work, true) else some this

/-- One position in the loop of src/p6est_profile.c:825-867: the profiles after the write and
`any_local_change`. -/
def offerNode (m : ProfileMesh) (e : ℕ) (self face corner : List ℕ) (s : Profiles × Bool) (k : ℕ) :
    Option (Profiles × Bool) :=
  match profileFor m self face corner k with
  | none => some s
  | some this => do
    let n := m.en e k
    let old := s.1.prof n
    let work ← if k = 4 then some this else profileUnion this old
    let s' : Profiles × Bool :=
      if work.length > old.length then
        if k = 4 then ({ s.1 with prof := setAt s.1.prof n work }, s.2)
        else ({ s.1 with prof := setAt s.1.prof n work, next := setAt s.1.next n true }, true)
      else s
    some ({ s'.1 with counts := setAt2 s'.1.counts e k (s'.1.prof n).length }, s'.2)

/-- One column in the loop of src/p6est_profile.c:762-869. -/
def balanceColumn (m : ProfileMesh) (s : Profiles × Bool) (e : ℕ) : Option (Profiles × Bool) := do
  let (self, change) ← (List.range 9).foldlM (absorbNode m e s.1) (s.1.prof (m.en e 4), false)
  if change then do
    let (face, corner) ← profileDemands m self
    (List.range 9).foldlM (offerNode m e self face corner) s
  else some s

/-- One turn of the loop of src/p6est_profile.c:756-872, with `any_local_change`. -/
def balanceTurn (m : ProfileMesh) (s : Profiles) : Option (Profiles × Bool) := do
  let (s, any) ← (List.range m.num).foldlM (balanceColumn m) ({ s with next := fun _ => false }, false)
  some ({ s with changed := s.next, next := s.changed }, any)

/-- The loop of `p6est_profile_balance_local`, src/p6est_profile.c:756-872.  The number bounds the number of
turns; `none` if it is exceeded. -/
def balanceTurns (m : ProfileMesh) : ℕ → Profiles → Option Profiles
  | 0, _ => none
  | t + 1, s => do
    let (s, any) ← balanceTurn m s
    if any then balanceTurns m t s else some s

/-- The part of `p6est_balance_ext`, src/p6est.c:2543-2558, on one process, where `p6est_profile_sync` has nothing to
do: the profiles of the centers are those to which the columns are refined. -/
def balanceLayers (m : ProfileMesh) (layers : ℕ → List ℕ) (turns : ℕ) : Option (ℕ → List ℕ) := do
  let s ← profileNewLocal m layers
  let s ← balanceTurns m turns s
  some fun e => s.prof (m.en e 4)

end P4est
