import Verif.Lemmas.Inflate
import Verif.Props.Transfer

/-! # C39: deflate and inflate -/

namespace P4est
open Spec

variable {d : ℕ} {α : Type}

/-- The leaves of a rank are a piece of the global sequence. -/
theorem rank_slice {γ : Type} (leaves : ℕ → List γ) (P p : ℕ) (hp : p < P) :
    leaves p = slice (∑ i ∈ Finset.range p, (leaves i).length) (∑ i ∈ Finset.range (p + 1), (leaves i).length)
      ((List.range P).flatMap leaves) := by
  unfold slice
  rw [Finset.sum_range_succ, flatMap_take leaves P p hp _ le_rfl, List.take_length]
  have hl : ((List.range p).flatMap leaves).length = ∑ i ∈ Finset.range p, (leaves i).length := by rw [List.length_flatMap]; rfl
  rw [← hl, List.drop_left]

/-- C39, the second half on its own: whatever forest is described by the arguments, `p4est_inflate` makes it. -/
theorem C39_inflate (hd : 0 < d) (mem : α) (trees : List (List (Quad d × α))) (P : ℕ) (leaves : ℕ → List (ℕ × (Quad d × α)))
    (hF : DataForest trees P leaves) (hfew : (trees.length : ℤ) ≤ topidxMax) (gfq : ℕ → ℤ)
    (hgfq : ∀ p, p ≤ P → gfq p = ((∑ i ∈ Finset.range p, (leaves i).length : ℕ) : ℤ)) (data : ℕ → Option (List α))
    (hdata : ∀ p, p < P → data p = some ((leaves p).map fun x => x.2.2) ∨ data p = none ∧ ∀ x ∈ leaves p, x.2.2 = mem) :
    ∃ out, inflate (d := d) mem P trees.length gfq (leavesBefore trees)
        (fun p => ((leaves p).map Prod.snd).flatMap fun x => deflateQuad x.1) data = some out ∧
      ForestHolds out.forest trees P leaves ∧ out.forest.revision = 0 ∧
      out.gfp = globalPartition (fun p => bare (leaves p)) P trees.length ∧
      ∀ p, p < P → (out.ranks p).trees' = out.forest.ranks p ∧ (out.ranks p).localNum = (leaves p).length ∧
        (out.ranks p).trees.length = trees.length ∧
        ∀ t tree, (out.ranks p).trees[t]? = some tree →
          TreeStored (leavesIn (leaves p) t) (((out.ranks p).trees.take t).map fun x => x.quads.length).sum tree := by
  have hv : ∀ l ∈ trees, ∀ x ∈ l, Valid x.1 := fun l hl x hx => (hF.complete l hl).valid x.1 (List.mem_map_of_mem hx)
  have hne : ∀ l ∈ trees, l ≠ [] := by
    intro l hl h
    obtain ⟨q, hq, -⟩ := (hF.complete l hl).cover (fun _ => 0) (fun i => ⟨le_rfl, by norm_num⟩)
    rw [h] at hq; simp at hq
  have htot : (forestLeaves trees).length = ∑ i ∈ Finset.range P, (leaves i).length := by
    rw [← hF.split, List.length_flatMap]; rfl
  have hex : ∀ p, ∃ rk, (p < P → inflateRank (d := d) mem (leavesBefore trees) trees.length (gfq p) (gfq (p + 1))
        (((leaves p).map Prod.snd).flatMap fun x => deflateQuad x.1) (data p) = some rk ∧
      Holds trees.length (leaves p) rk.trees' ∧ rk.localNum = (leaves p).length ∧ rk.trees.length = trees.length ∧
      ∀ t tree, rk.trees[t]? = some tree →
        TreeStored (leavesIn (leaves p) t) ((rk.trees.take t).map (fun x => x.quads.length)).sum tree) ∧
      (¬ p < P → rk = ⟨[], -1, -2, 0⟩) := by
    intro p
    by_cases hp : p < P
    · obtain ⟨rk, h⟩ := inflateRank_spec hd mem trees hv hne (a := ∑ i ∈ Finset.range p, (leaves i).length)
        (b := ∑ i ∈ Finset.range (p + 1), (leaves i).length) (prefix_mono _ (Nat.le_succ p))
        (by rw [htot]; exact prefix_mono _ (show p + 1 ≤ P by omega)) (leaves p) (by rw [← hF.split]; exact rank_slice leaves P p hp)
        (data p) (hdata p hp)
      rw [← hgfq p hp.le, ← hgfq (p + 1) hp] at h
      exact ⟨rk, fun _ => h, fun h => absurd hp h⟩
    · exact ⟨_, fun h => absurd h hp, fun _ => rfl⟩
  choose rk hin hout using hex
  have hmap : (List.range P).mapM (fun p => inflateRank (d := d) mem (leavesBefore trees) trees.length (gfq p) (gfq (p + 1))
      (((leaves p).map Prod.snd).flatMap fun x => deflateQuad x.1) (data p)) = some ((List.range P).map rk) :=
    mapM_some fun p hp => (hin p (List.mem_range.mp hp)).1
  have hgetD : ∀ p, ((List.range P).map rk).getD p ⟨[], -1, -2, 0⟩ = rk p := by
    intro p
    rw [List.getD_eq_getElem?_getD, List.getElem?_map]
    by_cases hp : p < P
    · rw [List.getElem?_range hp]; rfl
    · rw [List.getElem?_eq_none (by simp; omega), hout p hp]; rfl
  have hgfp : globalPartition (d := d) (fun p => (rk p).trees'.tagged) P trees.length =
      globalPartition (fun p => bare (leaves p)) P trees.length := by
    apply globalPartition_congr
    intro p hp
    rw [tagged_eq, (hin p hp).2.1.split]
  have hrun : inflate (d := d) mem P trees.length gfq (leavesBefore trees)
        (fun p => ((leaves p).map Prod.snd).flatMap fun x => deflateQuad x.1) data = some
      { forest :=
          { ranks := fun p => (rk p).trees', gfq := gfq,
            gfpTree := (globalPartition (d := d) (fun p => (rk p).trees'.tagged) P trees.length).map GPos.tree,
            globalNum := (gfq P).toNat, numTrees := trees.length, revision := 0 }
        gfp := globalPartition (d := d) (fun p => (rk p).trees'.tagged) P trees.length, ranks := rk } := by
    unfold inflate
    simp only [Option.bind_eq_bind]
    rw [hmap]
    simp only [Option.bind_some, hgetD]
  refine ⟨_, hrun, ⟨hF, rfl, hfew, fun p hp => (hin p hp).2.1, hgfq, ?_, ?_⟩, rfl, hgfp, fun p hp => ⟨rfl, (hin p hp).2.2⟩⟩
  · dsimp only
    rw [hgfp]
  · dsimp only
    rw [hgfq P le_rfl, htot]; rfl

/-- Leaves of which the data are forgotten. -/
def Spec.withData (mem : α) (L : List (ℕ × (Quad d × α))) : List (ℕ × (Quad d × α)) := L.map fun x => (x.1, (x.2.1, mem))

/-- The same for the trees. -/
def Spec.treesWithData (mem : α) (trees : List (List (Quad d × α))) : List (List (Quad d × α)) :=
  trees.map fun l => l.map fun x => (x.1, mem)

theorem Spec.DataForest.forget {trees : List (List (Quad d × α))} {P : ℕ} {leaves : ℕ → List (ℕ × (Quad d × α))}
    (h : DataForest trees P leaves) (mem : α) : DataForest (treesWithData mem trees) P fun p => withData mem (leaves p) where
  complete l hl := by
    obtain ⟨l', h1, rfl⟩ := List.mem_map.mp hl
    rw [List.map_map]
    exact h.complete l' h1
  someTree := by
    have := h.someTree
    simpa [treesWithData] using this
  split := by
    unfold withData treesWithData
    rw [forestLeaves, tagFrom_map (fun x : Quad d × α => (x.1, mem)), ← forestLeaves, ← h.split, List.map_flatMap]

theorem leavesBefore_map {β γ : Type} (f : β → γ) (trees : List (List β)) :
    leavesBefore (trees.map fun l => l.map f) = leavesBefore trees := by
  unfold leavesBefore
  rw [List.length_map]
  apply List.map_congr_left
  intro t _
  rw [← List.map_take, List.map_map]
  congr 3
  funext l
  simp

/-- C39. For every forest on any number of processes, `p4est_deflate_quadrants` succeeds on each process and
`p4est_inflate` with these arrays, the partition and the numbers of leaves before each tree gives the same
leaves with the same data in the same trees on the same processes.  All members of the new forest and of its
trees are those of these leaves, and the revision is zero.  Without the array of data the leaves
are the same and have no data. -/
theorem C39_deflate_inflate (hd : 0 < d) (f : Forest d α) (trees : List (List (Quad d × α))) (P : ℕ)
    (leaves : ℕ → List (ℕ × (Quad d × α))) (hf : ForestHolds f trees P leaves) (mem : α) :
    ∃ (quads : ℕ → List ℤ) (data : ℕ → List α),
      (∀ p, p < P → deflateQuadrants (f.ranks p) (leaves p).length = some (quads p, data p)) ∧
      (∃ out, inflate (d := d) mem P f.numTrees f.gfq (leavesBefore trees) quads (fun p => some (data p)) = some out ∧
        ForestHolds out.forest trees P leaves ∧ out.forest.revision = 0 ∧
        out.gfp = globalPartition (fun p => bare (leaves p)) P trees.length ∧
        ∀ p, p < P → (out.ranks p).trees' = out.forest.ranks p ∧ (out.ranks p).localNum = (leaves p).length ∧
          (out.ranks p).trees.length = trees.length ∧
          ∀ t tree, (out.ranks p).trees[t]? = some tree →
            TreeStored (leavesIn (leaves p) t) (((out.ranks p).trees.take t).map fun x => x.quads.length).sum tree) ∧
      (∃ out, inflate (d := d) mem P f.numTrees f.gfq (leavesBefore trees) quads (fun _ => none) = some out ∧
        ForestHolds out.forest (treesWithData mem trees) P (fun p => withData mem (leaves p)) ∧ out.forest.revision = 0) := by
  refine ⟨fun p => ((leaves p).map Prod.snd).flatMap fun x => deflateQuad x.1, fun p => (leaves p).map fun x => x.2.2, ?_, ?_, ?_⟩
  · intro p hp
    rw [deflate_spec (hf.ranks p hp), List.map_map]
    rfl
  · rw [hf.numTrees]
    exact C39_inflate hd mem trees P leaves hf.forest hf.few f.gfq hf.gfq _ fun p _ => Or.inl rfl
  · obtain ⟨out, h1, h2, h3, -⟩ := C39_inflate hd mem (treesWithData mem trees) P (fun p => withData mem (leaves p))
      (hf.forest.forget mem) (by simpa [treesWithData] using hf.few) f.gfq (by
        intro p hp
        rw [hf.gfq p hp]
        simp [withData]) (fun _ => none) (fun p _ => Or.inr ⟨rfl, by
          intro x hx
          obtain ⟨y, -, rfl⟩ := List.mem_map.mp hx
          rfl⟩)
    refine ⟨out, ?_, h2, h3⟩
    rw [← h1, hf.numTrees]
    have e1 : leavesBefore (treesWithData mem trees) = leavesBefore trees := leavesBefore_map _ trees
    have e2 : (treesWithData mem trees).length = trees.length := by simp [treesWithData]
    rw [e1, e2]
    congr 1
    funext p
    unfold withData
    rw [List.map_map, List.flatMap_map, List.flatMap_map]
    rfl

/-- Two trees on four processes: what is written by process 2, and the forest after reading what all have written. -/
example : deflateQuadrants (dataForest.ranks 2) 2 = some ([2 ^ 29, 2 ^ 29, 1, 0, 0, 0], [1, 0]) := by decide +kernel

def Spec.writtenQuads (p : ℕ) : List ℤ :=
  if p = 0 then [0, 0, 1, 2 ^ 29, 0, 1, 0, 2 ^ 29, 1] else if p = 2 then [2 ^ 29, 2 ^ 29, 1, 0, 0, 0] else []

def Spec.writtenData (p : ℕ) : List ℕ := if p = 0 then [1, 1, 1] else if p = 2 then [1, 0] else []

example : ∃ out : NewForest 2 ℕ, inflate 0 4 2 dataForest.gfq [0, 4, 5] writtenQuads (fun p => some (writtenData p)) = some out ∧
    ForestHolds out.forest dataTrees 4 dataLeaves := by
  obtain ⟨q, x, h1, ⟨out, h2, h3, -⟩, -⟩ := C39_deflate_inflate (by norm_num) dataForest dataTrees 4 dataLeaves dataForest_holds 0
  have e : ∀ p, p < 4 → q p = writtenQuads p ∧ x p = writtenData p := by
    intro p hp
    have h : ∀ p < 4, deflateQuadrants (dataForest.ranks p) (dataLeaves p).length = some (writtenQuads p, writtenData p) := by
      decide +kernel
    have := (h1 p hp).symm.trans (h p hp)
    rw [Option.some.injEq, Prod.mk.injEq] at this
    exact this
  refine ⟨out, ?_, h3⟩
  rw [← h2, show leavesBefore dataTrees = [0, 4, 5] by decide +kernel, show dataForest.numTrees = 2 from rfl]
  unfold inflate
  simp only [Option.bind_eq_bind]
  congr 1
  apply mapM_congr
  intro p hp
  have := e p (List.mem_range.mp hp)
  rw [this.1, this.2]

end P4est
