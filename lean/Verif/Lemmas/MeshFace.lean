import Verif.Model.Mesh
import Verif.Lemmas.MeshGeom

/-! # The callback of the mesh for faces -/

namespace P4est
open Spec

variable {d : ℕ}

theorem int8_id {v : ℤ} (h : -128 ≤ v) (h' : v < 128) : int8 v = v := by unfold int8; omega

/-- The members that the callback for faces does not change. -/
def Mesh.rest (m : Mesh) := (m.localNum, m.ghostNum, m.quadToTree, m.ghostToProc, m.quadLevel)

theorem Spec.FaceEntry.mono {conn : FaceConn} {L : List (ℕ × Quad d)} {half : List (List ℕ)} {j : ℕ} {x : ℕ × Quad d} {f : ℕ} {q v : ℤ}
    (h : FaceEntry conn L half j x f q v) (ns : List (List ℕ)) : FaceEntry conn L (half ++ ns) j x f q v := by
  cases h with
  | outside h1 h2 h3 h4 h5 => exact .outside h1 h2 h3 h4 h5
  | same n y g o h1 h2 h3 h4 h5 h6 h7 => exact .same n y g o h1 h2 h3 h4 h5 h6 h7
  | double n y g o h k h1 h2 h3 h4 h5 h6 h7 h8 h9 => exact .double n y g o h k h1 h2 h3 h4 h5 h6 h7 h8 h9
  | half n t l g o h1 h2 h3 h4 h5 h6 h7 h8 =>
    refine .half n t l g o h1 h2 h3 ?_ h5 h6 h7 h8
    rw [List.getElem?_append_left (List.getElem?_eq_some_iff.mp h4).1]
    exact h4

theorem Spec.FaceEntry.fits (hd : d = 2 ∨ d = 3) {conn : FaceConn} {L : List (ℕ × Quad d)} {half : List (List ℕ)} {j : ℕ} {x : ℕ × Quad d}
    {f : ℕ} (hf : f < 2 * d) {q v : ℤ} (h : FaceEntry conn L half j x f q v) : int8 v = v := by
  have : -128 ≤ v ∧ v < 128 := by
    cases h with
    | outside h1 h2 h3 h4 h5 => rcases hd with rfl | rfl <;> omega
    | same n y g o h1 h2 h3 h4 h5 h6 h7 =>
      rcases hd with rfl | rfl
      · norm_num at h1 h2 h7; omega
      · norm_num at h1 h2 h7; omega
    | double n y g o h k h1 h2 h3 h4 h5 h6 h7 h8 h9 =>
      rcases hd with rfl | rfl
      · norm_num at h1 h2 h3 h9; omega
      · norm_num at h1 h2 h3 h9; omega
    | half n t l g o h1 h2 h3 h4 h5 h6 h7 h8 =>
      rcases hd with rfl | rfl
      · norm_num at h1 h2 h8; omega
      · norm_num at h1 h2 h8; omega
  exact int8_id this.1 this.2

/-- The state during the iteration: the entries for the faces in `done` are written. -/
structure MeshInv (conn : FaceConn) (mine gl : List (ℕ × Quad d)) (m : Mesh) (done : (ℕ × Quad d) × ℕ → Prop) : Prop where
  num : m.localNum = mine.length
  qlen : m.quadToQuad.length = 2 * d * mine.length
  flen : m.quadToFace.length = 2 * d * mine.length
  filled : ∀ j x, mine[j]? = some x → ∀ f < 2 * d, done (x, f) → ∃ q v, m.quadToQuad[2 * d * j + f]? = some q ∧
    m.quadToFace[2 * d * j + f]? = some v ∧ FaceEntry conn (mine ++ gl) m.quadToHalf j x f q v
  fresh : ∀ j x, mine[j]? = some x → ∀ f < 2 * d, ¬ done (x, f) →
    m.quadToQuad[2 * d * j + f]? = some (-1) ∧ m.quadToFace[2 * d * j + f]? = some (-25)

theorem MeshInv.congr {conn : FaceConn} {mine gl : List (ℕ × Quad d)} {m : Mesh} {done done' : (ℕ × Quad d) × ℕ → Prop}
    (I : MeshInv conn mine gl m done) (h : ∀ e, done e ↔ done' e) : MeshInv conn mine gl m done' := by
  obtain rfl : done = done' := funext fun e => propext (h e)
  exact I

theorem nodup_index {β : Type} {l : List β} (h : l.Nodup) {i j : ℕ} {x : β} (hi : l[i]? = some x) (hj : l[j]? = some x) : i = j := by
  obtain ⟨h1, e1⟩ := List.getElem?_eq_some_iff.mp hi
  obtain ⟨h2, e2⟩ := List.getElem?_eq_some_iff.mp hj
  exact (List.Nodup.getElem_inj_iff h).mp (e1.trans e2.symm)

theorem code_inj {d j f j' f' : ℕ} (hf : f < 2 * d) (hf' : f' < 2 * d) (h : 2 * d * j + f = 2 * d * j' + f') : j = j' ∧ f = f' := by
  have h1 : j = j' := by
    have := congrArg (· / (2 * d)) h
    simp only [Nat.mul_add_div (show 0 < 2 * d by omega), Nat.div_eq_of_lt hf, Nat.div_eq_of_lt hf', Nat.add_zero] at this
    exact this
  subst h1
  omega

section Step

variable {conn : FaceConn} {mine gl : List (ℕ × Quad d)} {m : Mesh} {done : (ℕ × Quad d) × ℕ → Prop}

theorem MeshInv.put (hd : d = 2 ∨ d = 3) (hnd : mine.Nodup) (I : MeshInv conn mine gl m done) {j f : ℕ} {x : ℕ × Quad d}
    (hx : mine[j]? = some x) (hf : f < 2 * d) {q v : ℤ} (he : FaceEntry conn (mine ++ gl) m.quadToHalf j x f q v) :
    ∃ m', meshPut d m j f q v = some m' ∧ MeshInv conn mine gl m' (fun e => e = (x, f) ∨ done e) ∧ m'.rest = m.rest := by
  have hj := (List.getElem?_eq_some_iff.mp hx).1
  have hlt : 2 * d * j + f < 2 * d * mine.length := by
    have : 2 * d * (j + 1) ≤ 2 * d * mine.length := Nat.mul_le_mul_left _ hj
    rw [Nat.mul_add, Nat.mul_one] at this
    omega
  have hq : 2 * d * j + f < m.quadToQuad.length := by rw [I.qlen]; exact hlt
  have hv : 2 * d * j + f < m.quadToFace.length := by rw [I.flen]; exact hlt
  unfold meshPut
  rw [if_pos ⟨hq, hv⟩, he.fits hd hf]
  refine ⟨_, rfl, ⟨I.num, by simp [I.qlen], by simp [I.flen], ?_, ?_⟩, rfl⟩
  · intro j' x' hx' f' hf' hdone
    by_cases hc : 2 * d * j' + f' = 2 * d * j + f
    · obtain ⟨rfl, rfl⟩ := code_inj hf' hf hc
      obtain rfl : x' = x := by rw [hx] at hx'; exact (Option.some.inj hx').symm
      refine ⟨q, v, ?_, ?_, he⟩
      · show (m.quadToQuad.set _ q)[_]? = _
        rw [List.getElem?_set_self hq]
      · show (m.quadToFace.set _ v)[_]? = _
        rw [List.getElem?_set_self hv]
    · have hold : done (x', f') := by
        rcases hdone with h | h
        · exfalso
          obtain ⟨e1, e2⟩ := Prod.ext_iff.mp h
          dsimp only at e1 e2
          subst e1
          subst e2
          rw [nodup_index hnd hx' hx] at hc
          exact hc rfl
        · exact h
      obtain ⟨q', v', h1, h2, h3⟩ := I.filled j' x' hx' f' hf' hold
      refine ⟨q', v', ?_, ?_, h3⟩
      · show (m.quadToQuad.set _ q)[_]? = _
        rw [List.getElem?_set_ne (Ne.symm hc), h1]
      · show (m.quadToFace.set _ v)[_]? = _
        rw [List.getElem?_set_ne (Ne.symm hc), h2]
  · intro j' x' hx' f' hf' hdone
    have hc : 2 * d * j' + f' ≠ 2 * d * j + f := by
      intro hc
      obtain ⟨rfl, rfl⟩ := code_inj hf' hf hc
      obtain rfl : x' = x := by rw [hx] at hx'; exact (Option.some.inj hx').symm
      exact hdone (Or.inl rfl)
    obtain ⟨h1, h2⟩ := I.fresh j' x' hx' f' hf' fun c => hdone (Or.inr c)
    constructor
    · show (m.quadToQuad.set _ q)[_]? = _
      rw [List.getElem?_set_ne (Ne.symm hc), h1]
    · show (m.quadToFace.set _ v)[_]? = _
      rw [List.getElem?_set_ne (Ne.symm hc), h2]

theorem MeshInv.write (hd : d = 2 ∨ d = 3) (hnd : mine.Nodup) (I : MeshInv conn mine gl m done) {j f : ℕ} {x : ℕ × Quad d}
    (hx : mine[j]? = some x) (hf : f < 2 * d) (hn : ¬ done (x, f)) {q v : ℤ} (he : FaceEntry conn (mine ++ gl) m.quadToHalf j x f q v) :
    ∃ m', meshWrite d m j f q v = some m' ∧ MeshInv conn mine gl m' (fun e => e = (x, f) ∨ done e) ∧ m'.rest = m.rest := by
  unfold meshWrite
  rw [if_pos (I.fresh j x hx f hf hn)]
  exact I.put hd hnd hx hf he

/-- The list of the smaller neighbors is appended. -/
theorem MeshInv.append (I : MeshInv conn mine gl m done) (ns : List (List ℕ)) :
    MeshInv conn mine gl { m with quadToHalf := m.quadToHalf ++ ns } done := by
  refine ⟨I.num, I.qlen, I.flen, fun j x hx f hf h => ?_, I.fresh⟩
  obtain ⟨q, v, h1, h2, h3⟩ := I.filled j x hx f hf h
  exact ⟨q, v, h1, h2, h3.mono ns⟩

theorem write_half {m m' : Mesh} {j f : ℕ} {q v : ℤ} {H : List (List ℕ)}
    (h : meshWrite d { m with quadToHalf := m.quadToHalf ++ H } j f q v = some m') :
    ∃ m1, meshWrite d m j f q v = some m1 ∧ { m1 with quadToHalf := m1.quadToHalf ++ H } = m' := by
  unfold meshWrite meshPut at h ⊢
  dsimp only at h
  split at h
  · split at h
    · rw [Option.some.injEq] at h
      subst h
      rename_i c1 c2
      rw [if_pos c1, if_pos c2]
      exact ⟨_, rfl, rfl⟩
    · cases h
  · cases h

end Step

/-! ### Numbers -/

theorem tagFrom_index {β : Type} : ∀ (ls : List (List β)) (a t n : ℕ) (q : β), (ls.getD t [])[n]? = some q →
    (tagFrom a ls)[((ls.take t).map List.length).sum + n]? = some (a + t, q) := by
  intro ls
  induction ls with
  | nil => intro a t n q h; simp at h
  | cons l ls ih =>
    intro a t n q h
    cases t with
    | zero =>
      have h : l[n]? = some q := by simpa using h
      have hn := (List.getElem?_eq_some_iff.mp h).1
      simp only [List.take_zero, List.map_nil, List.sum_nil, Nat.zero_add, tagFrom, Nat.add_zero]
      rw [List.getElem?_append_left (by rw [List.length_map]; exact hn), List.getElem?_map, h]
      rfl
    | succ t =>
      have h : (ls.getD t [])[n]? = some q := by simpa using h
      have := ih (a + 1) t n q h
      simp only [List.take_succ_cons, List.map_cons, List.sum_cons, tagFrom]
      rw [List.getElem?_append_right (by rw [List.length_map]; omega), List.length_map]
      rw [show l.length + ((ls.take t).map List.length).sum + n - l.length = ((ls.take t).map List.length).sum + n by omega, this]
      rw [show a + 1 + t = a + (t + 1) by omega]

theorem index_coe (n : ℕ) : index (n : ℤ) = some n := by
  unfold index
  rw [if_pos (by omega)]
  rfl

theorem slot_number {rt : RankTrees (Quad d)} {mine : List (ℕ × Quad d)} (hsplit : forestLeaves rt.trees = mine) {g : GhostLayer d} {m : Mesh}
    (hm : m.localNum = mine.length) {t : ℕ} {q : Quad d} {x : FaceSlot d} (h : SlotShows (knownBy rt (some g)) t q x) (hq : x.quad ≠ none) :
    ∃ j, slotNumber m rt t x = some j ∧ (mine ++ ghostArg (some g))[j]? = some (t, q) ∧ x.quad = some q ∧
      (x.isGhost = false → mine[j]? = some (t, q)) := by
  rcases h with ⟨n, h1, rfl⟩ | ⟨n, h1, rfl⟩ | ⟨rfl, -⟩
  · have h2 : mine[quadrantsOffset rt t + n]? = some (t, q) := by
      rw [← hsplit]
      have := tagFrom_index rt.trees 0 t n q h1
      rw [Nat.zero_add] at this
      exact this
    have hlt := (List.getElem?_eq_some_iff.mp h2).1
    refine ⟨quadrantsOffset rt t + n, ?_, ?_, rfl, fun _ => h2⟩
    · unfold slotNumber
      simp only [Bool.false_eq_true, if_false]
      rw [show (n : ℤ) + (quadrantsOffset rt t : ℤ) = ((quadrantsOffset rt t + n : ℕ) : ℤ) by push_cast; ring, index_coe]
      simp only [Option.bind_eq_bind, Option.bind_some]
      rw [if_pos (by omega)]
    · rw [List.getElem?_append_left hlt, h2]
  · refine ⟨m.localNum + n, ?_, ?_, rfl, fun c => by cases c⟩
    · unfold slotNumber
      simp [index_coe]
    · rw [List.getElem?_append_right (by omega), hm, Nat.add_sub_cancel_left]
      exact h1
  · exact absurd rfl hq

end P4est
