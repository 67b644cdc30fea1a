import Verif.Lemmas.ExchangeRespond

/-! # The border after the exchange -/

namespace P4est
open Spec

variable {d : ℕ} {k : ℕ}

theorem range_mapM_some {β : Type} {f : ℕ → Option β} {g : ℕ → β} :
    ∀ l : List ℕ, (∀ j ∈ l, f j = some (g j)) → l.mapM f = some (l.map g)
  | [], _ => rfl
  | j :: l, h => by
    rw [List.mapM_cons, h j (by simp), range_mapM_some l fun i hi => h i (by simp [hi])]
    rfl

theorem merged_spec (hdim : d = 2 ∨ d = 3) (hk1 : 1 ≤ k) (hkd : k ≤ d) (hedge : ¬ (d = 3 ∧ k = 2)) {n : ℕ} {Ps : ℕ → Part d}
    (hP : ∀ j < n, PartOk k (Ps j))
    (hap : ∀ i < n, ∀ j < n, i ≠ j → Section (Ps i).f (Ps i).l ∩ Section (Ps j).f (Ps j).l = ∅) {i : ℕ} (hi : i < n) :
    ∃ B, mergedBorder k n Ps i = some B ∧ BorderOf (Ps i).f (Ps i).l (Ps i).leaves B ∧
      ∀ q ∈ (Ps i).leaves, ∀ r, Valid r → Cells r ⊆ Cells q →
        (Divides (Cells q) k (SeedsIn B q) r ↔ ∃ j < n, j ≠ i ∧ ∃ y ∈ (Ps j).leaves, Forces k y r) := by
  have hd : 0 < d := by omega
  have hiP := hP i hi
  have hm : ∀ j, j < n ∧ j ≠ i → _ := fun j h => respond_spec hdim hk1 hkd hedge hiP (hP j h.1) (hap i hi j h.1 (Ne.symm h.2))
  have ht : ∀ j, j < n ∧ j ≠ i → _ := fun j h => respond_spec hdim hk1 hkd hedge (hP j h.1) hiP (hap j h.1 i hi h.2)
  choose! mine m1 m2 m3 m4 m5 using hm
  choose! theirs t1 t2 t3 t4 t5 using ht
  let g : ℕ → List (Quad d) := fun j => if j = i then [] else ((mine j).2 ++ (theirs j).1).map Prod.snd
  have hg : ∀ j ∈ List.range n, (if j = i then some [] else do
      let mine ← (Ps i).respond k ((Ps j).sends (Ps i))
      let theirs ← (Ps j).respond k ((Ps i).sends (Ps j))
      some ((mine.2 ++ theirs.1).map Prod.snd)) = some (g j) := by
    intro j hj
    show _ = some (if j = i then [] else ((mine j).2 ++ (theirs j).1).map Prod.snd)
    by_cases h : j = i
    · rw [if_pos h, if_pos h]
    · have hj' : j < n ∧ j ≠ i := ⟨List.mem_range.mp hj, h⟩
      rw [if_neg h, if_neg h, m1 j hj', t1 j hj']
      rfl
  have hmem : ∀ b, b ∈ (Ps i).border ++ ((List.range n).map g).flatten ↔ b ∈ (Ps i).border ∨
      ∃ j, (j < n ∧ j ≠ i) ∧ ((∃ z ∈ (mine j).2, z.2 = b) ∨ ∃ z ∈ (theirs j).1, z.2 = b) := by
    intro b
    rw [List.mem_append, List.mem_flatten]
    refine or_congr_right ?_
    constructor
    · rintro ⟨l, hl, hb⟩
      obtain ⟨j, hj, rfl⟩ := List.mem_map.mp hl
      have hb' : b ∈ (if j = i then [] else ((mine j).2 ++ (theirs j).1).map Prod.snd) := hb
      split_ifs at hb' with h
      · simp at hb'
      · obtain ⟨z, hz, rfl⟩ := List.mem_map.mp hb'
        refine ⟨j, ⟨List.mem_range.mp hj, h⟩, ?_⟩
        rcases List.mem_append.mp hz with hz | hz
        · exact Or.inl ⟨z, hz, rfl⟩
        · exact Or.inr ⟨z, hz, rfl⟩
    · rintro ⟨j, hj, h⟩
      refine ⟨g j, List.mem_map.mpr ⟨j, List.mem_range.mpr hj.1, rfl⟩, ?_⟩
      show b ∈ (if j = i then [] else ((mine j).2 ++ (theirs j).1).map Prod.snd)
      rw [if_neg hj.2]
      rcases h with ⟨z, hz, rfl⟩ | ⟨z, hz, rfl⟩
      · exact List.mem_map.mpr ⟨z, List.mem_append_left _ hz, rfl⟩
      · exact List.mem_map.mpr ⟨z, List.mem_append_right _ hz, rfl⟩
  obtain ⟨iB, -⟩ := border_hasBorder hdim hiP.ends hiP.tiles
  have hsend : ∀ {P Q : Part d} {x : Quad d}, x ∈ P.sends Q → x ∈ P.border := fun hx => (List.mem_filter.mp hx).1
  refine ⟨(Ps i).border ++ ((List.range n).map g).flatten, ?_, ⟨?_, ?_⟩, ?_⟩
  · unfold mergedBorder
    rw [range_mapM_some _ hg]
    rfl
  · intro b hb
    rcases (hmem b).mp hb with h | ⟨j, hj, ⟨z, hz, rfl⟩ | ⟨z, hz, rfl⟩⟩
    · exact (hiP.tiles.valid b (iB.1 b h)).extended
    · exact (m2 j hj z hz).1.extended
    · exact (t4 j hj z hz).1.extended
  · intro b hb
    right
    rcases (hmem b).mp hb with h | ⟨j, hj, ⟨z, hz, rfl⟩ | ⟨z, hz, rfl⟩⟩
    · exact Or.inl (iB.1 b h)
    · obtain ⟨-, h1, y, hy, h2⟩ := m2 j hj z hz
      exact Or.inr ⟨h1, y, iB.1 y hy, (hmem y).mpr (Or.inl hy), h2⟩
    · obtain ⟨-, h1, y, hy, h2⟩ := t4 j hj z hz
      exact Or.inr ⟨h1, y, iB.1 y (hsend hy), (hmem y).mpr (Or.inl (hsend hy)), h2⟩
  · intro q hq r hr hrq
    have hqv := hiP.tiles.valid q hq
    have same : ∀ {y b : Quad d}, y ∈ (Ps i).leaves → Cells b ⊂ Cells y → Cells b ⊂ Cells q → y = q := fun hy h1 h2 =>
      linear_eq_of_meet hiP.tiles.linear hy hq ⟨_, h1.1 (corner_mem _), h2.1 (corner_mem _)⟩
    have hbv : ∀ b ∈ (Ps i).border ++ ((List.range n).map g).flatten, Valid b := by
      intro b hb
      rcases (hmem b).mp hb with h | ⟨j, hj, ⟨z, hz, rfl⟩ | ⟨z, hz, rfl⟩⟩
      · exact hiP.tiles.valid b (iB.1 b h)
      · exact (m2 j hj z hz).1
      · exact (t4 j hj z hz).1
    rw [divides_inside hd hqv.aligned hqv.1 (fun b hb => ⟨(hbv b hb.1).aligned, (hbv b hb.1).1,
      ((valid_ssubset_iff hd hqv (hbv b hb.1)).mp hb.2).1, hb.2.1⟩) hr.aligned hr.1 hrq]
    constructor
    · rintro ⟨b, ⟨hb, hbq⟩, hf⟩
      rcases (hmem b).mp hb with h | ⟨j, hj, ⟨z, hz, rfl⟩ | ⟨z, hz, rfl⟩⟩
      · exfalso
        have : b = q := linear_eq_of_meet hiP.tiles.linear (iB.1 b h) hq ⟨_, corner_mem b, hbq.1 (corner_mem b)⟩
        rw [this] at hbq
        exact lt_irrefl _ hbq
      · obtain ⟨-, -, y, hy, h2⟩ := m2 j hj z hz
        have := same (iB.1 y hy) h2 hbq
        subst this
        obtain ⟨x, hx, -, h3⟩ := (m3 j hj y hy r hr hrq).mp ⟨z, hz, hbq, hf⟩
        obtain ⟨jB, -⟩ := border_hasBorder hdim (hP j hj.1).ends (hP j hj.1).tiles
        exact ⟨j, hj.1, hj.2, x, jB.1 x (hsend hx), h3⟩
      · obtain ⟨-, -, y, hy, h2⟩ := t4 j hj z hz
        have := same (iB.1 y (hsend hy)) h2 hbq
        subst this
        obtain ⟨x, hx, -, h3⟩ := (t5 j hj y hy r hr hrq).mp ⟨z, hz, hbq, hf⟩
        obtain ⟨jB, -⟩ := border_hasBorder hdim (hP j hj.1).ends (hP j hj.1).tiles
        exact ⟨j, hj.1, hj.2, x, jB.1 x hx, h3⟩
    · rintro ⟨j, hj1, hj2, y', hy', hf'⟩
      have hj : j < n ∧ j ≠ i := ⟨hj1, hj2⟩
      have hjP := hP j hj1
      have hdis := hap i hi j hj1 (Ne.symm hj2)
      rw [Set.eq_empty_iff_forall_notMem] at hdis
      obtain ⟨jB, -⟩ := border_hasBorder hdim hjP.ends hjP.tiles
      have hqj : ∀ p ∈ Cells q, p ∉ Section (Ps j).f (Ps j).l := fun p hp h => hdis p ⟨hiP.inside hq hp, h⟩
      -- a leaf of the border of the other part
      obtain ⟨y, hy, hf⟩ : ∃ y ∈ (Ps j).border, Forces k y r := by
        have h1 : Divides (TreeBox d) k {y | y ∈ (Ps j).leaves} r :=
          (divides_treeBox hd (S := {y | y ∈ (Ps j).leaves}) hjP.tiles.valid hr).mpr ⟨y', hy', hf'⟩
        have h2 := jB.enough hdim hjP.tiles hjP.balanced (by
          rw [Set.eq_empty_iff_forall_notMem]
          rintro p ⟨h3, h4⟩
          exact hqj p (hrq h3) h4) h1
        exact (divides_treeBox hd (S := {y | y ∈ (Ps j).border}) (fun y hy => hjP.tiles.valid y (jB.1 y hy)) hr).mp h2
      have hyl := jB.1 y hy
      have hyv := hjP.tiles.valid y hyl
      have hyi : ∀ p ∈ Cells y, p ∉ Section (Ps i).f (Ps i).l := fun p hp h => hdis p ⟨h, hjP.inside hyl hp⟩
      by_cases htq : Touching y q
      · obtain ⟨a, ha, b, hb, hab⟩ := touching_near htq
        have hqB : q ∈ (Ps i).border := iB.near hdim hiP.tiles hq hb (valid_treeBox hyv ha) (hyi a ha)
          fun i => ⟨(hab i).2, (hab i).1⟩
        have hys : y ∈ (Ps j).sends (Ps i) := by
          obtain ⟨w, w1, w2, w3⟩ := near_layer hdim ha (fun h => hyi b h (hiP.inside hq hb)) hab
          exact List.mem_filter.mpr ⟨hy, (gets_iff hd hiP.ends (hiP.ne hd) hyv).mpr ⟨w, w1, w2,
            valid_of_point (insulQuad_aligned hyv.aligned w) hyv.1 w3 (valid_treeBox hqv hb), b, w3, hiP.inside hq hb⟩⟩
        obtain ⟨z, hz, h1, h2⟩ := (m3 j hj q hqB r hr hrq).mpr ⟨y, hys, htq, hf⟩
        exact ⟨z.2, ⟨(hmem _).mpr (Or.inr ⟨j, hj, Or.inl ⟨z, hz, rfl⟩⟩), h1⟩, h2⟩
      · have hdv : Divides (TreeBox d) k {y} q := by
          refine divides_outer hrq ?_
          rw [divides_treeBox hd (S := {y}) (by simpa using hyv) hr]
          exact ⟨y, rfl, hf⟩
        obtain ⟨-, -, w, w1, w2, w3⟩ := acts_iff hdim hk1 hkd (wholeTrees_root (d := d)) hqv.aligned hqv.1
          (valid_treeBox hqv) hyv.aligned hyv.1 (valid_treeBox hyv) (by
            rw [Set.eq_empty_iff_forall_notMem]
            rintro p ⟨h1, h2⟩
            exact hyi p h1 (hiP.inside hq h2)) htq hdv
        have hwv : Valid (insulQuad q w) := valid_of_point (insulQuad_aligned hqv.aligned w) hqv.1 (w3 (corner_mem y))
          (valid_treeBox hyv (corner_mem y))
        have hqB : q ∈ (Ps i).border := iB.2 q hq w w1 w2 hwv fun h => hyi _ (corner_mem y) (h (w3 (corner_mem y)))
        have hqs : q ∈ (Ps i).sends (Ps j) := List.mem_filter.mpr ⟨hqB, (gets_iff hd hjP.ends (hjP.ne hd) hqv).mpr
          ⟨w, w1, w2, hwv, y.c, w3 (corner_mem y), hjP.inside hyl (corner_mem y)⟩⟩
        obtain ⟨z, hz, h1, h2⟩ := (t5 j hj q hqs r hr hrq).mpr ⟨y, hy, htq, hf⟩
        exact ⟨z.2, ⟨(hmem _).mpr (Or.inr ⟨j, hj, Or.inr ⟨z, hz, rfl⟩⟩), h1⟩, h2⟩

end P4est
