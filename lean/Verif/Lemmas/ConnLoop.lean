import Verif.Lemmas.ConnFaces

/-! # Lemmas: the loop that connects faces -/

namespace P4est

open Spec

variable {d n : ℕ} {ttv : List ℕ} {conn0 : FaceConn}

/-- Two faces connected in an orientation that fits their vertices. -/
def FirstFits (d : ℕ) (ttv : List ℕ) (x y : ℕ × ℕ) (r : ℕ) : Prop :=
  r < 2 ^ (d - 1) ∧ ((x.2 ≤ y.2 ∧ FirstCorner d ttv x y r) ∨ (y.2 ≤ x.2 ∧ FirstCorner d ttv y x r))

theorem FirstFits.symm {x y : ℕ × ℕ} {r : ℕ} (h : FirstFits d ttv x y r) : FirstFits d ttv y x r := ⟨h.1, h.2.symm⟩

theorem connectFaces_spec (hd : d = 2 ∨ d = 3) (hlen : ttv.length = 2 ^ d * n) (conn : FaceConn) {x y : ℕ × ℕ} (hx : x.1 < n)
    (hxf : x.2 < 2 * d) (hy : y.1 < n) (hyf : y.2 < 2 * d) (hs : FaceMatch d ttv x y) :
    ∃ r, FirstFits d ttv x y r ∧ connectFaces d ttv conn x.1 x.2 y.1 y.2 = some { conn with
      treeToTree := (conn.treeToTree.set (2 * d * x.1 + x.2) y.1).set (2 * d * y.1 + y.2) x.1
      treeToFace := (conn.treeToFace.set (2 * d * x.1 + x.2) (2 * d * r + y.2)).set (2 * d * y.1 + y.2) (2 * d * r + x.2) } := by
  have h0 : 0 < 2 ^ (d - 1) := Nat.pow_pos (by decide)
  have core : ∀ {p s : ℕ × ℕ}, p.1 < n → p.2 < 2 * d → s.1 < n → s.2 < 2 * d → FaceMatch d ttv p s →
      ∃ c v r, entry (faceCornersTable d) p.2 0 = some c ∧ ttv[2 ^ d * p.1 + c]? = some v ∧
        findOrientation d ttv v s.1 s.2 0 (2 ^ (d - 1)) = some r ∧ r < 2 ^ (d - 1) ∧ FirstCorner d ttv p s r := by
    intro p s hp hpf hs' hsf hps
    have hl : 0 < (cornersOf d p.2).length := by rw [cornersOf_length hd hpf]; exact h0
    have hva := vertexAt_some hlen hp (cornersOf_lt (List.getElem_mem hl))
    have hvm : (ttv[2 ^ d * p.1 + (cornersOf d p.2)[0]]?).getD 0 ∈ vertsOf d ttv p := by
      unfold vertsOf
      exact List.mem_map_of_mem (f := fun c => (ttv[2 ^ d * p.1 + c]?).getD 0) (List.getElem_mem hl)
    have hvs := ((sameFace_iff hlen hp hs').mp hps).subset hvm
    obtain ⟨j, hj, hje⟩ := List.mem_iff_getElem.mp hvs
    obtain ⟨r, h1, h2, h3⟩ := findOrientation_spec hd hlen hs' hsf
      ⟨j, by rw [← vertsOf_length (ttv := ttv) hd hsf]; exact hj, by rw [List.getElem?_eq_getElem hj, hje]⟩
    refine ⟨_, _, r, by rw [entry_cornersOf hd hpf, List.getElem?_eq_getElem hl], hva, h2, h1, ?_⟩
    have hrl : r < (cornersOf d s.2).length := by rw [cornersOf_length hd hsf]; exact h1
    refine ⟨_, (cornersOf d s.2)[r], List.getElem?_eq_getElem hl, List.getElem?_eq_getElem hrl, ?_⟩
    rw [hva, vertexAt_some hlen hs' (cornersOf_lt (List.getElem_mem hrl))]
    unfold vertsOf at h3
    rw [List.getElem?_map, List.getElem?_eq_getElem hrl] at h3
    simpa using h3.symm
  unfold connectFaces
  by_cases h : x.2 ≤ y.2
  · obtain ⟨c, v, r, e1, e2, e3, e4, e5⟩ := core hx hxf hy hyf hs
    refine ⟨r, ⟨e4, Or.inl ⟨h, e5⟩⟩, ?_⟩
    simp only [if_pos h, e1, e2, e3, Option.bind_eq_bind, Option.bind_some]
  · obtain ⟨c, v, r, e1, e2, e3, e4, e5⟩ := core hy hyf hx hxf hs.symm
    refine ⟨r, ⟨e4, Or.inr ⟨by omega, e5⟩⟩, ?_⟩
    simp only [if_neg h, e1, e2, e3, Option.bind_eq_bind, Option.bind_some]

/-- What holds after the faces in `P`. -/
structure FaceInv (d n : ℕ) (ttv : List ℕ) (conn0 : FaceConn) (P : List (ℕ × ℕ)) (s : FaceConn × List FaceRecord) : Prop where
  num : s.1.numTrees = n
  lt : s.1.treeToTree.length = 2 * d * n
  lf : s.1.treeToFace.length = 2 * d * n
  mem : ∀ fi ∈ s.2, (fi.tree, fi.face) ∈ P ∧ fi.key = keyOf d ttv (fi.tree, fi.face)
  has : ∀ x ∈ P, ∃ fi ∈ s.2, fi.key = keyOf d ttv x
  tables : ∀ x : ℕ × ℕ, x.1 < n → x.2 < 2 * d →
    ((∀ w o, Connected d s.1 x w o ↔ Connected d conn0 x w o) ∧ (x ∈ P → ∀ y ∈ P, y ≠ x → keyOf d ttv y ≠ keyOf d ttv x)) ∨
    ∃ y ∈ P, x ∈ P ∧ y ≠ x ∧ keyOf d ttv y = keyOf d ttv x ∧ ∃ r, FirstFits d ttv x y r ∧ Connected d s.1 x y r ∧ Connected d s.1 y x r

theorem connected_set {conn : FaceConn} (hlt : conn.treeToTree.length = 2 * d * n) (hlf : conn.treeToFace.length = 2 * d * n)
    {x y : ℕ × ℕ} (hx : x.1 < n) (hxf : x.2 < 2 * d) (hy : y.1 < n) (hyf : y.2 < 2 * d) (hne : x ≠ y) {r : ℕ} :
    let conn' : FaceConn := { conn with
      treeToTree := (conn.treeToTree.set (2 * d * x.1 + x.2) y.1).set (2 * d * y.1 + y.2) x.1
      treeToFace := (conn.treeToFace.set (2 * d * x.1 + x.2) (2 * d * r + y.2)).set (2 * d * y.1 + y.2) (2 * d * r + x.2) }
    Connected d conn' x y r ∧ Connected d conn' y x r ∧
      ∀ z : ℕ × ℕ, z.2 < 2 * d → z ≠ x → z ≠ y → ∀ w o, Connected d conn' z w o ↔ Connected d conn z w o := by
  intro conn'
  have hix := row_lt hx hxf
  have hiy := row_lt hy hyf
  have hxy : 2 * d * y.1 + y.2 ≠ 2 * d * x.1 + x.2 := fun h => hne (by
    obtain ⟨h1, h2⟩ := row_inj hyf hxf h
    exact Prod.ext h1.symm h2.symm)
  refine ⟨⟨?_, ?_⟩, ⟨?_, ?_⟩, ?_⟩
  · rw [List.getElem?_set_ne hxy, List.getElem?_set_self (by rw [hlt]; exact hix)]
  · rw [List.getElem?_set_ne hxy, List.getElem?_set_self (by rw [hlf]; exact hix), Nat.add_comm]
  · rw [List.getElem?_set_self (by rw [List.length_set, hlt]; exact hiy)]
  · rw [List.getElem?_set_self (by rw [List.length_set, hlf]; exact hiy), Nat.add_comm]
  · intro z hz hzx hzy w o
    have h1 : 2 * d * x.1 + x.2 ≠ 2 * d * z.1 + z.2 := fun h => hzx (by
      obtain ⟨h1, h2⟩ := row_inj hxf hz h
      exact Prod.ext h1.symm h2.symm)
    have h2 : 2 * d * y.1 + y.2 ≠ 2 * d * z.1 + z.2 := fun h => hzy (by
      obtain ⟨h1, h2⟩ := row_inj hyf hz h
      exact Prod.ext h1.symm h2.symm)
    unfold Connected
    rw [List.getElem?_set_ne h2, List.getElem?_set_ne h1, List.getElem?_set_ne h2, List.getElem?_set_ne h1]

theorem faceStep_inv (hd : d = 2 ∨ d = 3) (hlen : ttv.length = 2 ^ d * n)
    (two : ∀ x y z : ℕ × ℕ, x.1 < n → x.2 < 2 * d → y.1 < n → y.2 < 2 * d → z.1 < n → z.2 < 2 * d →
      FaceMatch d ttv x y → FaceMatch d ttv x z → x = y ∨ x = z ∨ y = z)
    {P : List (ℕ × ℕ)} (hP : ∀ x ∈ P, x.1 < n ∧ x.2 < 2 * d) {s : FaceConn × List FaceRecord} (h : FaceInv d n ttv conn0 P s) {x : ℕ × ℕ}
    (hx : x.1 < n) (hxf : x.2 < 2 * d) (hxP : x ∉ P) :
    ∃ s', completeFaceStep d ttv s x = some s' ∧ FaceInv d n ttv conn0 (P ++ [x]) s' := by
  have two' : ∀ x y z : ℕ × ℕ, x.1 < n → x.2 < 2 * d → y.1 < n → y.2 < 2 * d → z.1 < n → z.2 < 2 * d →
      keyOf d ttv x = keyOf d ttv y → keyOf d ttv x = keyOf d ttv z → x = y ∨ x = z ∨ y = z := by
    intro x y z a1 a2 a3 a4 a5 a6 a7 a8
    exact two x y z a1 a2 a3 a4 a5 a6 ((key_iff hd hlen a1 a2 a3 a4).mp a7) ((key_iff hd hlen a1 a2 a5 a6).mp a8)
  unfold completeFaceStep
  rw [faceKey_eq hd hlen hx hxf]
  simp only [Option.bind_eq_bind, Option.bind_some]
  cases hfind : s.2.find? fun fi => decide (fi.key = keyOf d ttv x) with
  | none =>
    have hno : ∀ y ∈ P, keyOf d ttv y ≠ keyOf d ttv x := by
      intro y hy he
      obtain ⟨fi, hfi, hk⟩ := h.has y hy
      have := List.find?_eq_none.mp hfind fi hfi
      simp only [decide_eq_true_eq] at this
      exact this (by rw [hk, he])
    refine ⟨_, rfl, ⟨h.num, h.lt, h.lf, ?_, ?_, ?_⟩⟩
    · intro fi hfi
      rcases List.mem_append.mp hfi with g | g
      · exact ⟨List.mem_append_left _ (h.mem fi g).1, (h.mem fi g).2⟩
      · rw [List.mem_singleton.mp g]; exact ⟨List.mem_append_right _ (List.mem_singleton.mpr rfl), rfl⟩
    · intro y hy
      rcases List.mem_append.mp hy with g | g
      · obtain ⟨fi, g1, g2⟩ := h.has y g
        exact ⟨fi, List.mem_append_left _ g1, g2⟩
      · rw [List.mem_singleton.mp g]
        exact ⟨_, List.mem_append_right _ (List.mem_singleton.mpr rfl), rfl⟩
    · intro z hz hzf
      rcases h.tables z hz hzf with ⟨g1, g2⟩ | ⟨y, g1, g2, g3⟩
      · refine Or.inl ⟨g1, ?_⟩
        intro hzP y hy hyz
        rcases List.mem_append.mp hzP with a | a <;> rcases List.mem_append.mp hy with b | b
        · exact g2 a y b hyz
        · rw [List.mem_singleton.mp b]; exact fun k => hno z a k.symm
        · rw [List.mem_singleton.mp a]; exact hno y b
        · rw [List.mem_singleton.mp a, List.mem_singleton.mp b] at hyz; exact absurd rfl hyz
      · exact Or.inr ⟨y, List.mem_append_left _ g1, List.mem_append_left _ g2, g3⟩
  | some fi =>
    have hfi := List.mem_of_find?_eq_some hfind
    have hfk : fi.key = keyOf d ttv x := by simpa using List.find?_some hfind
    obtain ⟨h0P, h0k⟩ := h.mem fi hfi
    set y0 : ℕ × ℕ := (fi.tree, fi.face) with hy0
    obtain ⟨hy, hyf⟩ := hP y0 h0P
    have hk : keyOf d ttv y0 = keyOf d ttv x := h0k.symm.trans hfk
    have hne : y0 ≠ x := fun e => hxP (e ▸ h0P)
    obtain ⟨r, f1, f2⟩ := connectFaces_spec hd hlen s.1 hy hyf hx hxf ((key_iff hd hlen hy hyf hx hxf).mp hk)
    have f2 : connectFaces d ttv s.1 fi.tree fi.face x.1 x.2 = _ := f2
    obtain ⟨c1, c2, c3⟩ := connected_set (r := r) h.lt h.lf hy hyf hx hxf hne
    simp only [f2, Option.bind_some]
    refine ⟨_, rfl, ⟨h.num, ?_, ?_, ?_, ?_, ?_⟩⟩
    · simp only [List.length_set]; exact h.lt
    · simp only [List.length_set]; exact h.lf
    · intro gi hgi
      exact ⟨List.mem_append_left _ (h.mem gi hgi).1, (h.mem gi hgi).2⟩
    · intro y hy'
      rcases List.mem_append.mp hy' with g | g
      · exact h.has y g
      · rw [List.mem_singleton.mp g]; exact ⟨fi, hfi, hfk⟩
    · intro z hz hzf
      by_cases hzx : z = x
      · subst hzx
        exact Or.inr ⟨y0, List.mem_append_left _ h0P, by simp, hne, hk, r, f1.symm, c2, c1⟩
      by_cases hzy : z = y0
      · rw [hzy]
        exact Or.inr ⟨x, by simp, List.mem_append_left _ h0P, hne.symm, hk.symm, r, f1, c1, c2⟩
      · rcases h.tables z hz hzf with ⟨g1, g2⟩ | ⟨y, g1, g2, g3, g4, r', g5, g6, g7⟩
        · refine Or.inl ⟨fun w o => (c3 z hzf hzy hzx w o).trans (g1 w o), ?_⟩
          intro hzP y hyP hyz hky
          have hzP' : z ∈ P := by
            rcases List.mem_append.mp hzP with a | a
            · exact a
            · exact absurd (List.mem_singleton.mp a) hzx
          rcases List.mem_append.mp hyP with b | b
          · exact g2 hzP' y b hyz hky
          · rw [List.mem_singleton.mp b] at hky
            rcases two' x y0 z hx hxf hy hyf hz hzf hk.symm hky with e | e | e
            · exact hne e.symm
            · exact hzx e.symm
            · exact hzy e.symm
        · obtain ⟨hy1, hy2⟩ := hP y g1
          have hyx : y ≠ x := fun e => hxP (e ▸ g1)
          have hyy : y ≠ y0 := by
            intro e
            subst e
            rcases two' x y0 z hx hxf hy hyf hz hzf hk.symm (hk.symm.trans g4) with e | e | e
            · exact hne e.symm
            · exact hzx e.symm
            · exact hzy e.symm
          exact Or.inr ⟨y, List.mem_append_left _ g1, List.mem_append_left _ g2, g3, g4, r', g5,
            (c3 z hzf hzy hzx y r').mpr g6, (c3 y hy2 hyy hyx z r').mpr g7⟩

theorem mem_treeLoop {k : ℕ} {x : ℕ × ℕ} : x ∈ treeLoop n k ↔ x.1 < n ∧ x.2 < k := by
  unfold treeLoop
  simp only [List.mem_flatMap, List.mem_map, List.mem_range]
  constructor
  · rintro ⟨t, ht, i, hi, rfl⟩; exact ⟨ht, hi⟩
  · rintro ⟨h1, h2⟩; exact ⟨x.1, h1, x.2, h2, rfl⟩

theorem treeLoop_nodup (n k : ℕ) : (treeLoop n k).Nodup := by
  unfold treeLoop
  rw [List.nodup_flatMap]
  constructor
  · intro t _
    exact (List.nodup_range).map fun a b h => (Prod.ext_iff.mp h).2
  · refine List.Pairwise.imp_of_mem ?_ List.nodup_range
    intro a b _ _ hab x hx hy
    simp only [List.mem_map] at hx hy
    obtain ⟨i, -, rfl⟩ := hx
    obtain ⟨j, -, e⟩ := hy
    exact hab (Prod.ext_iff.mp e).1.symm

theorem faceLoop_inv (hd : d = 2 ∨ d = 3) (hlen : ttv.length = 2 ^ d * n)
    (two : ∀ x y z : ℕ × ℕ, x.1 < n → x.2 < 2 * d → y.1 < n → y.2 < 2 * d → z.1 < n → z.2 < 2 * d →
      FaceMatch d ttv x y → FaceMatch d ttv x z → x = y ∨ x = z ∨ y = z) :
    ∀ (Q P : List (ℕ × ℕ)) (s : FaceConn × List FaceRecord), (∀ x ∈ P ++ Q, x.1 < n ∧ x.2 < 2 * d) → (P ++ Q).Nodup → FaceInv d n ttv conn0 P s →
      ∃ s', Q.foldlM (completeFaceStep d ttv) s = some s' ∧ FaceInv d n ttv conn0 (P ++ Q) s' := by
  intro Q
  induction Q with
  | nil => intro P s _ _ h; exact ⟨s, rfl, by simpa using h⟩
  | cons x Q ih =>
    intro P s hr hnd h
    obtain ⟨hx, hxf⟩ := hr x (by simp)
    have hxP : x ∉ P := fun hm => (List.nodup_append.mp hnd).2.2 x hm x (by simp) rfl
    obtain ⟨s1, h1, h2⟩ := faceStep_inv hd hlen two (fun y hy => hr y (by simp [hy])) h hx hxf hxP
    obtain ⟨s', h3, h4⟩ := ih (P ++ [x]) s1 (by simpa using hr) (by simpa using hnd) h2
    refine ⟨s', ?_, by simpa using h4⟩
    rw [List.foldlM_cons, h1]
    exact h3

end P4est
