import Verif.Lemmas.Dict3

/-! Jacobians and Hessians of parameter dictionaries. -/

namespace LRVB

/-! ### Concatenated functions -/

/-- Apply `G1` to the first `n1` entries and `G2` to the rest, and concatenate. -/
def catG (n1 : ℕ) (G1 G2 : List ℝ → List ℝ) (y : List ℝ) : List ℝ := G1 (y.take n1) ++ G2 (y.drop n1)

section Cat

variable {n1 n2 m1 m2 : ℕ} {G1 G2 : List ℝ → List ℝ} {x : List ℝ}

theorem catG_getD_left (h1 : ∀ y : List ℝ, y.length = n1 → (G1 y).length = m1) (hx : n1 ≤ x.length)
    {i : ℕ} (hi : i < m1) : (catG n1 G1 G2 x).getD i 0 = (G1 (x.take n1)).getD i 0 := by
  have := h1 (x.take n1) (by simpa using hx)
  simp only [catG, List.getD_eq_getElem?_getD]
  rw [List.getElem?_append_left (by omega)]

theorem catG_getD_right (h1 : ∀ y : List ℝ, y.length = n1 → (G1 y).length = m1) (hx : n1 ≤ x.length)
    (i : ℕ) : (catG n1 G1 G2 x).getD (m1 + i) 0 = (G2 (x.drop n1)).getD i 0 := by
  have := h1 (x.take n1) (by simpa using hx)
  simp only [catG, List.getD_eq_getElem?_getD]
  rw [List.getElem?_append_right (by omega), this, Nat.add_sub_cancel_left]

theorem take_getD {n j : ℕ} (hj : j < n) : (x.take n).getD j 0 = x.getD j 0 := by
  simp [List.getD_eq_getElem?_getD, List.getElem?_take, hj]

theorem drop_getD {n j : ℕ} : (x.drop n).getD j 0 = x.getD (n + j) 0 := by
  simp [List.getD_eq_getElem?_getD, List.getElem?_drop]

theorem take_set_ge {n j : ℕ} (hj : n ≤ j) (s : ℝ) : (x.set j s).take n = x.take n := by
  rw [List.take_set, List.set_eq_of_length_le (by simp; omega)]

theorem drop_set_lt {n j : ℕ} (hj : j < n) (s : ℝ) : (x.set j s).drop n = x.drop n := by
  rw [List.drop_set, if_pos hj]

theorem drop_set_add {n j : ℕ} (s : ℝ) : (x.set (n + j) s).drop n = (x.drop n).set j s := by
  rw [List.drop_set, if_neg (by omega), Nat.add_sub_cancel_left]

theorem D1_cat_left (h1 : ∀ y : List ℝ, y.length = n1 → (G1 y).length = m1) (hx : n1 ≤ x.length)
    {i j : ℕ} (hi : i < m1) :
    D1 (catG n1 G1 G2) x i j = if j < n1 then D1 G1 (x.take n1) i j else 0 := by
  unfold D1
  have : ∀ s, (catG n1 G1 G2 (x.set j s)).getD i 0 = (G1 ((x.set j s).take n1)).getD i 0 :=
    fun s => catG_getD_left h1 (by simpa using hx) hi
  simp only [this]
  split_ifs with hj
  · rw [take_getD hj]; simp only [List.take_set]
  · simp only [take_set_ge (Nat.le_of_not_lt hj)]
    exact deriv_const _ _

theorem D1_cat_right (h1 : ∀ y : List ℝ, y.length = n1 → (G1 y).length = m1) (hx : n1 ≤ x.length)
    (i : ℕ) {j : ℕ} :
    D1 (catG n1 G1 G2) x (m1 + i) j = if j < n1 then 0 else D1 G2 (x.drop n1) i (j - n1) := by
  unfold D1
  have : ∀ s, (catG n1 G1 G2 (x.set j s)).getD (m1 + i) 0 = (G2 ((x.set j s).drop n1)).getD i 0 :=
    fun s => catG_getD_right h1 (by simpa using hx) i
  simp only [this]
  split_ifs with hj
  · simp only [drop_set_lt hj]
    exact deriv_const _ _
  · obtain ⟨k, rfl⟩ : ∃ k, j = n1 + k := ⟨j - n1, by omega⟩
    simp only [drop_set_add, Nat.add_sub_cancel_left, drop_getD]

theorem D2_cat_left (h1 : ∀ y : List ℝ, y.length = n1 → (G1 y).length = m1) (hx : n1 ≤ x.length)
    {i a b : ℕ} (hi : i < m1) :
    D2 (catG n1 G1 G2) x i a b = if a < n1 ∧ b < n1 then D2 G1 (x.take n1) i a b else 0 := by
  unfold D2
  have : ∀ s, D1 (catG n1 G1 G2) (x.set b s) i a =
      if a < n1 then D1 G1 ((x.set b s).take n1) i a else 0 :=
    fun s => D1_cat_left h1 (by simpa using hx) hi
  simp only [this]
  by_cases ha : a < n1
  · simp only [ha, if_true, true_and]
    split_ifs with hb
    · rw [take_getD hb]; simp only [List.take_set]
    · simp only [take_set_ge (Nat.le_of_not_lt hb)]
      exact deriv_const _ _
  · simp [ha]

theorem D2_cat_right (h1 : ∀ y : List ℝ, y.length = n1 → (G1 y).length = m1) (hx : n1 ≤ x.length)
    (i : ℕ) {a b : ℕ} :
    D2 (catG n1 G1 G2) x (m1 + i) a b =
      if a < n1 ∨ b < n1 then 0 else D2 G2 (x.drop n1) i (a - n1) (b - n1) := by
  unfold D2
  have : ∀ s, D1 (catG n1 G1 G2) (x.set b s) (m1 + i) a =
      if a < n1 then 0 else D1 G2 ((x.set b s).drop n1) i (a - n1) :=
    fun s => D1_cat_right h1 (by simpa using hx) i
  simp only [this]
  by_cases ha : a < n1
  · simp [ha]
  · simp only [ha, if_false, false_or]
    split_ifs with hb
    · simp only [drop_set_lt hb]
      exact deriv_const _ _
    · obtain ⟨k, rfl⟩ : ∃ k, b = n1 + k := ⟨b - n1, by omega⟩
      simp only [drop_set_add, Nat.add_sub_cancel_left, drop_getD]

theorem smooth_cat (h1 : ∀ y : List ℝ, y.length = n1 → (G1 y).length = m1)
    (s1 : Smooth n1 m1 G1) (s2 : Smooth n2 m2 G2) :
    Smooth (n1 + n2) (m1 + m2) (catG n1 G1 G2) := by
  intro i hi
  by_cases h : i < m1
  · obtain ⟨g, hg, hG⟩ := s1 i h
    refine ⟨fun v => g fun k => v ⟨k, by omega⟩, ?_, ?_⟩
    · exact hg.comp (contDiff_pi.mpr fun k => contDiff_apply ℝ ℝ _)
    · intro x hx
      rw [catG_getD_left h1 (by omega) h, hG _ (by simp; omega)]
      congr 1
      funext k
      simp only [toVec]
      exact take_getD k.2
  · obtain ⟨i, rfl⟩ : ∃ k, i = m1 + k := ⟨i - m1, by omega⟩
    obtain ⟨g, hg, hG⟩ := s2 i (by omega)
    refine ⟨fun v => g fun k => v ⟨n1 + k, by omega⟩, ?_, ?_⟩
    · exact hg.comp (contDiff_pi.mpr fun k => contDiff_apply ℝ ℝ _)
    · intro x hx
      rw [catG_getD_right h1 (by omega) i, hG _ (by simp; omega)]
      congr 1
      funext k
      simp only [toVec]
      exact drop_getD

end Cat

/-! ### Block diagonal matrices -/

/-- Two diagonal blocks. -/
noncomputable def Coo.append (a b : Coo) : Coo :=
  ⟨a.nr + b.nr, a.nc + b.nc,
    a.entries ++ b.entries.map fun e => (a.nr + e.1, a.nc + e.2.1, e.2.2)⟩

theorem Coo.append_assoc (a b c : Coo) : (a.append b).append c = a.append (b.append c) := by
  simp [Coo.append, Nat.add_assoc, Function.comp_def]

theorem Coo.append_zero (a : Coo) : a.append ⟨0, 0, []⟩ = a := by
  cases a; simp [Coo.append]

theorem Coo.zero_append (a : Coo) : Coo.append ⟨0, 0, []⟩ a = a := by
  cases a; simp [Coo.append]

/-- All diagonal blocks. -/
noncomputable def Coo.diag : List Coo → Coo
  | [] => ⟨0, 0, []⟩
  | m :: ms => m.append (Coo.diag ms)

theorem Coo.foldl_append (ms : List Coo) (acc : Coo) :
    ms.foldl Coo.append acc = acc.append (Coo.diag ms) := by
  induction ms generalizing acc with
  | nil => simp [Coo.diag, Coo.append_zero]
  | cons m ms ih => rw [List.foldl_cons, ih, Coo.diag, Coo.append_assoc]

theorem Coo.blockDiag_ok {ms : List Coo} (h : ms ≠ []) : Coo.blockDiag ms = .ok (Coo.diag ms) := by
  unfold Coo.blockDiag
  rw [if_neg (by simpa using h)]
  congr 1
  exact (Coo.foldl_append ms ⟨0, 0, []⟩).trans (Coo.zero_append _)

theorem toDense_zero_of {m : Coo} {i j : ℕ} (h : ∀ e ∈ m.entries, e.1 ≠ i ∨ e.2.1 ≠ j) :
    m.toDense i j = 0 := by
  unfold Coo.toDense
  apply sum_map_zero
  intro e he
  rw [if_neg]
  rintro ⟨h1, h2⟩
  rcases h e he with h | h
  · exact h h1
  · exact h h2

theorem toDense_append_shift (a b : Coo) (i j : ℕ) :
    (a.append b).toDense i j = a.toDense i j +
      (if a.nr ≤ i ∧ a.nc ≤ j then b.toDense (i - a.nr) (j - a.nc) else 0) := by
  simp only [Coo.append, Coo.toDense, List.map_append, List.sum_append, List.map_map]
  congr 1
  split_ifs with h
  · congr 1
    apply List.map_congr_left
    intro e _
    simp only [Function.comp_apply]
    have : (a.nr + e.1 = i ∧ a.nc + e.2.1 = j) ↔ (e.1 = i - a.nr ∧ e.2.1 = j - a.nc) := by omega
    simp only [this]
  · apply sum_map_zero
    intro e _
    simp only [Function.comp_apply]
    rw [if_neg (by omega)]

theorem JacOK.cat {n1 n2 m1 m2 : ℕ} {G1 G2 : List ℝ → List ℝ} {x : List ℝ} {A B : Coo}
    (h1 : ∀ y : List ℝ, y.length = n1 → (G1 y).length = m1) (hx : x.length = n1 + n2)
    (hA : JacOK m1 n1 G1 (x.take n1) A) (hB : JacOK m2 n2 G2 (x.drop n1) B) :
    JacOK (m1 + m2) (n1 + n2) (catG n1 G1 G2) x (A.append B) := by
  refine ⟨by simp [Coo.append, hA.nr, hB.nr], by simp [Coo.append, hA.nc, hB.nc], ?_, ?_⟩
  · intro e he
    simp only [Coo.append, List.mem_append, List.mem_map] at he ⊢
    rcases he with he | ⟨e, he, rfl⟩
    · have := hA.inRange e he; omega
    · have := hB.inRange e he
      simp only; omega
  · intro i hi j hj
    rw [toDense_append_shift, hA.nr, hA.nc]
    by_cases h : i < m1
    · rw [D1_cat_left h1 (by omega) h, if_neg (by omega), add_zero]
      split_ifs with hj'
      · exact hA.val i h j hj'
      · apply toDense_zero_of
        intro e he
        have := (hA.inRange e he).2
        rw [hA.nc] at this; right; omega
    · obtain ⟨i, rfl⟩ : ∃ k, i = m1 + k := ⟨i - m1, by omega⟩
      rw [D1_cat_right h1 (by omega) i, toDense_zero_of, zero_add]
      · split_ifs with c1 c2 c2
        · omega
        · rw [Nat.add_sub_cancel_left]
          exact hB.val i (by omega) _ (by omega)
        · rfl
        · omega
      · intro e he
        have := (hA.inRange e he).1
        rw [hA.nr] at this; left; omega

/-- `ms` are the Hessians of `G` at `y`, placed at offset `off` in `full × full` matrices. -/
structure HessAt (off full nv nf : ℕ) (G : List ℝ → List ℝ) (y : List ℝ) (ms : List Coo) : Prop where
  len : ms.length = nv
  ok : ∀ i (h : i < ms.length), ms[i].nr = full ∧ ms[i].nc = full ∧ ms[i].InRange ∧
    ∀ a < full, ∀ b < full, ms[i].toDense a b =
      if off ≤ a ∧ a < off + nf ∧ off ≤ b ∧ b < off + nf then D2 G y i (a - off) (b - off) else 0

theorem hess_offset {off full nv nf : ℕ} {G : List ℝ → List ℝ} {y : List ℝ} {ms : List Coo}
    (h : HessOK nv nf G y ms) (hf : off + nf ≤ full) :
    ∃ ms', ms.mapM (fun m => m.offset off off full full) = .ok ms' ∧
      HessAt off full nv nf G y ms' := by
  have key : ∀ m ∈ ms, m.offset off off full full =
      .ok ⟨full, full, m.entries.map fun e => (e.1 + off, e.2.1 + off, e.2.2)⟩ := by
    intro m hm
    obtain ⟨i, hi, rfl⟩ := List.getElem_of_mem hm
    obtain ⟨g1, g2, g3, _⟩ := h.ok i hi
    unfold Coo.offset Coo.make
    rw [if_pos]
    intro e he
    obtain ⟨e, he', rfl⟩ := List.mem_map.mp he
    have := g3 e he'
    simp only; omega
  refine ⟨_, mapM_ok_of ms key, by simpa using h.len, ?_⟩
  intro i hi
  simp only [List.length_map] at hi
  obtain ⟨g1, g2, g3, g4⟩ := h.ok i hi
  simp only [List.getElem_map]
  refine ⟨trivial, trivial, ?_, ?_⟩
  · intro e he
    obtain ⟨e, he', rfl⟩ := List.mem_map.mp he
    have := g3 e he'
    simp only; omega
  · intro a ha b hb
    split_ifs with hc
    · rw [← g4 _ (by omega) _ (by omega)]
      simp only [Coo.toDense, List.map_map]
      congr 1
      apply List.map_congr_left
      intro e _
      simp only [Function.comp_apply]
      have : (e.1 + off = a ∧ e.2.1 + off = b) ↔ (e.1 = a - off ∧ e.2.1 = b - off) := by omega
      simp only [this]
    · apply toDense_zero_of
      intro e he
      obtain ⟨e, he', rfl⟩ := List.mem_map.mp he
      have := g3 e he'
      simp only; omega

theorem HessAt.cat {off full n1 n2 m1 m2 : ℕ} {G1 G2 : List ℝ → List ℝ} {y : List ℝ}
    {as bs : List Coo} (h1 : ∀ y : List ℝ, y.length = n1 → (G1 y).length = m1)
    (hy : y.length = n1 + n2) (hA : HessAt off full m1 n1 G1 (y.take n1) as)
    (hB : HessAt (off + n1) full m2 n2 G2 (y.drop n1) bs) :
    HessAt off full (m1 + m2) (n1 + n2) (catG n1 G1 G2) y (as ++ bs) := by
  refine ⟨by simp [hA.len, hB.len], ?_⟩
  intro i hi
  by_cases h : i < as.length
  · rw [List.getElem_append_left h]
    obtain ⟨g1, g2, g3, g4⟩ := hA.ok i h
    refine ⟨g1, g2, g3, fun a ha b hb => ?_⟩
    rw [g4 a ha b hb, D2_cat_left h1 (by omega) (by rw [← hA.len]; exact h)]
    split_ifs <;> first | rfl | omega
  · rw [List.getElem_append_right (Nat.le_of_not_lt h)]
    obtain ⟨g1, g2, g3, g4⟩ := hB.ok (i - as.length) (by simp at hi; omega)
    refine ⟨g1, g2, g3, fun a ha b hb => ?_⟩
    rw [g4 a ha b hb]
    obtain ⟨k, rfl⟩ : ∃ k, i = m1 + k := ⟨i - m1, by rw [hA.len] at h; omega⟩
    rw [D2_cat_right h1 (by omega) k, hA.len, Nat.add_sub_cancel_left, Nat.sub_sub, Nat.sub_sub]
    split_ifs <;> first | rfl | omega

/-! ### Dictionaries -/

mutual
theorem Param.smooth_ftvP : ∀ (p : Param), p.WF → Smooth p.freeSize p.vecSize p.ftvP
  | .leaf l, hw => smooth_ftv l.kind hw
  | .dict h es, hw => by
    simp only [Param.WF] at hw
    simp only [Param.freeSize, Param.vecSize]
    rw [hw.2.2.1, hw.2.2.2.1]
    exact Entries.smooth_ftvE es hw.1
theorem Entries.smooth_ftvE : ∀ (es : Entries), es.WF → Smooth es.fsum es.vsum es.ftvE
  | .nil, _ => fun i hi => by simp [Entries.vsum] at hi
  | .cons k p rest, hw => by
    simp only [Entries.WF] at hw
    exact smooth_cat (Param.ftvP_length p hw.1) (Param.smooth_ftvP p hw.1)
      (Entries.smooth_ftvE rest hw.2.2)
end

namespace Param

mutual
theorem jac_ok : ∀ (p : Param), p.WF → p.HasParams → ∀ x : List ℝ, x.length = p.freeSize →
    ∃ p' m, p.jac x = (p', .ok m) ∧ JacOK p.vecSize p.freeSize p.ftvP x m
  | leaf l, hw, _, x, hx => by
    obtain ⟨l', m, h1, h2⟩ := l.jac_ok hw x hx
    exact ⟨leaf l', m, by simp only [jac, h1], h2⟩
  | dict h es, hw, hn, x, hx => by
    simp only [WF] at hw
    simp only [freeSize] at hx
    obtain ⟨es', ms, h1, h2, h3⟩ := jacEntries_ok es hw.1 x 0 (by rw [hx, hw.2.2.1]; simp)
    refine ⟨dict h es', Coo.diag ms, ?_, ?_⟩
    · simp only [jac, h1]
      rw [py_ok_bind, Coo.blockDiag_ok]
      rintro rfl
      cases es with
      | nil => exact hn rfl
      | cons k p rest => simp [Entries.toList] at h2
    · simp only [freeSize, vecSize]
      rw [hw.2.2.1, hw.2.2.2.1]
      exact (by simpa using h3 : JacOK es.vsum es.fsum es.ftvE x (Coo.diag ms))
theorem jacEntries_ok : ∀ (es : Entries), es.WF → ∀ (x : List ℝ) (off : ℕ),
    x.length = off + es.fsum → ∃ es' ms, jacEntries es x off = (es', .ok ms) ∧
      ms.length = es.toList.length ∧ JacOK es.vsum es.fsum es.ftvE (x.drop off) (Coo.diag ms)
  | .nil, _, x, off, _ => ⟨.nil, [], by simp [jacEntries], rfl, rfl, rfl,
      fun e he => by simp [Coo.diag] at he, fun i hi => by simp [Entries.vsum] at hi⟩
  | .cons k p rest, hw, x, off, hx => by
    simp only [Entries.WF] at hw
    simp only [Entries.fsum] at hx
    obtain ⟨p', m, h1, h2⟩ := jac_ok p hw.1 hw.2.1 (Leaf.slice x off p.freeSize)
      (by simp [Leaf.slice]; omega)
    obtain ⟨es', ms, h3, h4, h5⟩ := jacEntries_ok rest hw.2.2 x (off + p.freeSize) (by omega)
    refine ⟨.cons k p' es', m :: ms, ?_, ?_, ?_⟩
    · simp only [jacEntries, h1, h3]
      rfl
    · simp [Entries.toList, h4]
    · rw [← List.drop_drop] at h5
      exact JacOK.cat (ftvP_length p hw.1) (by simp; omega) h2 h5
end

theorem HessAt.hessOK {nv nf : ℕ} {G : List ℝ → List ℝ} {y : List ℝ} {ms : List Coo}
    (h : HessAt 0 nf nv nf G y ms) : HessOK nv nf G y ms := by
  refine ⟨h.len, fun i hi => ?_⟩
  obtain ⟨g1, g2, g3, g4⟩ := h.ok i hi
  refine ⟨g1, g2, g3, fun a ha b hb => ?_⟩
  rw [g4 a ha b hb, if_pos (by omega)]; rfl

mutual
theorem hess_ok : ∀ (p : Param), p.WF → ∀ x : List ℝ, x.length = p.freeSize →
    ∃ p' ms, p.hess x = (p', .ok ms) ∧ HessOK p.vecSize p.freeSize p.ftvP x ms
  | leaf l, hw, x, hx => by
    obtain ⟨l', m, h1, h2⟩ := l.hess_ok hw x hx
    exact ⟨leaf l', m, by simp only [hess, h1], h2⟩
  | dict h es, hw, x, hx => by
    simp only [WF] at hw
    simp only [freeSize] at hx
    obtain ⟨es', ms, h1, h3⟩ := hessEntries_ok h.fs es hw.1 x 0 (by rw [hx, hw.2.2.1]; simp)
      (by rw [hw.2.2.1]; simp)
    refine ⟨dict h es', ms, ?_, ?_⟩
    · simp only [hess, h1]
    · simp only [freeSize, vecSize]
      rw [hw.2.2.2.1]
      rw [hw.2.2.1] at h3 ⊢
      exact HessAt.hessOK (by simpa using h3 : HessAt 0 es.fsum es.vsum es.fsum es.ftvE x ms)
theorem hessEntries_ok (full : ℕ) : ∀ (es : Entries), es.WF → ∀ (x : List ℝ) (off : ℕ),
    x.length = off + es.fsum → off + es.fsum ≤ full →
    ∃ es' ms, hessEntries full es x off = (es', .ok ms) ∧
      HessAt off full es.vsum es.fsum es.ftvE (x.drop off) ms
  | .nil, _, x, off, _, _ => ⟨.nil, [], by simp [hessEntries], rfl, fun i hi => by simp at hi⟩
  | .cons k p rest, hw, x, off, hx, hf => by
    simp only [Entries.WF] at hw
    simp only [Entries.fsum] at hx hf
    obtain ⟨p', ms, h1, h2⟩ := hess_ok p hw.1 (Leaf.slice x off p.freeSize)
      (by simp [Leaf.slice]; omega)
    obtain ⟨ms1, h3, h4⟩ := hess_offset (off := off) (full := full) h2 (by omega)
    obtain ⟨es', ms2, h5, h6⟩ := hessEntries_ok full rest hw.2.2 x (off + p.freeSize) (by omega)
      (by omega)
    refine ⟨.cons k p' es', ms1 ++ ms2, ?_, ?_⟩
    · simp only [hessEntries, h1, py_ok_bind, h3, h5]
      rfl
    · rw [← List.drop_drop] at h6
      exact HessAt.cat (ftvP_length p hw.1) (by simp; omega) h4 h6
end

end Param

/-! ### Blocks of the Jacobian -/

theorem D1_ftvE_block {key : String} : ∀ {es : Entries} (_ : es.WF) {x : List ℝ} {fo vo : ℕ}
    {q : Param} {f v : ℕ} (_ : x.length = fo + es.fsum), es.floc key fo = some (q, f) →
    es.vloc key vo = some (q, v) → ∀ i < q.vecSize, ∀ j < q.freeSize,
    D1 es.ftvE (x.drop fo) (v - vo + i) (f - fo + j) = D1 q.ftvP (Leaf.slice x f q.freeSize) i j
  | .nil, _, _, _, _, _, _, _, _, h, _ => by simp [Entries.floc] at h
  | .cons k p rest, hw, x, fo, vo, q, f, v, hx, hf, hv => by
    intro i hi j hj
    simp only [Entries.WF] at hw
    simp only [Entries.fsum] at hx
    simp only [Entries.floc] at hf
    simp only [Entries.vloc] at hv
    change D1 (catG p.freeSize p.ftvP rest.ftvE) _ _ _ = _
    split_ifs at hf with c
    · rw [if_pos c] at hv
      cases hf; cases hv
      rw [Nat.sub_self, Nat.sub_self, Nat.zero_add, Nat.zero_add,
        D1_cat_left (p.ftvP_length hw.1) (by simp; omega) hi, if_pos hj]
      rfl
    · rw [if_neg c] at hv
      have hl1 := (Entries.floc_le hf).1
      have hl2 := (Entries.vloc_le hv).1
      rw [show v - vo + i = p.vecSize + (v - (vo + p.vecSize) + i) by
          have : vo + p.vecSize ≤ v := hl2
          omega,
        D1_cat_right (p.ftvP_length hw.1) (by simp; omega), if_neg (by
          have : fo + p.freeSize ≤ f := hl1
          omega), List.drop_drop,
        show f - fo + j - p.freeSize = f - (fo + p.freeSize) + j by
          have : fo + p.freeSize ≤ f := hl1
          omega]
      exact D1_ftvE_block hw.2.2 (by omega) hf hv i hi j hj

theorem D1_ftvE_off {k1 k2 : String} (hne : k1 ≠ k2) : ∀ {es : Entries} (_ : es.WF) {x : List ℝ}
    {fo vo : ℕ} {q1 q2 : Param} {f v : ℕ} (_ : x.length = fo + es.fsum),
    es.floc k2 fo = some (q2, f) → es.vloc k1 vo = some (q1, v) →
    ∀ i < q1.vecSize, ∀ j < q2.freeSize,
    D1 es.ftvE (x.drop fo) (v - vo + i) (f - fo + j) = 0
  | .nil, _, _, _, _, _, _, _, _, _, h, _ => by simp [Entries.floc] at h
  | .cons k p rest, hw, x, fo, vo, q1, q2, f, v, hx, hf, hv => by
    intro i hi j hj
    simp only [Entries.WF] at hw
    simp only [Entries.fsum] at hx
    simp only [Entries.floc] at hf
    simp only [Entries.vloc] at hv
    change D1 (catG p.freeSize p.ftvP rest.ftvE) _ _ _ = _
    split_ifs at hf with c
    · rw [if_neg (by rintro rfl; exact hne c)] at hv
      cases hf
      have hl2 : vo + p.vecSize ≤ v := (Entries.vloc_le hv).1
      rw [show v - vo + i = p.vecSize + (v - (vo + p.vecSize) + i) by omega,
        D1_cat_right (p.ftvP_length hw.1) (by simp; omega), if_pos (by omega)]
    · have hl1 : fo + p.freeSize ≤ f := (Entries.floc_le hf).1
      split_ifs at hv with c'
      · cases hv
        rw [Nat.sub_self, Nat.zero_add,
          D1_cat_left (p.ftvP_length hw.1) (by simp; omega) hi, if_neg (by omega)]
      · have hl2 : vo + p.vecSize ≤ v := (Entries.vloc_le hv).1
        rw [show v - vo + i = p.vecSize + (v - (vo + p.vecSize) + i) by omega,
          D1_cat_right (p.ftvP_length hw.1) (by simp; omega), if_neg (by omega), List.drop_drop,
          show f - fo + j - p.freeSize = f - (fo + p.freeSize) + j by omega]
        exact D1_ftvE_off hne hw.2.2 (by omega) hf hv i hi j hj

end LRVB
