import Verif.Lemmas.Deriv

namespace LRVB

open Flt

/-! ### Positive definite matrices -/

theorem lowerVec_getD {n i : ℕ} (h : i < vecSizeOf n) :
    ∃ p q, q ≤ p ∧ p < n ∧ ∀ m : Arr, (lowerVec n m).getD i 0 = m.at2 p q := by
  have hl : i < (trilIndices n).length := by simpa [vecSizeOf_eq] using h
  refine ⟨(trilIndices n)[i].1, (trilIndices n)[i].2, ?_, ?_, ?_⟩
  · exact (mem_trilIndices.mp (List.getElem_mem hl)).1
  · exact (mem_trilIndices.mp (List.getElem_mem hl)).2
  · intro m
    simp [lowerVec, List.getD_eq_getElem?_getD, List.getElem?_eq_getElem hl]

/-- The Cholesky factor of a free vector given as a function. -/
noncomputable def cholFn (N : ℕ) (v : Fin N → ℝ) (i j : ℕ) : ℝ :=
  let V := fun k => if h : k < N then v ⟨k, h⟩ else 0
  if j < i then V (symIndex i j)
  else if j = i then Real.exp (V (symIndex i i))
  else 0

theorem cholFn_eq {N : ℕ} {x : List ℝ} (hx : x.length = N) (i j : ℕ) :
    freeChol x i j = cholFn N (toVec N x) i j := by
  have : ∀ k, x.getD k 0 = if h : k < N then toVec N x ⟨k, h⟩ else 0 := by
    intro k
    split_ifs with h
    · rfl
    · have : x.length ≤ k := by omega
      simp [List.getD_eq_getElem?_getD, List.getElem?_eq_none this]
  simp only [freeChol, cholFn, this]

theorem cholFn_smooth (N i j : ℕ) : ContDiff ℝ 2 (fun v : Fin N → ℝ => cholFn N v i j) := by
  have : ∀ k, ContDiff ℝ 2 (fun v : Fin N → ℝ => if h : k < N then v ⟨k, h⟩ else 0) := by
    intro k
    by_cases h : k < N
    · simp only [h, dite_true]; exact contDiff_apply ℝ ℝ _
    · simp only [h, dite_false]; exact contDiff_const
  unfold cholFn
  by_cases h1 : j < i
  · simp only [h1, if_true]
    exact this _
  · by_cases h2 : j = i
    · simp only [h2, if_true, if_false, lt_irrefl]
      exact Real.contDiff_exp.comp (this _)
    · simp only [h1, h2, if_false]
      exact contDiff_const

theorem smooth_posdef (n : ℕ) (d : ℝ) :
    Smooth (vecSizeOf n) (vecSizeOf n) (fun y => lowerVec n (unpackMat n y d)) := by
  intro i hi
  obtain ⟨p, q, hpq, hp, h⟩ := lowerVec_getD hi
  refine ⟨fun v => (∑ k ∈ Finset.range n, cholFn (vecSizeOf n) v p k * cholFn (vecSizeOf n) v q k) +
    (if p = q then d else 0), ?_, ?_⟩
  · exact (ContDiff.sum fun k _ => (cholFn_smooth _ p k).mul (cholFn_smooth _ q k)).add contDiff_const
  · intro x hx
    rw [h, unpackMat, Arr.at2_ofFn2 _ _ _ hp (by omega)]
    congr 1
    apply Finset.sum_congr rfl
    intro k _
    rw [cholFn_eq hx, cholFn_eq hx]

/-- The diagonal bound shifts the vector by a constant. -/
theorem posdef_shift {n i : ℕ} (hi : i < vecSizeOf n) (d : ℝ) : ∃ c : ℝ, ∀ y : List ℝ,
    (lowerVec n (unpackMat n y d)).getD i 0 = (lowerVec n (unpackMat n y 0)).getD i 0 + c := by
  obtain ⟨p, q, hpq, hp, h⟩ := lowerVec_getD hi
  refine ⟨if p = q then d else 0, fun y => ?_⟩
  rw [h, h, unpackMat, unpackMat, Arr.at2_ofFn2 _ _ _ hp (by omega), Arr.at2_ofFn2 _ _ _ hp (by omega)]
  simp

theorem D1_posdef_shift {n i : ℕ} (hi : i < vecSizeOf n) (d : ℝ) (y : List ℝ) (j : ℕ) :
    D1 (fun y => lowerVec n (unpackMat n y d)) y i j =
      D1 (fun y => lowerVec n (unpackMat n y 0)) y i j := by
  obtain ⟨c, hc⟩ := posdef_shift hi d
  simp only [D1, hc, deriv_add_const]

theorem D2_posdef_shift {n i : ℕ} (hi : i < vecSizeOf n) (d : ℝ) (y : List ℝ) (a b : ℕ) :
    D2 (fun y => lowerVec n (unpackMat n y d)) y i a b =
      D2 (fun y => lowerVec n (unpackMat n y 0)) y i a b := by
  simp only [D2, D1_posdef_shift hi d]

/-! ### Block functions -/

/-- Apply `G1` to each block. -/
def blockG (G1 : List ℝ → List ℝ) (len k : ℕ) (x : List ℝ) : List ℝ := (blocks x len k).flatMap G1

section Blocks

variable {G1 : List ℝ → List ℝ} {len k m1 : ℕ} {x : List ℝ}

theorem blockG_getD (hG : ∀ y : List ℝ, y.length = k → (G1 y).length = m1) (hx : x.length = k * len)
    {r a : ℕ} (hr : r < len) (ha : a < m1) :
    (blockG G1 len k x).getD (r * m1 + a) 0 = (G1 (Leaf.slice x (k * r) k)).getD a 0 := by
  have hc : ∀ b ∈ (blocks x len k).map G1, b.length = m1 := by
    intro b hb
    obtain ⟨y, hy, rfl⟩ := List.mem_map.mp hb
    exact hG y (mem_blocks_length hx hy)
  have hrl : r < ((blocks x len k).map G1).length := by simpa using hr
  have h1 := flatten_block_const _ _ hc r hrl
  rw [blockG, List.flatMap_def]
  have h2 : ((blocks x len k).map G1)[r] = G1 (Leaf.slice x (k * r) k) := by simp [blocks]
  rw [h2] at h1
  have h3 : (G1 (Leaf.slice x (k * r) k)).getD a 0 =
      ((((blocks x len k).map G1).flatten.drop (r * m1)).take m1).getD a 0 := by rw [h1]
  rw [h3]
  simp [List.getD_eq_getElem?_getD, ha, List.getElem?_drop]

theorem blockG_length (hG : ∀ y : List ℝ, y.length = k → (G1 y).length = m1)
    (hx : x.length = k * len) : (blockG G1 len k x).length = len * m1 := by
  rw [blockG, List.flatMap_def, flatten_length_const _ m1]
  · simp
  · intro b hb
    obtain ⟨y, hy, rfl⟩ := List.mem_map.mp hb
    exact hG y (mem_blocks_length hx hy)

theorem slice_getD {o b : ℕ} (hb : b < k) : (Leaf.slice x o k).getD b 0 = x.getD (o + b) 0 := by
  simp [Leaf.slice, List.getD_eq_getElem?_getD, hb, List.getElem?_drop]

theorem slice_set_same {r b : ℕ} (hb : b < k) (s : ℝ) :
    Leaf.slice (x.set (r * k + b) s) (k * r) k = (Leaf.slice x (k * r) k).set b s := by
  apply List.ext_getElem?
  intro i
  by_cases hi : i < k
  · simp only [Leaf.slice, List.getElem?_take, hi, if_true, List.getElem?_drop, List.getElem?_set,
      List.length_take, List.length_drop, Nat.mul_comm k r]
    by_cases h : b = i
    · subst h
      by_cases hl : r * k + b < x.length
      · have : b < k ⊓ (x.length - r * k) := by
          rw [lt_min_iff]; omega
        simp [hl, this]
      · have : ¬ b < k ⊓ (x.length - r * k) := by
          rw [lt_min_iff]; omega
        simp [hl, this]
    · simp [h]
  · have h1 : ¬ i < k := hi
    rw [List.getElem?_eq_none, List.getElem?_eq_none]
    · simp [Leaf.slice]; omega
    · simp [Leaf.slice]; omega

theorem slice_set_other {r r' b : ℕ} (hb : b < k) (hr : r ≠ r') (s : ℝ) :
    Leaf.slice (x.set (r' * k + b) s) (k * r) k = Leaf.slice x (k * r) k := by
  apply List.ext_getElem?
  intro i
  by_cases hi : i < k
  · simp only [Leaf.slice, List.getElem?_take, hi, if_true, List.getElem?_drop]
    rw [List.getElem?_set_ne]
    intro hc
    rw [Nat.mul_comm k r] at hc
    rcases Nat.lt_or_gt_of_ne hr with h | h
    · have : (r + 1) * k ≤ r' * k := Nat.mul_le_mul_right k h
      rw [Nat.add_mul] at this; omega
    · have : (r' + 1) * k ≤ r * k := Nat.mul_le_mul_right k h
      rw [Nat.add_mul] at this; omega
  · simp [Leaf.slice, hi]

theorem D1_blockG (hG : ∀ y : List ℝ, y.length = k → (G1 y).length = m1) (hx : x.length = k * len)
    {r a r' b : ℕ} (hr : r < len) (ha : a < m1) (hb : b < k) :
    D1 (blockG G1 len k) x (r * m1 + a) (r' * k + b) =
      if r = r' then D1 G1 (Leaf.slice x (k * r) k) a b else 0 := by
  unfold D1
  have : ∀ s, (blockG G1 len k (x.set (r' * k + b) s)).getD (r * m1 + a) 0 =
      (G1 (Leaf.slice (x.set (r' * k + b) s) (k * r) k)).getD a 0 := fun s =>
    blockG_getD hG (by simpa using hx) hr ha
  simp only [this]
  split_ifs with h
  · subst h
    simp only [slice_set_same hb, slice_getD hb]
    rw [Nat.mul_comm k r]
  · simp only [slice_set_other hb h, deriv_const]

theorem D2_blockG (hG : ∀ y : List ℝ, y.length = k → (G1 y).length = m1) (hx : x.length = k * len)
    {r a r1 b1 r2 b2 : ℕ} (hr : r < len) (ha : a < m1) (hb1 : b1 < k) (hb2 : b2 < k) :
    D2 (blockG G1 len k) x (r * m1 + a) (r1 * k + b1) (r2 * k + b2) =
      if r = r1 ∧ r = r2 then D2 G1 (Leaf.slice x (k * r) k) a b1 b2 else 0 := by
  unfold D2
  have : ∀ s, D1 (blockG G1 len k) (x.set (r2 * k + b2) s) (r * m1 + a) (r1 * k + b1) =
      if r = r1 then D1 G1 (Leaf.slice (x.set (r2 * k + b2) s) (k * r) k) a b1 else 0 := fun s =>
    D1_blockG hG (by simpa using hx) hr ha hb1
  simp only [this]
  by_cases h1 : r = r1
  · by_cases h2 : r = r2
    · subst h1 h2
      simp only [slice_set_same hb2, slice_getD hb2, and_self, if_true]
      rw [Nat.mul_comm k r]
    · simp only [slice_set_other hb2 h2, deriv_const, h2, and_false, if_false]
  · simp [h1]

theorem smooth_blockG (hG : ∀ y : List ℝ, y.length = k → (G1 y).length = m1)
    (hS : Smooth k m1 G1) : Smooth (k * len) (len * m1) (blockG G1 len k) := by
  intro i hi
  have hm : 0 < m1 := by
    rcases Nat.eq_zero_or_pos m1 with h | h
    · subst h; simp at hi
    · exact h
  have hr : i / m1 < len := Nat.div_lt_of_lt_mul (by rwa [Nat.mul_comm] at hi)
  have ha : i % m1 < m1 := Nat.mod_lt _ hm
  have hi' : i / m1 * m1 + i % m1 = i := by rw [Nat.mul_comm]; exact Nat.div_add_mod i m1
  obtain ⟨g, hg, hG1⟩ := hS _ ha
  have hlt : ∀ b : Fin k, k * (i / m1) + b < k * len := by
    intro b
    have : k * (i / m1 + 1) ≤ k * len := Nat.mul_le_mul_left k hr
    have := b.2
    rw [Nat.mul_add] at *; omega
  refine ⟨fun v => g fun b => v ⟨k * (i / m1) + b, hlt b⟩, ?_, ?_⟩
  · exact hg.comp (contDiff_pi.mpr fun b => contDiff_apply ℝ ℝ _)
  · intro x hx
    conv_lhs => rw [← hi']
    rw [blockG_getD hG hx hr ha, hG1 _ (slice_length hx hr)]
    congr 1
    funext b
    simp only [toVec]
    rw [slice_getD b.2]

end Blocks

/-! ### Dense form of block matrices -/

theorem toDense_append (nr nc : ℕ) (xs ys : List (ℕ × ℕ × ℝ)) (i j : ℕ) :
    (⟨nr, nc, xs ++ ys⟩ : Coo).toDense i j =
      (⟨nr, nc, xs⟩ : Coo).toDense i j + (⟨nr, nc, ys⟩ : Coo).toDense i j := by
  simp [Coo.toDense]

theorem toDense_flatMap {α : Type} (nr nc : ℕ) (l : List α) (f : α → List (ℕ × ℕ × ℝ)) (i j : ℕ) :
    (⟨nr, nc, l.flatMap f⟩ : Coo).toDense i j =
      (l.map fun a => (⟨nr, nc, f a⟩ : Coo).toDense i j).sum := by
  induction l with
  | nil => simp [Coo.toDense]
  | cons a t ih => rw [List.flatMap_cons, toDense_append, ih]; simp

theorem sum_range_ite {n : ℕ} {i : ℕ} (hi : i < n) (f : ℕ → ℝ) :
    ((List.range n).map fun a => if a = i then f a else 0).sum = f i := by
  rw [show ((List.range n).map fun a => if a = i then f a else 0).sum =
    ∑ a ∈ Finset.range n, if a = i then f a else 0 from rfl]
  rw [Finset.sum_ite_eq' (Finset.range n) i f]
  simp [hi]

theorem sum_map_zero {α : Type} (l : List α) (f : α → ℝ) (h : ∀ a ∈ l, f a = 0) : (l.map f).sum = 0 := by
  induction l with
  | nil => rfl
  | cons a t ih => simp [h a (by simp), ih fun b hb => h b (by simp [hb])]

/-- Entries of one dense block. -/
theorem toDense_block (NR NC o p nr nc : ℕ) (f : ℕ → ℕ → ℝ) {a b : ℕ} (ha : a < nr) (hb : b < nc) :
    (⟨NR, NC, Leaf.blockEntries (o + ·) (p + ·) nr nc f⟩ : Coo).toDense (o + a) (p + b) = f a b := by
  rw [Leaf.blockEntries, toDense_flatMap]
  have : ∀ a' ∈ List.range nr, (⟨NR, NC, (List.range nc).map fun b' => (o + a', p + b', f a' b')⟩ : Coo).toDense
      (o + a) (p + b) = if a' = a then f a' b else 0 := by
    intro a' _
    rw [Coo.toDense, List.map_map]
    by_cases h : a' = a
    · subst h
      rw [if_pos rfl, ← sum_range_ite hb (fun b => f a' b)]
      congr 1
      apply List.map_congr_left
      intro b' _
      simp
    · rw [if_neg h]
      apply sum_map_zero
      intro b' _
      simp [h]
  rw [List.map_congr_left this, sum_range_ite ha (fun a => f a b)]

theorem toDense_block_zero (NR NC o p nr nc : ℕ) (f : ℕ → ℕ → ℝ) {i j : ℕ}
    (h : i < o ∨ o + nr ≤ i ∨ j < p ∨ p + nc ≤ j) :
    (⟨NR, NC, Leaf.blockEntries (o + ·) (p + ·) nr nc f⟩ : Coo).toDense i j = 0 := by
  rw [Leaf.blockEntries, toDense_flatMap]
  apply sum_map_zero
  intro a ha
  rw [Coo.toDense, List.map_map]
  apply sum_map_zero
  intro b hb
  simp only [List.mem_range] at ha hb
  simp only [Function.comp_apply, ite_eq_right_iff, and_imp]
  intro h1 h2
  omega

theorem block_ne {r r' k a : ℕ} (h : r ≠ r') (ha : a < k) :
    r * k + a < r' * k ∨ r' * k + k ≤ r * k + a := by
  rcases Nat.lt_or_gt_of_ne h with h | h
  · left
    have : (r + 1) * k ≤ r' * k := Nat.mul_le_mul_right k h
    rw [Nat.add_mul] at this; omega
  · right
    have : (r' + 1) * k ≤ r * k := Nat.mul_le_mul_right k h
    rw [Nat.add_mul] at this; omega

/-- Entries of a block-diagonal matrix assembled block by block. -/
theorem toDense_blocks (NR NC len m1 k : ℕ) (f : ℕ → ℕ → ℕ → ℝ) {r a r' b : ℕ} (hr : r < len)
    (ha : a < m1) (hb : b < k) :
    (⟨NR, NC, (List.range len).flatMap fun row =>
      Leaf.blockEntries (row * m1 + ·) (row * k + ·) m1 k (f row)⟩ : Coo).toDense
      (r * m1 + a) (r' * k + b) = if r = r' then f r a b else 0 := by
  rw [toDense_flatMap]
  have : ∀ row ∈ List.range len, (⟨NR, NC, Leaf.blockEntries (row * m1 + ·) (row * k + ·) m1 k (f row)⟩ :
      Coo).toDense (r * m1 + a) (r' * k + b) =
      if row = r then (if row = r' then f row a b else 0) else 0 := by
    intro row _
    by_cases h : row = r
    · subst h
      rw [if_pos rfl]
      by_cases h' : row = r'
      · subst h'
        rw [if_pos rfl, toDense_block _ _ _ _ _ _ _ ha hb]
      · rw [if_neg h', toDense_block_zero]
        rcases block_ne (Ne.symm h') hb with h | h <;> omega
    · rw [if_neg h, toDense_block_zero]
      rcases block_ne (Ne.symm h) ha with h | h <;> omega
  rw [List.map_congr_left this, sum_range_ite hr (fun row => if row = r' then f row a b else 0)]

/-- Entries of `coo_matrix(dense)`. -/
theorem toDense_ofDense (nr nc : ℕ) (f : ℕ → ℕ → ℝ) {i j : ℕ} (hi : i < nr) (hj : j < nc) :
    (Coo.ofDense nr nc f).toDense i j = f i j := by
  have h1 : ∀ es : List (ℕ × ℕ × ℝ), (⟨nr, nc, es.filter fun e => decide (e.2.2 ≠ 0)⟩ : Coo).toDense i j =
      (⟨nr, nc, es⟩ : Coo).toDense i j := by
    intro es
    induction es with
    | nil => rfl
    | cons e t ih =>
      simp only [Coo.toDense] at ih ⊢
      rw [List.filter_cons]
      by_cases h : e.2.2 = 0
      · simp [h] at ih ⊢; exact ih
      · simp [h] at ih ⊢; exact ih
  rw [Coo.ofDense, h1]
  have := toDense_block nr nc 0 0 nr nc f hi hj
  simpa [Leaf.blockEntries] using this

end LRVB
