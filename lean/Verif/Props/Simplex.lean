import Verif.Lemmas.Reach

/-!
# C25, C26: the simplex transform
-/

namespace LRVB

theorem constrainSimplexMatrix_ok {r c : ℕ} {x : List ℝ} :
    constrainSimplexMatrix ⟨[r, c], x⟩ = .ok (simplexMat r (c + 1) x) := rfl

theorem simplexMat_soft {r c : ℕ} {x : List ℝ} {i j : ℕ} (hi : i < r) (hj : j < c) :
    (simplexMat r c x).at2 i j = Real.exp (augment ⟨[r, c - 1], x⟩ i j) /
      ∑ k ∈ Finset.range c, Real.exp (augment ⟨[r, c - 1], x⟩ i k) := by
  rw [simplexMat_at hi hj, Real.exp_sub, Real.exp_log]
  exact Finset.sum_pos (fun _ _ => Real.exp_pos _) ⟨j, by simpa using hj⟩

/-- **C25** For every free matrix with `r` rows and `c` columns, the constrained matrix has `r` rows
and `c + 1` columns, all entries are strictly positive and every row sums to one. -/
theorem C25_rows_on_simplex (r c : ℕ) (free : Arr) (h : IsMat free r c) :
    ∃ m, constrainSimplexMatrix free = .ok m ∧ IsMat m r (c + 1) ∧
      (∀ i < r, ∀ j < c + 1, 0 < m.at2 i j) ∧
      ∀ i < r, ∑ j ∈ Finset.range (c + 1), m.at2 i j = 1 := by
  obtain ⟨sh, x⟩ := free
  obtain ⟨hwf, hs⟩ := h
  simp only at hs
  subst hs
  refine ⟨_, constrainSimplexMatrix_ok, ⟨Arr.ofFn2_WF _ _ _, rfl⟩, ?_, ?_⟩
  · intro i hi j hj
    rw [simplexMat_at hi hj]
    exact Real.exp_pos _
  · intro i hi
    rw [Finset.sum_congr rfl fun j hj => simplexMat_soft hi (by simpa using hj), ← Finset.sum_div]
    apply div_self
    exact (Finset.sum_pos (fun _ _ => Real.exp_pos _) ⟨0, by simp⟩).ne'

/-- **C25** at the level of the parameter: after `set_free(x)` every row of the held matrix lies on
the open simplex. -/
theorem C25_parameter_rows_on_simplex (name : String) (r c : ℕ) (val : Option Arr) (l : Leaf)
    (h : mkSimplex name r c val = .ok l) (x : List ℝ) (hx : x.length = l.freeSize) :
    ∃ l', l.setFree x = .ok l' ∧ IsMat l'.get r c ∧ (∀ i < r, ∀ j < c, 0 < l'.get.at2 i j) ∧
      ∀ i < r, ∑ j ∈ Finset.range c, l'.get.at2 i j = 1 := by
  have hk : l.kind = .simplex r c ∧ 0 < c := by
    unfold mkSimplex at h
    cases val with
    | some v =>
      simp only at h
      split_ifs at h with hc
      rw [Leaf.set_eq h]; exact ⟨rfl, Nat.pos_of_ne_zero hc⟩
    | none =>
      simp only at h
      split_ifs at h with hc
      rw [Leaf.set_eq h]; exact ⟨rfl, Nat.pos_of_ne_zero hc⟩
  obtain ⟨hk, hc⟩ := hk
  obtain ⟨c, rfl⟩ : ∃ c', c = c' + 1 := ⟨c - 1, by omega⟩
  have hx' : x.length = r * c := by simpa [Leaf.freeSize, hk, Kind.freeSize] using hx
  obtain ⟨m, h1, h2, h3, h4⟩ := C25_rows_on_simplex r c ⟨[r, c], x⟩ ⟨by simp [Arr.WF, hx'], rfl⟩
  rw [constrainSimplexMatrix_ok] at h1
  have h1 := Except.ok.inj h1
  subst h1
  refine ⟨_, Leaf.setFree_ok l (by rw [hk]; exact hc) x hx, ?_⟩
  simp only [Leaf.get, hk, freeVal]
  exact ⟨h2, h3, h4⟩

example : ∃ l, mkSimplex "p" 2 3 none = .ok l ∧ l.freeSize = 4 :=
  ⟨⟨"p", .simplex 2 3, Arr.full [2, 3] (1 / 3), false⟩, by simp [mkSimplex, Leaf.set, Arr.full], rfl⟩

/-- **C26** Unconstraining the constrained form of any free matrix returns it. -/
theorem C26_unconstrain_constrain (r c : ℕ) (free : Arr) (h : IsMat free r c) :
    (constrainSimplexMatrix free >>= unconstrainSimplexMatrix) = .ok free := by
  obtain ⟨sh, x⟩ := free
  obtain ⟨hwf, hs⟩ := h
  simp only at hs
  subst hs
  rw [constrainSimplexMatrix_ok, py_ok_bind, unconstrain_simplexMat (Nat.succ_pos c)]
  · rfl
  · simpa [Arr.WF] using hwf

/-- **C26** Constraining the unconstrained form of any matrix whose rows are positive and sum to one
returns it. -/
theorem C26_constrain_unconstrain (r c : ℕ) (m : Arr) (h : IsMat m r (c + 1))
    (hpos : ∀ i < r, ∀ j < c + 1, 0 < m.at2 i j)
    (hsum : ∀ i < r, ∑ j ∈ Finset.range (c + 1), m.at2 i j = 1) :
    (unconstrainSimplexMatrix m >>= constrainSimplexMatrix) = .ok m := by
  have h1 : unconstrainSimplexMatrix m =
      .ok (Arr.ofFn2 r c fun i j => Real.log (m.at2 i (j + 1)) - Real.log (m.at2 i 0)) := by
    unfold unconstrainSimplexMatrix
    rw [h.2]
    simp only
    rw [if_pos hpos]
  rw [h1, py_ok_bind]
  unfold constrainSimplexMatrix
  simp only [Arr.ofFn2_shape]
  congr 1
  symm
  apply Arr.ext2_ofFn2 h.1 h.2
  intro i hi j hj
  have haug : ∀ k < c + 1, augment (Arr.ofFn2 r c fun i j =>
      Real.log (m.at2 i (j + 1)) - Real.log (m.at2 i 0)) i k =
      Real.log (m.at2 i k) - Real.log (m.at2 i 0) := by
    intro k hk
    unfold augment
    by_cases h0 : k = 0
    · subst h0; simp
    · rw [if_neg h0, Arr.at2_ofFn2 _ _ _ hi (by omega)]
      rw [show k - 1 + 1 = k by omega]
  have hexp : ∀ k < c + 1, Real.exp (Real.log (m.at2 i k) - Real.log (m.at2 i 0)) =
      m.at2 i k / m.at2 i 0 := by
    intro k hk
    rw [Real.exp_sub, Real.exp_log (hpos i hi k hk), Real.exp_log (hpos i hi 0 (by omega))]
  have h0 := hpos i hi 0 (by omega)
  rw [Finset.sum_congr rfl fun k hk => by
    rw [haug k (by simpa using hk), hexp k (by simpa using hk)], ← Finset.sum_div, hsum i hi,
    haug j hj, Real.exp_sub, hexp j hj, Real.exp_log (by positivity)]
  field_simp

example : IsMat (Arr.full [1, 2] (1 / 2)) 1 2 ∧ ∀ i < 1, ∀ j < 1 + 1, 0 < (Arr.full [1, 2] (1 / 2)).at2 i j := by
  refine ⟨⟨by simp [Arr.WF, Arr.full], rfl⟩, ?_⟩
  intro i hi j hj
  interval_cases i
  interval_cases j <;> simp [Arr.at2, Arr.full]

end LRVB
