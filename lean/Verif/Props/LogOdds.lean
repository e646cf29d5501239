import Verif.Props.Simplex

/-!
# C194: free values of a simplex are log ratios to the first entry of the row
-/

namespace LRVB

theorem mkSimplex_kind {name : String} {r c : ℕ} {val : Option Arr} {l : Leaf}
    (h : mkSimplex name r c val = .ok l) : l.kind = .simplex r c ∧ 0 < c := by
  unfold mkSimplex at h
  cases val with
  | some v =>
    simp only at h
    split_ifs at h with hc
    rw [Leaf.set_eq h]; exact ⟨rfl, Nat.pos_of_ne_zero hc⟩
  | none =>
    simp only at h
    split_ifs at h with hc
    rw [Leaf.set_eq h]; exact ⟨rfl, Nat.pos_of_ne_zero hc⟩

/-- **C194** `set_free(x)`, after any operations: in row `i` the first entry is
`1 / (1 + ∑ exp)` over the free values of that row, and entry `j + 1` is the exponential of the free
value at place `i (c - 1) + j` times the first. -/
theorem C194_set_free_log_odds (name : String) (r c : ℕ) (val : Option Arr) (l : Leaf)
    (h : mkSimplex name r c val = .ok l) (ops : List LeafOp) (x : List ℝ)
    (hx : x.length = (l.run ops).freeSize) :
    x.length = r * (c - 1) ∧ ∃ l', (l.run ops).setFree x = .ok l' ∧ IsMat l'.get r c ∧ ∀ i < r,
      l'.get.at2 i 0 = 1 / (1 + ∑ j ∈ Finset.range (c - 1), Real.exp (x.getD (i * (c - 1) + j) 0)) ∧
      ∀ j < c - 1, l'.get.at2 i (j + 1) = Real.exp (x.getD (i * (c - 1) + j) 0) * l'.get.at2 i 0 := by
  obtain ⟨hk0, hc⟩ := mkSimplex_kind h
  have hk : (l.run ops).kind = .simplex r c := by rw [(Leaf.run_kind _ _).1, hk0]
  obtain ⟨c, rfl⟩ : ∃ c', c = c' + 1 := ⟨c - 1, by omega⟩
  have hx' : x.length = r * c := by simpa [Leaf.freeSize, hk, Kind.freeSize] using hx
  refine ⟨hx', _, Leaf.setFree_ok _ (by rw [hk]; exact hc) x hx, ?_⟩
  simp only [Leaf.get, hk, freeVal, Nat.add_sub_cancel]
  refine ⟨⟨Arr.ofFn2_WF _ _ _, rfl⟩, fun i hi => ⟨?_, fun j hj => ?_⟩⟩
  · rw [simplexMat_soft hi (by omega), Finset.sum_range_succ']
    simp [augment, Arr.at2, add_comm]
  · rw [simplexMat_soft hi (by omega), simplexMat_soft hi (by omega)]
    simp [augment, Arr.at2]
    ring

/-- **C194** Rows are independent: two free vectors with the same values for row `i` give the same
row `i`. -/
theorem C194_rows_independent (name : String) (r c : ℕ) (val : Option Arr) (l : Leaf)
    (h : mkSimplex name r c val = .ok l) (ops : List LeafOp) (x y : List ℝ) (lx ly : Leaf)
    (hx : (l.run ops).setFree x = .ok lx) (hy : (l.run ops).setFree y = .ok ly)
    (i : ℕ) (hi : i < r)
    (hxy : ∀ j < c - 1, x.getD (i * (c - 1) + j) 0 = y.getD (i * (c - 1) + j) 0) :
    ∀ j < c, lx.get.at2 i j = ly.get.at2 i j := by
  have hk : (l.run ops).kind = .simplex r c := by rw [(Leaf.run_kind _ _).1, (mkSimplex_kind h).1]
  have hlen : ∀ z lz, (l.run ops).setFree z = .ok lz → z.length = (l.run ops).freeSize := by
    intro z lz hz
    simp only [Leaf.setFree, hk] at hz
    split_ifs at hz with hc
    simpa [Leaf.freeSize, hk, Kind.freeSize] using hc
  obtain ⟨-, l1, e1, -, f1⟩ := C194_set_free_log_odds name r c val l h ops x (hlen _ _ hx)
  obtain ⟨-, l2, e2, -, f2⟩ := C194_set_free_log_odds name r c val l h ops y (hlen _ _ hy)
  rw [hx] at e1; rw [hy] at e2
  cases e1; cases e2
  have h0 : lx.get.at2 i 0 = ly.get.at2 i 0 := by
    rw [(f1 i hi).1, (f2 i hi).1]
    congr 2
    exact Finset.sum_congr rfl fun j hj => by rw [hxy j (by simpa using hj)]
  intro j hj
  cases j with
  | zero => exact h0
  | succ j => rw [(f1 i hi).2 j (by omega), (f2 i hi).2 j (by omega), hxy j (by omega), h0]

/-- **C194** `get_free()`: whenever it returns, the value at place `i (c - 1) + j` is the logarithm
of the ratio of entry `j + 1` of row `i` to its first entry. -/
theorem C194_get_free_log_odds (l : Leaf) (r c : ℕ) (hk : l.kind = .simplex r c)
    (hm : IsMat l.get r c) (x : List ℝ) (h : l.getFree = .ok x) :
    x.length = r * (c - 1) ∧ ∀ i < r, ∀ j < c - 1,
      x.getD (i * (c - 1) + j) 0 = Real.log (l.get.at2 i (j + 1) / l.get.at2 i 0) := by
  have hm' : l.val.shape = [r, c] := hm.2
  simp only [Leaf.getFree, hk] at h
  unfold unconstrainSimplexMatrix at h
  rw [hm'] at h
  cases c with
  | zero => cases h
  | succ c =>
    simp only at h
    split_ifs at h with hp
    · rw [py_ok_bind] at h
      have h := Except.ok.inj h
      subst h
      refine ⟨by simp [Arr.ofFn2], fun i hi j hj => ?_⟩
      simp only [Nat.add_sub_cancel] at hj ⊢
      have := Arr.at2_ofFn2 (r := r) (c := c)
        (fun i j => Real.log (l.val.at2 i (j + 1)) - Real.log (l.val.at2 i 0)) hi hj
      rw [Leaf.get, Real.log_div (hp i hi _ (by omega)).ne' (hp i hi _ (by omega)).ne', ← this]
      rfl
    · cases h

example : ∃ l : Leaf, l.kind = .simplex 1 2 ∧ IsMat l.get 1 2 ∧ l.getFree = .ok [Real.log (1 / 4) - Real.log (3 / 4)] := by
  refine ⟨⟨"p", .simplex 1 2, ⟨[1, 2], [3 / 4, 1 / 4]⟩, false⟩, rfl, ⟨rfl, rfl⟩, ?_⟩
  have hp : ∀ i < 1, ∀ j < 1 + 1, 0 < (⟨[1, 2], [3 / 4, 1 / 4]⟩ : Arr).at2 i j := by
    intro i hi j hj
    interval_cases i
    interval_cases j <;> norm_num [Arr.at2]
  simp only [Leaf.getFree, unconstrainSimplexMatrix, if_pos hp, py_ok_bind]
  simp [Arr.ofFn2, Arr.at2]

example : ∃ l : Leaf, mkSimplex "p" 2 3 none = .ok l ∧
    [1, 2, 3, 4].length = (l.run [.setFree [0, 0, 0, 0]]).freeSize := by
  refine ⟨⟨"p", .simplex 2 3, Arr.full [2, 3] (1 / 3), false⟩, by simp [mkSimplex, Leaf.set, Arr.full], ?_⟩
  unfold Leaf.freeSize
  rw [(Leaf.run_kind _ _).1]
  rfl

end LRVB
