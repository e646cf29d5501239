import Verif.Props.Subspace

/-!
# C195: free values of a subspace vector are orthonormal coordinates
-/

namespace LRVB

open Matrix

theorem toVec_dot (n : ℕ) (u v : List ℝ) :
    toVec n u ⬝ᵥ toVec n v = ∑ k ∈ Finset.range n, u.getD k 0 * v.getD k 0 := by
  simp [toVec, dotProduct, Finset.sum_range]

/-- **C195** `set_free` of a subspace vector keeps inner products, after any operations: the inner
product of the vectors held after `set_free(x)` and after `set_free(y)` is that of `x` and `y`. -/
theorem C195_inner_products (eigh : Eigh) (he : EighContract eigh) (name : String) (dim r : ℕ)
    (perp : Arr) (hp : perp.shape = [r, dim]) (val : Option Arr) (l : Leaf)
    (h : mkSubspace eigh name dim val (some perp) = .ok l) (ops ops' : List LeafOp)
    (x y : List ℝ) (hx : x.length = l.freeSize) (hy : y.length = l.freeSize) :
    l.freeSize = dim - r ∧ ∃ lx ly, (l.run ops).setFree x = .ok lx ∧ (l.run ops').setFree y = .ok ly ∧
      ∑ k ∈ Finset.range dim, lx.get.data.getD k 0 * ly.get.data.getD k 0 =
        ∑ k ∈ Finset.range (dim - r), x.getD k 0 * y.getD k 0 := by
  obtain ⟨r', B, hs, hr, hB, hk⟩ := mkSubspace_ok h
  simp only [Option.getD_some] at hs hB
  rw [hp] at hs
  obtain rfl : r = r' := by simpa using hs
  have hleg : ∀ o, (l.run o).kind.Legal := by
    intro o
    rw [(l.run_kind o).1]
    exact constructed_legal he (.subspace h) (by simp [Leaf.HoldsMatrix, hk])
  obtain ⟨f1, -, -⟩ := basis_facts he hB
  refine ⟨by simp [Leaf.freeSize, hk, Kind.freeSize], _, _, Leaf.setFree_ok _ (hleg ops) x ?_,
    Leaf.setFree_ok _ (hleg ops') y ?_, ?_⟩
  · rw [hx]; simp [Leaf.freeSize, (l.run_kind ops).1]
  · rw [hy]; simp [Leaf.freeSize, (l.run_kind ops').1]
  · simp only [Leaf.get, (l.run_kind ops).1, (l.run_kind ops').1, hk, freeVal, Arr.vec]
    rw [← toVec_dot, ← toVec_dot, toVec_matvec, toVec_matvec, Matrix.dotProduct_mulVec,
      Matrix.vecMul_mulVec, f1, Matrix.vecMul_one]

/-- **C195** Distances are kept: moving in the free space moves the held vector as far. -/
theorem C195_distances (eigh : Eigh) (he : EighContract eigh) (name : String) (dim r : ℕ)
    (perp : Arr) (hp : perp.shape = [r, dim]) (val : Option Arr) (l : Leaf)
    (h : mkSubspace eigh name dim val (some perp) = .ok l) (ops ops' : List LeafOp)
    (x y : List ℝ) (lx ly : Leaf) (hx : x.length = l.freeSize) (hy : y.length = l.freeSize)
    (hlx : (l.run ops).setFree x = .ok lx) (hly : (l.run ops').setFree y = .ok ly) :
    ∑ k ∈ Finset.range dim, (lx.get.data.getD k 0 - ly.get.data.getD k 0) ^ 2 =
      ∑ k ∈ Finset.range (dim - r), (x.getD k 0 - y.getD k 0) ^ 2 := by
  obtain ⟨-, a, b, h1, h2, h3⟩ := C195_inner_products eigh he name dim r perp hp val l h ops ops' x y hx hy
  obtain ⟨-, a', b', h1', h2', h3'⟩ := C195_inner_products eigh he name dim r perp hp val l h ops ops x x hx hx
  obtain ⟨-, a'', b'', h1'', h2'', h3''⟩ := C195_inner_products eigh he name dim r perp hp val l h ops' ops' y y hy hy
  rw [hlx] at h1 h1' h2'; rw [hly] at h2 h1'' h2''
  cases h1; cases h2; cases h1'; cases h2'; cases h1''; cases h2''
  have e : ∀ (n : ℕ) (u v : ℕ → ℝ), ∑ k ∈ Finset.range n, (u k - v k) ^ 2 =
      ∑ k ∈ Finset.range n, u k * u k - 2 * ∑ k ∈ Finset.range n, u k * v k +
        ∑ k ∈ Finset.range n, v k * v k := by
    intro n u v
    rw [Finset.mul_sum, ← Finset.sum_sub_distrib, ← Finset.sum_add_distrib]
    exact Finset.sum_congr rfl fun k _ => by ring
  rw [e dim (fun k => lx.get.data.getD k 0) (fun k => ly.get.data.getD k 0),
    e (dim - r) (fun k => x.getD k 0) (fun k => y.getD k 0), h3, h3', h3'']

/-- **C195** For every vector `v` that is set, the sum of squares of `get_free()` is at most that of
`v`, and equal exactly when `v` satisfies the constraints. -/
theorem C195_get_free_contracts (eigh : Eigh) (he : EighContract eigh) (name : String)
    (dim r : ℕ) (perp : Arr) (hp : perp.shape = [r, dim]) (val : Option Arr) (l : Leaf)
    (h : mkSubspace eigh name dim val (some perp) = .ok l) (v : List ℝ) (hv : v.length = dim) :
    ∃ l₁ y, l.set (Arr.vec v) = .ok l₁ ∧ l₁.getFree = .ok y ∧ y.length = dim - r ∧
      ∑ k ∈ Finset.range (dim - r), y.getD k 0 ^ 2 ≤ ∑ k ∈ Finset.range dim, v.getD k 0 ^ 2 ∧
      (∑ k ∈ Finset.range (dim - r), y.getD k 0 ^ 2 = ∑ k ∈ Finset.range dim, v.getD k 0 ^ 2 ↔
        ∀ i < r, rowDot perp dim i v = 0) := by
  obtain ⟨-, hproj⟩ := C31_round_trip_and_projection eigh he name dim r perp hp val l h
  obtain ⟨l₁, y, l₂, u, h1, h2, h3, h4, h5, h6, ⟨c, hc⟩, h7⟩ := hproj v hv
  have hfs : l.freeSize = dim - r ∧ l.freeSize = l₁.freeSize := by
    obtain ⟨r', B, hs, hr, hB, hk⟩ := mkSubspace_ok h
    simp only [Option.getD_some] at hs
    rw [hp] at hs
    obtain rfl : r = r' := by simpa using hs
    refine ⟨by simp [Leaf.freeSize, hk, Kind.freeSize], ?_⟩
    rw [Leaf.set_eq h1]; rfl
  have hl1 : l.run [.set (Arr.vec v)] = l₁ := by
    simp [Leaf.run, Leaf.step, h1]
  have hy : y.length = dim - r := by
    obtain ⟨r', B, hs, hr, hB, hk⟩ := mkSubspace_ok h
    simp only [Option.getD_some] at hs
    rw [hp] at hs
    obtain rfl : r = r' := by simpa using hs
    rw [Leaf.set_eq h1] at h2
    simp only [Leaf.getFree, hk] at h2
    split_ifs at h2
    cases h2
    simp [Leaf.tmatvec]
  obtain ⟨-, a, b, e1, e2, e3⟩ := C195_inner_products eigh he name dim r perp hp val l h
    [.set (Arr.vec v)] [.set (Arr.vec v)] y y (hy.trans hfs.1.symm) (hy.trans hfs.1.symm)
  rw [hl1, h3] at e1 e2
  cases e1; cases e2
  rw [h4] at e3
  have horth : ∑ k ∈ Finset.range dim, u.getD k 0 * (v.getD k 0 - u.getD k 0) = 0 := by
    have : ∀ k ∈ Finset.range dim, u.getD k 0 * (v.getD k 0 - u.getD k 0) =
        ∑ i ∈ Finset.range r, c i * (perp.at2 i k * u.getD k 0) := by
      intro k hk
      rw [hc k (by simpa using hk), Finset.mul_sum]
      exact Finset.sum_congr rfl fun i _ => by ring
    rw [Finset.sum_congr rfl this, Finset.sum_comm]
    refine Finset.sum_eq_zero fun i hi => ?_
    rw [← Finset.mul_sum]
    have := h6 i (by simpa using hi)
    unfold rowDot at this
    rw [this, mul_zero]
  have hpyth : ∑ k ∈ Finset.range dim, v.getD k 0 ^ 2 =
      ∑ k ∈ Finset.range (dim - r), y.getD k 0 ^ 2 +
        ∑ k ∈ Finset.range dim, (v.getD k 0 - u.getD k 0) ^ 2 := by
    have e4 : ∑ k ∈ Finset.range (dim - r), y.getD k 0 ^ 2 = ∑ k ∈ Finset.range dim, u.getD k 0 ^ 2 := by
      simp only [pow_two]
      exact e3.symm
    have e5 : ∑ k ∈ Finset.range dim, v.getD k 0 ^ 2 = ∑ k ∈ Finset.range dim, u.getD k 0 ^ 2 +
        ∑ k ∈ Finset.range dim, (v.getD k 0 - u.getD k 0) ^ 2 +
        2 * ∑ k ∈ Finset.range dim, u.getD k 0 * (v.getD k 0 - u.getD k 0) := by
      rw [Finset.mul_sum, ← Finset.sum_add_distrib, ← Finset.sum_add_distrib]
      exact Finset.sum_congr rfl fun k _ => by ring
    rw [e4, e5, horth]
    ring
  have hnn : 0 ≤ ∑ k ∈ Finset.range dim, (v.getD k 0 - u.getD k 0) ^ 2 :=
    Finset.sum_nonneg fun _ _ => sq_nonneg _
  refine ⟨l₁, y, h1, h2, hy, by linarith, ?_⟩
  rw [← h7]
  constructor
  · intro heq
    have hz : ∑ k ∈ Finset.range dim, (v.getD k 0 - u.getD k 0) ^ 2 = 0 := by linarith
    rw [Finset.sum_eq_zero_iff_of_nonneg fun _ _ => sq_nonneg _] at hz
    apply List.ext_getElem (by rw [h5, hv])
    intro k k1 k2
    have := hz k (by simpa [hv] using k2)
    have := pow_eq_zero_iff (two_ne_zero) |>.mp this
    simp only [List.getD_eq_getElem?_getD, List.getElem?_eq_getElem k1, List.getElem?_eq_getElem k2,
      Option.getD_some] at this
    linarith
  · intro huv
    rw [hpyth, huv]
    simp

example : ∃ eigh, EighContract eigh ∧ ∃ l, mkSubspace eigh "v" 3 none (some (Arr.full [1, 3] 1)) = .ok l ∧
    [1, 2].length = l.freeSize ∧ [0, 5].length = l.freeSize := by
  obtain ⟨eigh, he⟩ := exists_eigh
  obtain ⟨l, h1, h2⟩ := C32_default_construction eigh he "v" 3 (by norm_num)
  exact ⟨eigh, he, l, h1, by rw [h2]; rfl, by rw [h2]; rfl⟩

end LRVB
