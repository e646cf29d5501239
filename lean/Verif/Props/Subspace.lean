import Verif.Lemmas.Reach
import Mathlib.LinearAlgebra.Matrix.Rank
import Mathlib.LinearAlgebra.Matrix.DotProduct

/-!
# C30–C32: vectors in a linear subspace

`EighContract eigh`: `eigh` returns some orthonormal eigendecomposition of every symmetric matrix
(any choice of eigenvectors).
-/

namespace LRVB

open Matrix

/-- Row `i` of the constraint matrix applied to a vector. -/
def rowDot (p : Arr) (dim i : ℕ) (v : List ℝ) : ℝ :=
  ∑ k ∈ Finset.range dim, p.at2 i k * v.getD k 0

theorem mkSubspace_ok {eigh : Eigh} {name : String} {dim : ℕ} {val perp : Option Arr} {l : Leaf}
    (h : mkSubspace eigh name dim val perp = .ok l) :
    ∃ r B, (perp.getD (Arr.full [1, dim] 1)).shape = [r, dim] ∧ r < dim ∧
      getPerpendicularSubspace eigh r dim (perp.getD (Arr.full [1, dim] 1)) = .ok B ∧
      l.kind = .subspace dim (dim - r) B := by
  unfold mkSubspace at h
  simp only at h
  split at h
  · next r c hs =>
    split_ifs at h with h1 h2
    have h1 : c = dim := not_not.mp h1
    subst h1
    obtain ⟨B, hB, h⟩ := py_bind_ok h
    exact ⟨r, B, hs, by omega, hB, by rw [Leaf.set_eq h]⟩
  · cases h

/-- The basis as a Mathlib matrix. -/
theorem basis_facts {eigh : Eigh} (he : EighContract eigh) {r d : ℕ} {x B : Arr}
    (h : getPerpendicularSubspace eigh r d x = .ok B) :
    (toMatrix d (d - r) B)ᵀ * toMatrix d (d - r) B = 1 ∧
    toMatrix d (d - r) B * (toMatrix d (d - r) B)ᵀ =
      1 - (toMatrix r d x)ᵀ * ((toMatrix r d x * (toMatrix r d x)ᵀ)⁻¹ * toMatrix r d x) ∧
    toMatrix r d x * toMatrix d (d - r) B = 0 := by
  obtain ⟨hdet, _, _, h1, h2⟩ := perpendicular_ok he h
  set b := toMatrix d (d - r) B
  have e1 : bᵀ * b = 1 := by
    ext i j
    rw [Matrix.mul_apply, Matrix.one_apply]
    have := h1 i i.2 j j.2
    rw [Finset.sum_range] at this
    simpa [b, toMatrix, Fin.ext_iff] using this
  have e2 : b * bᵀ =
      1 - (toMatrix r d x)ᵀ * ((toMatrix r d x * (toMatrix r d x)ᵀ)⁻¹ * toMatrix r d x) := by
    ext i j
    rw [Matrix.mul_apply, ← h2 i j, Finset.sum_range]
    rfl
  refine ⟨e1, e2, ?_⟩
  calc toMatrix r d x * b = toMatrix r d x * (b * bᵀ) * b := by
        rw [Matrix.mul_assoc, Matrix.mul_assoc, e1, Matrix.mul_one]
    _ = 0 := by rw [e2, mul_perp hdet, Matrix.zero_mul]

/-- A list as a Mathlib vector. -/
def toVec (n : ℕ) (v : List ℝ) : Fin n → ℝ := fun i => v.getD i 0

theorem toVec_matvec (B : Arr) (d m : ℕ) (x : List ℝ) :
    toVec d (Leaf.matvec B d m x) = toMatrix d m B *ᵥ toVec m x := by
  ext i
  simp [toVec, Leaf.matvec, Matrix.mulVec, dotProduct, toMatrix, Finset.sum_range,
    List.getD_eq_getElem?_getD]

theorem toVec_tmatvec (B : Arr) (d m : ℕ) (x : List ℝ) :
    toVec m (Leaf.tmatvec B d m x) = (toMatrix d m B)ᵀ *ᵥ toVec d x := by
  ext i
  simp [toVec, Leaf.tmatvec, Matrix.mulVec, dotProduct, toMatrix, Finset.sum_range,
    List.getD_eq_getElem?_getD]

theorem rowDot_eq (p : Arr) {r dim : ℕ} (i : Fin r) (v : List ℝ) :
    rowDot p dim i v = (toMatrix r dim p *ᵥ toVec dim v) i := by
  simp [rowDot, toVec, Matrix.mulVec, dotProduct, toMatrix, Finset.sum_range]

/-- **C30** After `set_free(x)` in any state, the held vector is orthogonal to every row of the
constraint matrix. -/
theorem C30_constraint_satisfied (eigh : Eigh) (he : EighContract eigh) (name : String) (dim r : ℕ)
    (perp : Arr) (hp : perp.shape = [r, dim]) (val : Option Arr) (l : Leaf)
    (h : mkSubspace eigh name dim val (some perp) = .ok l) (ops : List LeafOp)
    (x : List ℝ) (hx : x.length = l.freeSize) :
    ∃ l', (l.run ops).setFree x = .ok l' ∧ l'.get.shape = [dim] ∧
      ∀ i < r, rowDot perp dim i l'.get.data = 0 := by
  obtain ⟨r', B, hs, hr, hB, hk⟩ := mkSubspace_ok h
  simp only [Option.getD_some] at hs hB
  rw [hp] at hs
  obtain rfl : r = r' := by simpa using hs
  have hleg : (l.run ops).kind.Legal := by
    rw [(l.run_kind ops).1]
    exact constructed_legal he (.subspace h) (by simp [Leaf.HoldsMatrix, hk])
  refine ⟨_, Leaf.setFree_ok _ hleg x ?_, ?_, ?_⟩
  · rw [hx]; simp [Leaf.freeSize, (l.run_kind ops).1]
  · simp [Leaf.get, (l.run_kind ops).1, hk, freeVal, Arr.vec, Leaf.matvec]
  · intro i hi
    rw [rowDot_eq perp ⟨i, hi⟩]
    simp only [Leaf.get, (l.run_kind ops).1, hk, freeVal, Arr.vec]
    rw [toVec_matvec, Matrix.mulVec_mulVec, (basis_facts he hB).2.2]
    simp

/-- **C30**, default constraint: without a constraint matrix the held vector sums to zero. -/
theorem C30_default_sums_to_zero (eigh : Eigh) (he : EighContract eigh) (name : String) (dim : ℕ)
    (val : Option Arr) (l : Leaf) (h : mkSubspace eigh name dim val none = .ok l)
    (ops : List LeafOp) (x : List ℝ) (hx : x.length = l.freeSize) :
    ∃ l', (l.run ops).setFree x = .ok l' ∧ l'.get.shape = [dim] ∧
      ∑ k ∈ Finset.range dim, l'.get.data.getD k 0 = 0 := by
  obtain ⟨l', h1, h2, h3⟩ := C30_constraint_satisfied eigh he name dim 1 (Arr.full [1, dim] 1) rfl val l
    h ops x hx
  refine ⟨l', h1, h2, ?_⟩
  refine Eq.trans ?_ (h3 0 (by simp))
  apply Finset.sum_congr rfl
  intro k hk
  have : (Arr.full [1, dim] 1).at2 0 k = 1 := by
    simp at hk
    simp [Arr.at2, Arr.full, List.getD_eq_getElem?_getD, hk]
  rw [this, one_mul]

/-- **C31** `get_free` after `set_free(x)` returns `x`; and for an arbitrary held vector `v`,
`set_free(get_free())` replaces `v` by its orthogonal projection `u` on the constraint space
(`u` satisfies the constraints and `v - u` is a combination of the constraint rows), which is `v`
itself exactly when `v` satisfies the constraints. -/
theorem C31_round_trip_and_projection (eigh : Eigh) (he : EighContract eigh) (name : String)
    (dim r : ℕ) (perp : Arr) (hp : perp.shape = [r, dim]) (val : Option Arr) (l : Leaf)
    (h : mkSubspace eigh name dim val (some perp) = .ok l) :
    (∀ x, x.length = l.freeSize → ∃ l', l.setFree x = .ok l' ∧ l'.getFree = .ok x) ∧
    ∀ v, v.length = dim → ∃ l₁ y l₂ u, l.set (Arr.vec v) = .ok l₁ ∧ l₁.getFree = .ok y ∧
      l₁.setFree y = .ok l₂ ∧ l₂.get = Arr.vec u ∧ u.length = dim ∧
      (∀ i < r, rowDot perp dim i u = 0) ∧
      (∃ c : ℕ → ℝ, ∀ k < dim, v.getD k 0 - u.getD k 0 = ∑ i ∈ Finset.range r, c i * perp.at2 i k) ∧
      (u = v ↔ ∀ i < r, rowDot perp dim i v = 0) := by
  have hk0 := mkSubspace_ok h
  obtain ⟨r', B, hs, hr, hB, hk⟩ := hk0
  simp only [Option.getD_some] at hs hB
  rw [hp] at hs
  obtain rfl : r = r' := by simpa using hs
  have hleg : l.kind.Legal := constructed_legal he (.subspace h) (by simp [Leaf.HoldsMatrix, hk])
  obtain ⟨f1, f2, f3⟩ := basis_facts he hB
  constructor
  · intro x hx
    exact ⟨_, Leaf.setFree_ok l hleg x hx, Leaf.getFree_freeVal l.name l.kind hleg x hx false⟩
  · intro v hv
    set X := toMatrix r dim perp with hX
    set b := toMatrix dim (dim - r) B with hb
    have hpr : toVec dim (Leaf.matvec B dim (dim - r) (Leaf.tmatvec B dim (dim - r) v)) =
        toVec dim v - Xᵀ *ᵥ (((X * Xᵀ)⁻¹ * X) *ᵥ toVec dim v) := by
      rw [toVec_matvec, toVec_tmatvec, Matrix.mulVec_mulVec, f2, Matrix.sub_mulVec, Matrix.one_mulVec,
        Matrix.mulVec_mulVec]
    refine ⟨⟨l.name, l.kind, Arr.vec v, false⟩, Leaf.tmatvec B dim (dim - r) v, _,
      Leaf.matvec B dim (dim - r) (Leaf.tmatvec B dim (dim - r) v), ?_, ?_,
      Leaf.setFree_ok ⟨l.name, l.kind, Arr.vec v, false⟩ hleg _ ?_, ?_, ?_, ?_, ?_, ?_⟩
    · obtain ⟨name, kind, val, boxed⟩ := l
      simp only at hk
      subst hk
      simp [Leaf.set, Arr.vec, Arr.size, hv]
    · simp only [Leaf.getFree, hk]
      rw [if_pos (by simp [Arr.vec, hv])]
      rfl
    · simp [Leaf.freeSize, hk, Kind.freeSize, Leaf.tmatvec]
    · simp only [Leaf.get, hk, freeVal]
    · simp [Leaf.matvec]
    · intro i hi
      rw [rowDot_eq perp ⟨i, hi⟩, toVec_matvec, Matrix.mulVec_mulVec, f3]
      simp
    · refine ⟨fun i => if hi : i < r then (((X * Xᵀ)⁻¹ * X) *ᵥ toVec dim v) ⟨i, hi⟩ else 0, ?_⟩
      intro k hk
      have := congrFun hpr ⟨k, hk⟩
      simp only [Pi.sub_apply] at this
      have e1 : ∀ u : List ℝ, toVec dim u ⟨k, hk⟩ = u.getD k 0 := fun u => rfl
      rw [e1, e1] at this
      rw [this, sub_sub_cancel, Finset.sum_range]
      simp only [Matrix.mulVec, dotProduct, Matrix.transpose_apply]
      apply Finset.sum_congr rfl
      intro i _
      simp [hX, toMatrix, mul_comm]
    · constructor
      · intro hu i hi
        rw [← hu, rowDot_eq perp ⟨i, hi⟩, toVec_matvec, Matrix.mulVec_mulVec, f3]
        simp
      · intro hc
        have hXv : X *ᵥ toVec dim v = 0 := by
          ext i
          rw [hX, ← rowDot_eq perp i v, hc i i.2]; rfl
        rw [← Matrix.mulVec_mulVec, hXv] at hpr
        simp only [Matrix.mulVec_zero, sub_zero] at hpr
        apply List.ext_getElem (by simp [Leaf.matvec, hv])
        intro k h1 h2
        have hk' : k < dim := by simpa [hv] using h2
        have := congrFun hpr ⟨k, hk'⟩
        simp only [toVec] at this
        simpa [List.getD_eq_getElem?_getD, h1, h2] using this

theorem gram_det_iff {r d : ℕ} (X : Matrix (Fin r) (Fin d) ℝ) :
    (X * Xᵀ).det ≠ 0 ↔ LinearIndependent ℝ X.row := by
  rw [← Matrix.vecMul_injective_iff, ← isUnit_iff_ne_zero, ← Matrix.isUnit_iff_isUnit_det,
    ← Matrix.vecMul_injective_iff_isUnit]
  constructor
  · intro h u v huv
    apply h
    simp only [← Matrix.vecMul_vecMul]
    simp only at huv
    rw [huv]
  · intro h
    have key : ∀ u : Fin r → ℝ, u ᵥ* (X * Xᵀ) = 0 → u = 0 := by
      intro u hu
      have h0 : (u ᵥ* X) ⬝ᵥ (u ᵥ* X) = 0 := by
        have : (u ᵥ* X) ⬝ᵥ (u ᵥ* X) = (u ᵥ* (X * Xᵀ)) ⬝ᵥ u := by
          rw [← Matrix.vecMul_vecMul, Matrix.vecMul_transpose, dotProduct_comm (X *ᵥ _),
            Matrix.dotProduct_mulVec]
        rw [this, hu, zero_dotProduct]
      have h1 : u ᵥ* X = 0 := dotProduct_self_eq_zero.mp h0
      apply h
      simp [h1]
    intro u v huv
    have := key (u - v) (by rw [Matrix.sub_vecMul]; exact sub_eq_zero.mpr huv)
    exact sub_eq_zero.mp this

/-- **C32** For linearly independent constraint rows construction succeeds (no assertion fires),
and `free_size()` is the dimension of the space of vectors satisfying the constraints.  For
linearly dependent rows construction raises `LinAlgError`. -/
theorem C32_full_rank_construction (eigh : Eigh) (he : EighContract eigh) (name : String)
    (dim r : ℕ) (perp : Arr) (hp : perp.shape = [r, dim]) (hr : r < dim) :
    (LinearIndependent ℝ (toMatrix r dim perp).row →
      ∃ l, mkSubspace eigh name dim none (some perp) = .ok l ∧ l.freeSize = dim - r ∧
        l.vecSize = dim ∧
        l.freeSize = Module.finrank ℝ (LinearMap.ker (toMatrix r dim perp).mulVecLin)) ∧
    (¬ LinearIndependent ℝ (toMatrix r dim perp).row →
      mkSubspace eigh name dim none (some perp) = .error .linAlgError) := by
  constructor
  · intro hli
    obtain ⟨B, hB⟩ := perpendicular_succeeds he perp ((gram_det_iff _).mpr hli)
    refine ⟨⟨name, .subspace dim (dim - r) B, Arr.full [dim] 0, false⟩, ?_, rfl, rfl, ?_⟩
    · simp only [mkSubspace, Option.getD_some, hp]
      rw [if_neg (by simp), if_neg (by omega), hB, py_ok_bind]
      simp [Leaf.set, Arr.full, Arr.size]
    · have hrk := hli.rank_matrix
      have := (toMatrix r dim perp).mulVecLin.finrank_range_add_finrank_ker
      rw [← Matrix.rank, hrk] at this
      simp at this
      simp only [Leaf.freeSize, Kind.freeSize]
      omega
  · intro hli
    have hd : (toMatrix r dim perp * (toMatrix r dim perp)ᵀ).det = 0 := by
      by_contra hd
      exact hli ((gram_det_iff _).mp hd)
    simp only [mkSubspace, Option.getD_some, hp]
    rw [if_neg (by simp), if_neg (by omega)]
    unfold getPerpendicularSubspace
    rw [projPerp, if_pos hd]
    rfl

/-- **C32**, default constraint: construction with the default zero-sum constraint succeeds for
every dimension of at least two. -/
theorem C32_default_construction (eigh : Eigh) (he : EighContract eigh) (name : String)
    (dim : ℕ) (hd : 1 < dim) :
    ∃ l, mkSubspace eigh name dim none none = .ok l ∧ l.freeSize = dim - 1 := by
  obtain ⟨l, hl, hf, _⟩ := (C32_full_rank_construction eigh he name dim 1 (Arr.full [1, dim] 1) rfl hd).1
    (by
      apply LinearIndependent.of_subsingleton 0
      intro hz
      have := congrFun hz ⟨0, by omega⟩
      simp [Matrix.row, toMatrix, Arr.at2, Arr.full, List.getD_eq_getElem?_getD] at this)
  exact ⟨l, hl, hf⟩

/-- The hypotheses of C30–C32 are met: some `eigh` satisfies the contract, and then a
zero-sum vector of dimension 3 can be constructed. -/
example : ∃ eigh, EighContract eigh ∧ ∃ l, mkSubspace eigh "v" 3 none (some (Arr.full [1, 3] 1)) = .ok l ∧
    l.freeSize = 2 := by
  obtain ⟨eigh, he⟩ := exists_eigh
  exact ⟨eigh, he, C32_default_construction eigh he "v" 3 (by norm_num)⟩

end LRVB
