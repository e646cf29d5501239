import Verif.Props.Matrices
import Verif.Model.ExpFam

/-!
# C193: the free diagonal of a matrix parameter is half its log determinant
-/

namespace LRVB

open Finset

theorem lower_det (n : ℕ) (M : ℕ → ℕ → ℝ) (hlow : ∀ i k, i < k → M i k = 0) :
    (toMat n fun i j => ∑ k ∈ range n, M i k * M j k).det = (∏ i ∈ range n, M i i) ^ 2 := by
  have : (toMat n fun i j => ∑ k ∈ range n, M i k * M j k) = toMat n M * (toMat n M).transpose := by
    ext i j
    simp only [toMat, Matrix.mul_apply, Matrix.of_apply, Matrix.transpose_apply]
    rw [Fin.sum_univ_eq_sum_range (fun k => M i k * M j k)]
  rw [this, Matrix.det_mul, Matrix.det_transpose, ← pow_two]
  congr 1
  rw [← Fin.prod_univ_eq_prod_range (fun i => M i i)]
  apply Matrix.det_of_isLowerTriangular
  intro i j hij
  exact hlow _ _ (by simpa using hij)

/-- **C193** `unpack_posdef_matrix(x, diag_lb)`: the determinant of the result minus `diag_lb I` is
the exponential of twice the sum of the entries of `x` at the places `i (i + 3) / 2` of the
diagonal; the off-diagonal entries of `x` do not enter. -/
theorem C193_unpack_det (n : ℕ) (x : List ℝ) (d : ℝ) (h : x.length = n * (n + 1) / 2) :
    ∃ m, unpackPosdef x d = .ok m ∧ IsMat m n n ∧
      (asMatrix n m - d • 1).det = Real.exp (2 * ∑ i ∈ range n, x.getD (i * (i + 3) / 2) 0) := by
  refine ⟨_, unpackPosdef_ok (n := n) h d, ⟨Arr.ofFn2_WF _ _ _, rfl⟩, ?_⟩
  rw [asMatrix_sub]
  have hl := lower_det n (freeChol x) (fun i k => freeChol_lower x)
  have : (toMat n fun i j => (Arr.ofFn2 n n fun i j =>
      (∑ k ∈ range n, freeChol x i k * freeChol x j k) + (if i = j then d else 0)).at2 i j -
        if i = j then d else 0) = toMat n fun i j => ∑ k ∈ range n, freeChol x i k * freeChol x j k := by
    ext i j
    simp [toMat, Arr.at2_ofFn2 _ _ _ i.2 j.2]
  rw [this, hl]
  have hp : ∏ i ∈ range n, freeChol x i i = Real.exp (∑ i ∈ range n, x.getD (i * (i + 3) / 2) 0) := by
    rw [Real.exp_sum]
    refine prod_congr rfl fun i _ => ?_
    have : symIndex i i = i * (i + 3) / 2 := by
      rw [symIndex_of_le le_rfl]
      have := two_tri i
      have h2 : i * (i + 3) = 2 * (tri i + i) := by rw [mul_add 2, this]; ring
      omega
    simp [freeChol, this]
  rw [hp, ← Real.exp_nat_mul]
  norm_num

/-- **C193** `pack_posdef_matrix`: whenever a symmetric matrix packs to `x`, the diagonal entries
of `x` add up to half the log determinant of the matrix minus `diag_lb I`. -/
theorem C193_pack_log_det (n : ℕ) (m : Arr) (d : ℝ) (x : List ℝ) (hm : IsMat m n n)
    (hs : m.transpose = m) (h : packPosdef m d = .ok x) :
    0 < (asMatrix n m - d • 1).det ∧
    2 * ∑ i ∈ range n, x.getD (i * (i + 3) / 2) 0 = Real.log (asMatrix n m - d • 1).det := by
  have hpd : (asMatrix n m - d • 1).PosDef := by
    by_contra hc
    rw [C20_pack_rejects_non_posdef n m d hm hs hc] at h
    cases h
  obtain ⟨y, h1, h2, h3⟩ := C20_unpack_pack n m d hm hpd
  rw [h] at h1
  cases h1
  obtain ⟨m', h4, -, h5⟩ := C193_unpack_det n x d h2
  rw [h3] at h4
  cases h4
  rw [h5]
  exact ⟨Real.exp_pos _, (Real.log_exp _).symm⟩

/-- **C193** for a matrix parameter, after any operations: `set_free(x)` gives a matrix whose
excess over `diag_lb I` has the determinant `exp (2 ∑ diagonal entries of x)`, whatever the
off-diagonal entries are. -/
theorem C193_set_free_det (name : String) (n : ℕ) (d : ℝ) (val : Option Arr) (l : Leaf)
    (h : mkPosDef name n d val = .ok l) (ops : List LeafOp) (x : List ℝ)
    (hx : x.length = (l.run ops).freeSize) :
    ∃ l', (l.run ops).setFree x = .ok l' ∧
      (asMatrix n l'.get - d • 1).det = Real.exp (2 * ∑ i ∈ range n, x.getD (i * (i + 3) / 2) 0) := by
  obtain ⟨hs, l', h1, h2, -⟩ := C19_parameter_set_free name n d val l h ops x hx
  refine ⟨l', h1, ?_⟩
  obtain ⟨m, hm, -, hdet⟩ := C193_unpack_det n x d (hx.trans hs)
  have hk : (l.run ops).kind = .posdef n d := by
    rw [(Leaf.run_kind _ _).1]
    unfold mkPosDef at h
    split_ifs at h with hd
    cases val with
    | some v => exact (Leaf.set_eq h ▸ rfl)
    | none => cases h; rfl
  simp only [Leaf.setFree, hk] at h1
  split_ifs at h1 with hc
  rw [hm, py_ok_bind] at h1
  rw [Leaf.set_eq h1]
  exact hdet

/-- **C193** `multivariate_normal_entropy` of an information matrix set from a free vector (no lower
bound): it is `n / 2 (1 + log 2π)` minus the sum of the diagonal free entries; no off-diagonal free
entry changes it. -/
theorem C193_entropy_free (n : ℕ) (x : List ℝ) (h : x.length = n * (n + 1) / 2) :
    ∃ m, unpackPosdef x 0 = .ok m ∧
      ExpFam.multivariateNormalEntropy m =
        .ok ((n : ℝ) / 2 * (1 + Real.log (2 * Real.pi)) - ∑ i ∈ range n, x.getD (i * (i + 3) / 2) 0) := by
  obtain ⟨m, h1, h2, h3⟩ := C193_unpack_det n x 0 h
  refine ⟨m, h1, ?_⟩
  rw [zero_smul, sub_zero] at h3
  have hpos : 0 < (toMatrix n n m).det := by
    change 0 < (asMatrix n m).det
    rw [h3]; exact Real.exp_pos _
  have hld : ExpFam.logDet m = .ok (2 * ∑ i ∈ range n, x.getD (i * (i + 3) / 2) 0) := by
    unfold ExpFam.logDet
    rw [h2.2]
    simp only [ne_eq, not_true_eq_false, if_false, hpos, if_true]
    congr 1
    change Real.log (asMatrix n m).det = _
    rw [h3, Real.log_exp]
  unfold ExpFam.multivariateNormalEntropy
  rw [hld, py_ok_bind, h2.2]
  simp only [List.getD_cons_zero]
  congr 1
  norm_num
  ring

example : ∃ m x, IsMat m 2 2 ∧ m.transpose = m ∧ packPosdef m 1 = .ok x ∧ x = [0, 5, 2] := by
  obtain ⟨m, h1, h2, h3, -⟩ := C19_unpack_posdef 2 [0, 5, 2] 1 (by simp)
  have := C20_pack_unpack 2 [0, 5, 2] 1 (by simp)
  rw [h1, py_ok_bind] at this
  exact ⟨m, _, h2, h3, this, rfl⟩

example : ∃ l, mkPosDef "m" 2 1 none = .ok l ∧ [0, 5, 2].length = (l.run [.set (Arr.scalar 3)]).freeSize := by
  refine ⟨_, by unfold mkPosDef; rw [if_neg (by norm_num)], ?_⟩
  unfold Leaf.freeSize
  rw [(Leaf.run_kind _ _).1]
  rfl

end LRVB
