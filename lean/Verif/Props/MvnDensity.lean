import Verif.Lemmas.MvnDensity
import Verif.Lemmas.AgDeriv
import Verif.Props.Priors

/-!
# The multivariate normal density, its entropy and the expected log prior: C92, C81
-/

namespace LRVB

open Arr ExpFam Families MeasureTheory ProbabilityTheory Matrix

noncomputable section

/-- **C92** The distribution whose moments `MVNParam` returns has the density
`√det(info) (2π)^(-n/2) exp(-(x - mean)ᵀ info (x - mean) / 2)`. -/
theorem C92_density (n : ℕ) (m i : Arr) (hpd : (asMatrix n i).PosDef) :
    mvn n m i = (volume : Measure (EuclideanSpace ℝ (Fin n))).withDensity
      fun x => ENNReal.ofReal (mvnPdf n m i x) := by
  unfold mvn
  rw [multivariateGaussian_density _ hpd]
  congr 1
  funext x
  rw [Fintype.card_fin]
  rfl

theorem mvnPdf_pos {n : ℕ} {m i : Arr} (hpd : (asMatrix n i).PosDef) (x : EuclideanSpace ℝ (Fin n)) :
    0 < mvnPdf n m i x := by
  have := hpd.det_pos
  unfold mvnPdf
  positivity

theorem measurable_mvnPdf (n : ℕ) (m i : Arr) : Measurable (mvnPdf n m i) := by
  unfold mvnPdf
  fun_prop

theorem log_mvnPdf {n : ℕ} {m i : Arr} (hpd : (asMatrix n i).PosDef)
    (x : EuclideanSpace ℝ (Fin n)) :
    Real.log (mvnPdf n m i x) = -0.5 * (∑ j : Fin n, ∑ k : Fin n,
      (x j - m.get [(j : ℕ)]) * i.at2 j k * (x k - m.get [(k : ℕ)])) +
        (0.5 * Real.log (asMatrix n i).det - 0.5 * n * Real.log (2 * Real.pi)) := by
  have h := hpd.det_pos
  unfold mvnPdf
  rw [Real.log_mul (by positivity) (by positivity), Real.log_exp, Real.log_div (by positivity)
    (by positivity), Real.log_pow, Real.log_sqrt h.le, Real.log_sqrt (by positivity)]
  norm_num
  ring

/-- The expectation of a quadratic form under any distribution with second moments. -/
theorem integral_quad {n : ℕ} {μ : Measure (EuclideanSpace ℝ (Fin n))} [IsProbabilityMeasure μ]
    (h : ∀ j : Fin n, MemLp (fun x : EuclideanSpace ℝ (Fin n) => x j) 2 μ) (m : Fin n → ℝ)
    (L : Fin n → Fin n → ℝ) :
    Integrable (fun x : EuclideanSpace ℝ (Fin n) =>
      ∑ j, ∑ k, (x j - m j) * L j k * (x k - m k)) μ ∧
    ∫ x, ∑ j, ∑ k, (x j - m j) * L j k * (x k - m k) ∂μ =
      ∑ j, ∑ k, L j k * ((∫ x, x j ∂μ - m j) * (∫ x, x k ∂μ - m k) +
        cov[fun x => x j, fun x => x k; μ]) := by
  have hi : ∀ j : Fin n, Integrable (fun x : EuclideanSpace ℝ (Fin n) => x j) μ :=
    fun j => (h j).integrable (by norm_num)
  have hij : ∀ j k : Fin n, Integrable (fun x : EuclideanSpace ℝ (Fin n) => x j * x k) μ :=
    fun j k => (h j).integrable_mul (h k)
  have key : ∀ j k : Fin n,
      Integrable (fun x : EuclideanSpace ℝ (Fin n) => (x j - m j) * L j k * (x k - m k)) μ ∧
      ∫ x, (x j - m j) * L j k * (x k - m k) ∂μ =
        L j k * ((∫ x, x j ∂μ - m j) * (∫ x, x k ∂μ - m k) +
          cov[fun x => x j, fun x => x k; μ]) := by
    intro j k
    have e : (fun x : EuclideanSpace ℝ (Fin n) => (x j - m j) * L j k * (x k - m k)) =
        fun x => L j k * (x j * x k) + ((-(L j k * m k)) * x j + ((-(L j k * m j)) * x k +
          L j k * m j * m k)) := by funext x; ring
    have i1 : Integrable (fun x : EuclideanSpace ℝ (Fin n) =>
        (-(L j k * m j)) * x k + L j k * m j * m k) μ :=
      ((hi k).const_mul _).add (integrable_const _)
    have i2 : Integrable (fun x : EuclideanSpace ℝ (Fin n) =>
        (-(L j k * m k)) * x j + ((-(L j k * m j)) * x k + L j k * m j * m k)) μ :=
      ((hi j).const_mul _).add i1
    rw [e]
    refine ⟨((hij j k).const_mul _).add i2, ?_⟩
    rw [integral_add ((hij j k).const_mul _) i2, integral_add ((hi j).const_mul _) i1,
      integral_add ((hi k).const_mul _) (integrable_const _), integral_const_mul,
      integral_const_mul, integral_const_mul, integral_const, probReal_univ, one_smul,
      covariance_eq_sub (h j) (h k)]
    simp only [Pi.mul_apply]
    ring
  refine ⟨integrable_finset_sum _ fun j _ => integrable_finset_sum _ fun k _ => (key j k).1, ?_⟩
  rw [integral_finset_sum _ fun j _ => integrable_finset_sum _ fun k _ => (key j k).1]
  refine Finset.sum_congr rfl fun j _ => ?_
  rw [integral_finset_sum _ fun k _ => (key j k).1]
  exact Finset.sum_congr rfl fun k _ => (key j k).2

theorem mvnPrior_ok {n : ℕ} {m e : List ℝ} {i C : Arr} (hm : m.length = n) (he : e.length = n)
    (hi : IsMat i n n) (hC : IsMat C n n) :
    mvnPrior m i e C = .ok (-0.5 * (∑ j : Fin n, ∑ k : Fin n,
      i.at2 j k * ((e.getD j 0 - m.getD j 0) * (e.getD k 0 - m.getD k 0) + C.at2 k j))) := by
  have hd : (List.zipWith (· - ·) e m).length = n := by simp [hm, he]
  have hdg : ∀ k : Fin n, (List.zipWith (· - ·) e m).getD k 0 = e.getD k 0 - m.getD k 0 := by
    intro k
    have h1 : (k : ℕ) < e.length := by rw [he]; exact k.2
    have h2 : (k : ℕ) < m.length := by rw [hm]; exact k.2
    simp [List.getD_eq_getElem?_getD, h1, h2]
  unfold mvnPrior vsub
  rw [if_pos (by omega), py_ok_bind, mulVec_ok hi.2 hd, py_ok_bind, dot1,
    if_pos (by simp [hm, he]), py_ok_bind, matmul_ok hi.2 hC.2, py_ok_bind, ExpFam.trace]
  simp only [ofFn2_shape, py_ok_bind, min_self]
  congr 2
  simp only [mul_add, Finset.sum_add_distrib]
  congr 1
  · have e1 : List.zipWith (· * ·) (List.zipWith (· - ·) e m) (mulVecFn i n n (List.zipWith (· - ·) e m)) =
        List.ofFn fun j : Fin n => (e.getD j 0 - m.getD j 0) *
          ∑ k : Fin n, i.at2 j k * (e.getD k 0 - m.getD k 0) := by
      refine List.ext_getElem (by simp [hm, he]) fun j h1 h2 => ?_
      have hj : j < n := by simpa using h2
      have e2 := hdg ⟨j, hj⟩
      have e3 := mulVecFn_getD i n n (List.zipWith (· - ·) e m) hj
      rw [List.getElem_zipWith, List.getElem_ofFn]
      rw [List.getD_eq_getElem?_getD, List.getElem?_eq_getElem (by rw [hd]; exact hj)] at e2
      rw [List.getD_eq_getElem?_getD,
        List.getElem?_eq_getElem (by rw [mulVecFn_length]; exact hj)] at e3
      rw [Option.getD_some] at e2 e3
      rw [e2, e3, Finset.sum_range]
      simp only [hdg]
    rw [e1, List.sum_ofFn]
    refine Finset.sum_congr rfl fun j _ => ?_
    rw [Finset.mul_sum]
    exact Finset.sum_congr rfl fun k _ => by ring
  · rw [Finset.sum_range]
    refine Finset.sum_congr rfl fun j _ => ?_
    rw [at2_ofFn2 _ _ _ j.2 j.2, Finset.sum_range]

/-- **C81** `mvn_prior(prior_mean, prior_info, e, cov)` is, up to a constant that depends on the prior
only, the expectation of the multivariate normal log density with the prior mean and information
under any distribution whose mean is `e` and whose covariance is `cov`. -/
theorem C81_mvn_prior (n : ℕ) (m : List ℝ) (i : Arr) (hm : m.length = n) (hi : IsMat i n n)
    (hpd : (asMatrix n i).PosDef) :
    ∃ c : ℝ, ∀ (e : List ℝ) (C : Arr), e.length = n → IsMat C n n →
    ∃ r, mvnPrior m i e C = .ok r ∧ ∀ (μ : Measure (EuclideanSpace ℝ (Fin n)))
      [IsProbabilityMeasure μ], (∀ j : Fin n, MemLp (fun x => x j) 2 μ) →
      (∀ j : Fin n, ∫ x, x j ∂μ = e.getD j 0) →
      (∀ j k : Fin n, cov[fun x => x j, fun x => x k; μ] = C.at2 j k) →
      ∫ x, Real.log (mvnPdf n (vec m) i x) ∂μ = r + c := by
  refine ⟨0.5 * Real.log (asMatrix n i).det - 0.5 * n * Real.log (2 * Real.pi), fun e C he hC =>
    ⟨_, mvnPrior_ok hm he hi hC, fun μ _ h2 h1 hcov => ?_⟩⟩
  obtain ⟨q1, q2⟩ := integral_quad h2 (fun j => (vec m).get [(j : ℕ)]) fun j k => i.at2 j k
  rw [integral_congr_ae (.of_forall fun x => log_mvnPdf hpd x),
    integral_add (q1.const_mul _) (integrable_const _), integral_const_mul, q2, integral_const,
    probReal_univ, one_smul]
  congr 2
  refine Finset.sum_congr rfl fun j _ => Finset.sum_congr rfl fun k _ => ?_
  have hcs : C.at2 k j = C.at2 j k := by rw [← hcov, ← hcov, covariance_comm]
  rw [h1, h1, hcov, hcs]
  simp [Arr.vec, Arr.get, flat]

theorem mvn_memLp (n : ℕ) (m i : Arr) (j : Fin n) :
    MemLp (fun x : EuclideanSpace ℝ (Fin n) => x j) 2 (mvn n m i) :=
  (EuclideanSpace.proj j : EuclideanSpace ℝ (Fin n) →L[ℝ] ℝ).comp_memLp'
    (IsGaussian.memLp_two_id (μ := mvn n m i))

theorem mvn_mean (n : ℕ) (m i : Arr) (j : Fin n) : ∫ x, x j ∂mvn n m i = m.get [(j : ℕ)] := by
  have h1 := ContinuousLinearMap.integral_comp_comm
    (EuclideanSpace.proj j : EuclideanSpace ℝ (Fin n) →L[ℝ] ℝ)
    (IsGaussian.integrable_fun_id (μ := mvn n m i))
  rw [mvn, integral_id_multivariateGaussian] at h1
  exact h1

/-- **C92** For a positive definite information matrix, `entropy()` of an `MVNParam` succeeds and
returns the differential entropy of the multivariate normal distribution. -/
theorem C92_entropy (p : Param) (n : ℕ) (m i : Arr) (h : HoldsMvn p n m i)
    (hpd : (asMatrix n i).PosDef) :
    mvnEntropy p = .ok (-∫ x, mvnPdf n m i x * Real.log (mvnPdf n m i x)) := by
  have e0 : mvnEntropy p = .ok (0.5 * (-1 * Real.log (asMatrix n i).det + n +
      n * Real.log (2 * Real.pi))) := by
    unfold mvnEntropy multivariateNormalEntropy logDet
    rw [h.info.item, py_ok_bind]
    rw [h.info_arr.2]
    have : 0 < (toMatrix n n i).det := hpd.det_pos
    simp only [ne_eq, not_true_eq_false, if_false, this, if_true, py_ok_bind, List.getD_cons_zero]
    rfl
  have e1 : ∫ x, mvnPdf n m i x * Real.log (mvnPdf n m i x) =
      ∫ x, Real.log (mvnPdf n m i x) ∂mvn n m i := by
    rw [C92_density n m i hpd, integral_withDensity_eq_integral_toReal_smul
      (measurable_mvnPdf n m i).ennreal_ofReal (by simp)]
    congr 1
    funext x
    rw [ENNReal.toReal_ofReal (mvnPdf_pos hpd x).le, smul_eq_mul]
  obtain ⟨q1, q2⟩ := integral_quad (mvn_memLp n m i) (fun j => m.get [(j : ℕ)]) fun j k => i.at2 j k
  have hcov : ∀ j k : Fin n, cov[fun x => x j, fun x => x k; mvn n m i] = (asMatrix n i)⁻¹ j k :=
    fun j k => covariance_eval_multivariateGaussian hpd.inv.posSemidef j k
  have htr : ∑ j : Fin n, ∑ k : Fin n, i.at2 j k * (asMatrix n i)⁻¹ j k = n := by
    have hsym : ((asMatrix n i)⁻¹)ᵀ = (asMatrix n i)⁻¹ := by
      have := hpd.inv.1
      rwa [Matrix.IsHermitian, conjTranspose_eq_transpose_of_trivial] at this
    have h2 : Matrix.trace (asMatrix n i * (asMatrix n i)⁻¹) = n := by
      rw [mul_nonsing_inv _ (isUnit_iff_ne_zero.2 hpd.det_pos.ne'), trace_one, Fintype.card_fin]
    rw [← h2, Matrix.trace]
    refine Finset.sum_congr rfl fun j _ => ?_
    rw [Matrix.diag_apply, Matrix.mul_apply]
    refine Finset.sum_congr rfl fun k _ => ?_
    conv_lhs => rw [← hsym]
    rfl
  rw [e0, e1, integral_congr_ae (.of_forall fun x => log_mvnPdf hpd x),
    integral_add (q1.const_mul _) (integrable_const _), integral_const_mul, q2, integral_const,
    probReal_univ, one_smul]
  simp only [mvn_mean, hcov, sub_self, mul_zero, zero_add, htr]
  congr 1
  ring

/-- Non-vacuity: after `set_free` on a two-dimensional parameter, the entropy is the true one, and the
parameter can serve as the distribution in `mvn_prior`, with its own information matrix as the
prior information and another prior mean. -/
example : ∃ p q m i, mkMVN "b" 2 0.5 = .ok p ∧
    (p.run [.setFree [1]]).setFree [1, 2, 0.1, 0.2, 0.3] = (q, none) ∧
    mvnEntropy q = .ok (-∫ x, mvnPdf 2 m i x * Real.log (mvnPdf 2 m i x)) ∧
    ∃ c r, mvnPrior [3, 4] i [1, 2] (ofMatrix (asMatrix 2 i)⁻¹) = .ok r ∧
      ∫ x, Real.log (mvnPdf 2 (Arr.vec [3, 4]) i x) ∂mvn 2 (Arr.vec [1, 2]) i = r + c := by
  obtain ⟨p, h1, -, h2⟩ := C84_after_set_free "b" 2 0.5 (by norm_num) [.setFree [1]]
  obtain ⟨q, m, i, h3, h4, h5⟩ := h2 [1, 2, 0.1, 0.2, 0.3] (by simp)
  obtain ⟨c, hc⟩ := C81_mvn_prior 2 [3, 4] i rfl h4.info_arr h5
  obtain ⟨r, r1, r2⟩ := hc [1, 2] (ofMatrix (asMatrix 2 i)⁻¹) rfl (ofMatrix_isMat _)
  refine ⟨p, q, m, i, h1, h3, C92_entropy q 2 m i h4 h5, c, r, r1, r2 _ (mvn_memLp _ _ _) ?_ ?_⟩
  · intro j
    rw [mvn_mean]
    fin_cases j <;> simp [Arr.vec, Arr.get, flat]
  · intro j k
    have e : asMatrix 2 (ofMatrix (asMatrix 2 i)⁻¹) = (asMatrix 2 i)⁻¹ := toMatrix_ofMatrix _
    rw [mvn, covariance_eval_multivariateGaussian h5.inv.posSemidef, ← e]
    rfl

end

end LRVB
