import Mathlib.Probability.Distributions.Gaussian.Multivariate
import Mathlib.MeasureTheory.Integral.Pi
import Mathlib.MeasureTheory.Measure.Haar.InnerProductSpace
import Mathlib.MeasureTheory.Measure.Lebesgue.EqHaar

/-!
# The density of the multivariate normal distribution
-/

namespace LRVB

open MeasureTheory ProbabilityTheory Matrix

open scoped MatrixOrder

noncomputable section

variable {ι : Type*} [Fintype ι]

theorem pi_gaussian_density :
    Measure.pi (fun _ : ι => gaussianReal 0 1) =
      (volume : Measure (ι → ℝ)).withDensity fun x => ENNReal.ofReal (∏ j, gaussianPDFReal 0 1 (x j)) := by
  refine Measure.pi_eq fun s hs => ?_
  have h1 : ∀ j, gaussianReal 0 1 (s j) = ENNReal.ofReal (∫ x in s j, gaussianPDFReal 0 1 x) :=
    fun j => gaussianReal_apply_eq_integral 0 one_ne_zero (s j)
  have hint : Integrable (fun x : ι → ℝ => ∏ j, gaussianPDFReal 0 1 (x j)) := by
    exact Integrable.fintype_prod fun _ => integrable_gaussianPDFReal 0 1
  have hnn : ∀ x : ι → ℝ, 0 ≤ ∏ j, gaussianPDFReal 0 1 (x j) := fun x =>
    Finset.prod_nonneg fun j _ => gaussianPDFReal_nonneg 0 1 (x j)
  rw [withDensity_apply _ (MeasurableSet.univ_pi hs),
    ← ofReal_integral_eq_lintegral_ofReal hint.integrableOn (.of_forall hnn)]
  simp only [h1]
  rw [← ENNReal.ofReal_prod_of_nonneg fun j _ =>
    integral_nonneg fun x => gaussianPDFReal_nonneg 0 1 x]
  congr 1
  rw [← integral_indicator (MeasurableSet.univ_pi hs)]
  have h2 : ∀ j, ∫ x in s j, gaussianPDFReal 0 1 x = ∫ x, (s j).indicator (gaussianPDFReal 0 1) x :=
    fun j => (integral_indicator (hs j)).symm
  simp only [h2]
  rw [← integral_fintype_prod_volume_eq_prod (fun j x => (s j).indicator (gaussianPDFReal 0 1) x)]
  congr 1
  funext x
  by_cases hx : x ∈ Set.univ.pi s
  · rw [Set.indicator_of_mem hx]
    exact Finset.prod_congr rfl fun j _ => (Set.indicator_of_mem (hx j trivial) _).symm
  · rw [Set.indicator_of_notMem hx]
    obtain ⟨j, hj⟩ : ∃ j, x j ∉ s j := by simpa using hx
    exact (Finset.prod_eq_zero (Finset.mem_univ j) (Set.indicator_of_notMem hj _)).symm

theorem map_withDensity_comp {α β : Type*} [MeasurableSpace α] [MeasurableSpace β] (μ : Measure α)
    {e : α → β} (he : Measurable e) {g : β → ENNReal} (hg : Measurable g) :
    (μ.withDensity (g ∘ e)).map e = (μ.map e).withDensity g := by
  ext s hs
  rw [Measure.map_apply he hs, withDensity_apply _ (he hs), withDensity_apply _ hs,
    setLIntegral_map hs hg he]
  rfl

/-- The density of the standard normal distribution. -/
theorem stdGaussian_density :
    stdGaussian (EuclideanSpace ℝ ι) = (volume : Measure (EuclideanSpace ℝ ι)).withDensity
      fun x => ENNReal.ofReal (((√(2 * Real.pi)) ^ Fintype.card ι)⁻¹ * Real.exp (-‖x‖ ^ 2 / 2)) := by
  rw [← map_pi_eq_stdGaussian, pi_gaussian_density, ← (PiLp.volume_preserving_toLp ι).map_eq,
    ← map_withDensity_comp _ (by fun_prop) (by fun_prop)]
  congr 2
  funext x
  simp only [Function.comp_apply]
  congr 1
  simp only [gaussianPDFReal, NNReal.coe_one, mul_one, sub_zero]
  rw [Finset.prod_mul_distrib, Finset.prod_const, Finset.card_univ, inv_pow, ← Real.exp_sum,
    EuclideanSpace.real_norm_sq_eq]
  congr 2
  rw [neg_div, Finset.sum_div, ← Finset.sum_neg_distrib]
  simp [neg_div]

variable [DecidableEq ι]

/-- The density of the multivariate normal distribution with information matrix `L`. -/
theorem multivariateGaussian_density (m : EuclideanSpace ℝ ι) {L : Matrix ι ι ℝ} (hL : L.PosDef) :
    multivariateGaussian m L⁻¹ = (volume : Measure (EuclideanSpace ℝ ι)).withDensity fun x =>
      ENNReal.ofReal (√L.det / √(2 * Real.pi) ^ Fintype.card ι *
        Real.exp (-(∑ j, ∑ k, (x j - m j) * L j k * (x k - m k)) / 2)) := by
  set R := CFC.sqrt L⁻¹ with hR
  have hS : L⁻¹.PosDef := hL.inv
  have hRR : R * R = L⁻¹ := CFC.sqrt_mul_sqrt_self _ hS.posSemidef.nonneg
  have hdL := hL.det_pos
  have hRpsd : R.PosSemidef := by
    have := CFC.sqrt_nonneg L⁻¹
    exact Matrix.nonneg_iff_posSemidef.1 this
  have hdR : R.det = (√L.det)⁻¹ := by
    have h0 : 0 ≤ R.det := hRpsd.det_nonneg
    have h1 : R.det * R.det = L.det⁻¹ := by
      rw [← det_mul, hRR, det_nonsing_inv, Ring.inverse_eq_inv']
    rw [← Real.sqrt_inv, ← h1, Real.sqrt_mul_self h0]
  have hdR0 : R.det ≠ 0 := by rw [hdR]; positivity
  have hsymm : Rᵀ = R := by
    have := hRpsd.1
    rwa [Matrix.IsHermitian, conjTranspose_eq_transpose_of_trivial] at this
  have hRLR : R * L * R = 1 := by
    have hu : IsUnit R.det := isUnit_iff_ne_zero.2 hdR0
    have : L = R⁻¹ * R⁻¹ := by
      rw [← Matrix.mul_inv_rev, hRR, nonsing_inv_nonsing_inv _ (isUnit_iff_ne_zero.2 hdL.ne')]
    rw [this, ← mul_assoc, mul_nonsing_inv _ hu, one_mul, nonsing_inv_mul _ hu]
  set A := toEuclideanCLM (𝕜 := ℝ) (n := ι) R with hA
  have hvol : (volume : Measure (EuclideanSpace ℝ ι)).map (fun x => m + A x) =
      ENNReal.ofReal (√L.det) • volume := by
    have h1 : LinearMap.det (A : EuclideanSpace ℝ ι →ₗ[ℝ] EuclideanSpace ℝ ι) = R.det := by
      rw [hA, coe_toEuclideanCLM_eq_toEuclideanLin, toEuclideanLin_eq_toLin, LinearMap.det_toLin]
    have h2 := Measure.map_linearMap_addHaar_eq_smul_addHaar (volume : Measure (EuclideanSpace ℝ ι))
      (f := (A : EuclideanSpace ℝ ι →ₗ[ℝ] EuclideanSpace ℝ ι)) (by rw [h1]; exact hdR0)
    rw [h1, hdR, inv_inv, abs_of_nonneg (Real.sqrt_nonneg _)] at h2
    have h3 : (fun x => m + A x) = (fun x => m + x) ∘ A := rfl
    rw [h3, ← Measure.map_map (measurable_const_add m) (by fun_prop)]
    rw [show (volume : Measure (EuclideanSpace ℝ ι)).map A = _ from h2, Measure.map_smul,
      map_add_left_eq_self]
  have hq : ∀ x : EuclideanSpace ℝ ι,
      ∑ j, ∑ k, ((m + A x) j - m j) * L j k * ((m + A x) k - m k) = ‖x‖ ^ 2 := by
    intro x
    have h1 : ∀ j, (m + A x) j - m j = (R *ᵥ x.ofLp) j := fun j => by
      rw [PiLp.add_apply, add_sub_cancel_left]
      rfl
    simp only [h1]
    have h2 : ∑ j, ∑ k, (R *ᵥ x.ofLp) j * L j k * (R *ᵥ x.ofLp) k =
        (R *ᵥ x.ofLp) ⬝ᵥ (L *ᵥ (R *ᵥ x.ofLp)) := by
      simp only [dotProduct, mulVec, Finset.mul_sum, mul_assoc]
    rw [h2, mulVec_mulVec, dotProduct_mulVec, ← vecMul_transpose, vecMul_vecMul, hsymm, ← mul_assoc,
      hRLR, vecMul_one, EuclideanSpace.real_norm_sq_eq]
    simp only [dotProduct, pow_two]
  have hm : Measurable fun x : EuclideanSpace ℝ ι =>
      ENNReal.ofReal ((√(2 * Real.pi) ^ Fintype.card ι)⁻¹ *
        Real.exp (-(∑ j, ∑ k, (x j - m j) * L j k * (x k - m k)) / 2)) := by fun_prop
  unfold multivariateGaussian
  rw [stdGaussian_density]
  have e := map_withDensity_comp (volume : Measure (EuclideanSpace ℝ ι))
    (e := fun x => m + A x) (by fun_prop) hm
  rw [hvol] at e
  have e2 : (fun x : EuclideanSpace ℝ ι => ENNReal.ofReal ((√(2 * Real.pi) ^ Fintype.card ι)⁻¹ *
        Real.exp (-(∑ j, ∑ k, (x j - m j) * L j k * (x k - m k)) / 2))) ∘ (fun x => m + A x) =
      fun x => ENNReal.ofReal (((√(2 * Real.pi)) ^ Fintype.card ι)⁻¹ * Real.exp (-‖x‖ ^ 2 / 2)) := by
    funext x
    simp only [Function.comp_apply]
    rw [hq]
  rw [e2] at e
  rw [e, withDensity_smul_measure, ← withDensity_smul _ hm]
  congr 1
  funext x
  simp only [Pi.smul_apply, smul_eq_mul]
  rw [← ENNReal.ofReal_mul (Real.sqrt_nonneg _)]
  congr 1
  ring

end

end LRVB
