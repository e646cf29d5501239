import Mathlib.Probability.Distributions.Gaussian.Real

/-!
# Facts about the normal distribution
-/

namespace LRVB

open MeasureTheory ProbabilityTheory Real
open scoped NNReal

noncomputable section

theorem integral_exp_gaussianReal (m : ℝ) (v : ℝ≥0) :
    ∫ x, exp x ∂gaussianReal m v = exp (m + v / 2) := by
  have := congrFun (mgf_fun_id_gaussianReal (μ := m) (v := v)) 1
  simpa [mgf] using this

theorem integral_exp_sq_gaussianReal (m : ℝ) (v : ℝ≥0) :
    ∫ x, exp x ^ 2 ∂gaussianReal m v = exp (2 * m + 2 * v) := by
  have h := congrFun (mgf_fun_id_gaussianReal (μ := m) (v := v)) 2
  simp only [mgf] at h
  have e : ∀ x : ℝ, exp x ^ 2 = exp (2 * x) := fun x => by rw [← exp_nat_mul]; simp
  simp only [e, h]
  congr 1; ring

theorem memLp_exp_gaussianReal (m : ℝ) (v : ℝ≥0) : MemLp exp 2 (gaussianReal m v) := by
  rw [memLp_two_iff_integrable_sq (by fun_prop)]
  have e : ∀ x : ℝ, exp x ^ 2 = exp (2 * x) := fun x => by rw [← exp_nat_mul]; simp
  simp only [e]
  exact integrable_exp_mul_gaussianReal 2

theorem variance_exp_gaussianReal (m : ℝ) (v : ℝ≥0) :
    Var[exp; gaussianReal m v] = (exp v - 1) * exp (m + v / 2) ^ 2 := by
  rw [variance_eq_sub (memLp_exp_gaussianReal m v)]
  simp only [Pi.pow_apply, integral_exp_sq_gaussianReal, integral_exp_gaussianReal]
  rw [sub_mul, one_mul, ← exp_nat_mul, ← exp_add]
  congr 2
  push_cast; ring

theorem integral_sq_gaussianReal (m : ℝ) (v : ℝ≥0) :
    ∫ x, x ^ 2 ∂gaussianReal m v = m ^ 2 + v := by
  have h := variance_id_gaussianReal (μ := m) (v := v)
  rw [variance_eq_sub (memLp_id_gaussianReal 2)] at h
  simp only [Pi.pow_apply, id_eq, integral_id_gaussianReal] at h
  linarith

theorem integral_sub_sq_gaussianReal (m : ℝ) (v : ℝ≥0) :
    ∫ x, (x - m) ^ 2 ∂gaussianReal m v = v := by
  have h := variance_fun_id_gaussianReal (μ := m) (v := v)
  rw [variance_eq_integral (by fun_prop), integral_id_gaussianReal] at h
  exact h

theorem log_gaussianPDFReal (m : ℝ) {v : ℝ≥0} (hv : v ≠ 0) (x : ℝ) :
    log (gaussianPDFReal m v x) = -(1 / 2) * log (2 * π * v) - (x - m) ^ 2 / (2 * v) := by
  have hv' : (0 : ℝ) < v := by exact_mod_cast pos_iff_ne_zero.2 hv
  unfold gaussianPDFReal
  rw [log_mul (by positivity) (by positivity), log_exp, log_inv, log_sqrt (by positivity)]
  ring

/-- The differential entropy of a normal distribution. -/
theorem entropy_gaussian (m : ℝ) {v : ℝ≥0} (hv : v ≠ 0) :
    -∫ x, gaussianPDFReal m v x * log (gaussianPDFReal m v x) =
      1 / 2 * (log (2 * π * v) + 1) := by
  have hv' : (0 : ℝ) < v := by exact_mod_cast pos_iff_ne_zero.2 hv
  have h := integral_gaussianReal_eq_integral_smul (μ := m) hv
    (f := fun x => log (gaussianPDFReal m v x))
  simp only [smul_eq_mul] at h
  rw [← h]
  simp only [log_gaussianPDFReal m hv]
  have hi : Integrable (fun x : ℝ => (x - m) ^ 2) (gaussianReal m v) := by
    have : MemLp (fun x : ℝ => x - m) 2 (gaussianReal m v) :=
      (memLp_id_gaussianReal 2).sub (memLp_const m)
    exact this.integrable_sq
  rw [integral_sub (integrable_const _) (hi.div_const _), integral_div,
    integral_sub_sq_gaussianReal]
  simp
  field_simp
  ring

end

end LRVB
