import Mathlib.Probability.Distributions.Gamma
import Mathlib.Analysis.MellinTransform
import Mathlib.Analysis.SpecialFunctions.Gamma.Deriv

/-!
# Moments and entropy of the gamma distribution
-/

namespace LRVB

open MeasureTheory ProbabilityTheory Set Filter Asymptotics Topology

noncomputable section

theorem cpow_real_smul (t s : ℝ) (ht : 0 < t) (y : ℝ) :
    ((t : ℂ) ^ ((s : ℂ) - 1) • (y : ℂ)) = ((t ^ (s - 1) * y : ℝ) : ℂ) := by
  rw [smul_eq_mul, Complex.ofReal_mul, Complex.ofReal_cpow ht.le]
  push_cast
  rfl

theorem mellin_ofReal (f : ℝ → ℝ) (s : ℝ) :
    mellin (fun t => (f t : ℂ)) s = ((∫ t in Ioi (0 : ℝ), t ^ (s - 1) * f t : ℝ) : ℂ) := by
  unfold mellin
  refine Eq.trans ?_ (integral_ofReal (𝕜 := ℂ))
  exact setIntegral_congr_fun measurableSet_Ioi fun t ht => cpow_real_smul t s ht (f t)

/-- Differentiating `∫ t^(s-1) f(t) dt` in `s`. -/
theorem real_mellin_deriv {f : ℝ → ℝ} (hfc : LocallyIntegrableOn f (Ioi 0))
    (htop : ∀ b : ℝ, f =O[atTop] fun t => t ^ (-b)) (hbot : f =O[𝓝[>] 0] fun _ => (1 : ℝ))
    {a : ℝ} (ha : 0 < a) :
    IntegrableOn (fun t => t ^ (a - 1) * (Real.log t * f t)) (Ioi 0) ∧
      HasDerivAt (fun s => ∫ t in Ioi (0 : ℝ), t ^ (s - 1) * f t)
        (∫ t in Ioi (0 : ℝ), t ^ (a - 1) * (Real.log t * f t)) a := by
  have key := mellin_hasDerivAt_of_isBigO_rpow (E := ℂ) (f := fun t => (f t : ℂ)) (s := (a : ℂ))
    (a := a + 1) (b := 0) (fun x hx => by
      obtain ⟨u, hu, hi⟩ := hfc x hx
      exact ⟨u, hu, hi.ofReal⟩)
    (by
      rw [← isBigO_norm_left]
      simp_rw [Complex.norm_real, isBigO_norm_left]
      exact htop _) (by simp) (by
      rw [← isBigO_norm_left]
      simp_rw [Complex.norm_real, isBigO_norm_left, neg_zero, Real.rpow_zero]
      exact hbot) (by simpa using ha)
  obtain ⟨k1, k2⟩ := key
  have e1 : (fun t : ℝ => (Real.log t • (f t : ℂ))) = fun t => ((Real.log t * f t : ℝ) : ℂ) := by
    funext t
    rw [Complex.real_smul, Complex.ofReal_mul]
  rw [e1] at k1 k2
  constructor
  · have h3 : IntegrableOn (fun t : ℝ => ((t ^ (a - 1) * (Real.log t * f t) : ℝ) : ℂ)) (Ioi 0) :=
      IntegrableOn.congr_fun k1 (fun t ht => cpow_real_smul t a ht _) measurableSet_Ioi
    exact h3.re
  · rw [mellin_ofReal] at k2
    have h4 := k2.real_of_complex
    rw [Complex.ofReal_re] at h4
    refine h4.congr_of_eventuallyEq (Eventually.of_forall fun s => ?_)
    simp only
    rw [mellin_ofReal, Complex.ofReal_re]

theorem exp_neg_mul_top {r : ℝ} (hr : 0 < r) (b : ℝ) :
    (fun t => Real.exp (-(r * t))) =O[atTop] fun t => t ^ (-b) := by
  have := (isLittleO_exp_neg_mul_rpow_atTop hr (-b)).isBigO
  simpa only [neg_mul] using this

theorem exp_neg_mul_bot (r : ℝ) :
    (fun t => Real.exp (-(r * t))) =O[𝓝[>] 0] fun _ => (1 : ℝ) := by
  refine isBigO_const_of_tendsto (y := Real.exp (-(r * 0))) ?_ one_ne_zero
  exact (by fun_prop : Continuous fun t => Real.exp (-(r * t))).continuousWithinAt

/-- The digamma function. -/
def psi (x : ℝ) : ℝ := deriv (fun t => Real.log (Real.Gamma t)) x

theorem deriv_Gamma {a : ℝ} (ha : 0 < a) : deriv Real.Gamma a = psi a * Real.Gamma a := by
  have hd : DifferentiableAt ℝ Real.Gamma a := Real.differentiableAt_Gamma fun m => by
    have : (0 : ℝ) ≤ m := by positivity
    linarith
  unfold psi
  rw [deriv.log hd (Real.Gamma_pos_of_pos ha).ne', div_mul_cancel₀ _ (Real.Gamma_pos_of_pos ha).ne']

theorem integral_log_gamma_kernel {a r : ℝ} (ha : 0 < a) (hr : 0 < r) :
    IntegrableOn (fun t => t ^ (a - 1) * (Real.log t * Real.exp (-(r * t)))) (Ioi 0) ∧
      ∫ t in Ioi (0 : ℝ), t ^ (a - 1) * (Real.log t * Real.exp (-(r * t))) =
        (1 / r) ^ a * Real.Gamma a * (psi a - Real.log r) := by
  obtain ⟨h1, h2⟩ := real_mellin_deriv (f := fun t => Real.exp (-(r * t)))
    ((by fun_prop : Continuous fun t => Real.exp (-(r * t))).continuousOn.locallyIntegrableOn
      measurableSet_Ioi) (exp_neg_mul_top hr) (exp_neg_mul_bot r) ha
  refine ⟨h1, ?_⟩
  have hd : DifferentiableAt ℝ Real.Gamma a := Real.differentiableAt_Gamma fun m => by
    have : (0 : ℝ) ≤ m := by positivity
    linarith
  have h3 : HasDerivAt (fun s => (1 / r) ^ s * Real.Gamma s)
      ((1 / r) ^ a * Real.log (1 / r) * Real.Gamma a + (1 / r) ^ a * deriv Real.Gamma a) a := by
    have h4 : HasDerivAt (fun s : ℝ => (1 / r) ^ s) ((1 / r) ^ a * Real.log (1 / r)) a :=
      (Real.hasStrictDerivAt_const_rpow (by positivity) a).hasDerivAt
    exact h4.mul hd.hasDerivAt
  have h5 : (fun s => ∫ t in Ioi (0 : ℝ), t ^ (s - 1) * Real.exp (-(r * t))) =ᶠ[𝓝 a]
      fun s => (1 / r) ^ s * Real.Gamma s := by
    filter_upwards [lt_mem_nhds ha] with s hs
    exact Real.integral_rpow_mul_exp_neg_mul_Ioi hs hr
  rw [(h3.congr_of_eventuallyEq h5).unique h2 |>.symm, deriv_Gamma ha, one_div, Real.log_inv]
  ring

theorem integrable_gamma_kernel {a r : ℝ} (ha : 0 < a) (hr : 0 < r) :
    IntegrableOn (fun t => t ^ (a - 1) * Real.exp (-(r * t))) (Ioi 0) := by
  refine Integrable.of_integral_ne_zero ?_
  rw [Real.integral_rpow_mul_exp_neg_mul_Ioi ha hr]
  have := Real.Gamma_pos_of_pos ha
  positivity

/-- Integrals against the gamma density. -/
theorem integral_gammaPDFReal_mul (a r : ℝ) (g : ℝ → ℝ) :
    ∫ x, gammaPDFReal a r x * g x =
      r ^ a / Real.Gamma a * ∫ t in Ioi (0 : ℝ), t ^ (a - 1) * Real.exp (-(r * t)) * g t := by
  rw [← integral_const_mul, ← integral_Ici_eq_integral_Ioi, ← integral_indicator measurableSet_Ici]
  congr 1
  funext x
  unfold gammaPDFReal indicator
  simp only [mem_Ici]
  split_ifs
  · ring
  · simp

theorem integral_gammaMeasure {a r : ℝ} (ha : 0 < a) (hr : 0 < r) (g : ℝ → ℝ) :
    ∫ x, g x ∂gammaMeasure a r = ∫ x, gammaPDFReal a r x * g x := by
  unfold gammaMeasure
  rw [integral_withDensity_eq_integral_toReal_smul]
  · simp only [smul_eq_mul, gammaPDF]
    congr 1
    funext x
    rw [ENNReal.toReal_ofReal (gammaPDFReal_nonneg ha hr x)]
  · exact (measurable_gammaPDFReal a r).ennreal_ofReal
  · exact ae_of_all _ fun x => by simp [gammaPDF]

theorem norm_const {a r : ℝ} (ha : 0 < a) (hr : 0 < r) :
    r ^ a / Real.Gamma a * ((1 / r) ^ a * Real.Gamma a) = 1 := by
  have h1 := (Real.Gamma_pos_of_pos ha).ne'
  have h2 : (r ^ a) ≠ 0 := (Real.rpow_pos_of_pos hr a).ne'
  rw [one_div, Real.inv_rpow hr.le]
  field_simp

theorem integral_gammaPDFReal {a r : ℝ} (ha : 0 < a) (hr : 0 < r) : ∫ x, gammaPDFReal a r x = 1 := by
  have := integral_gammaPDFReal_mul a r fun _ => 1
  simp only [mul_one] at this
  rw [this, Real.integral_rpow_mul_exp_neg_mul_Ioi ha hr, norm_const ha hr]

theorem kernel_mul_id {a r t : ℝ} (ht : 0 < t) :
    t ^ (a - 1) * Real.exp (-(r * t)) * t = t ^ (a + 1 - 1) * Real.exp (-(r * t)) := by
  rw [show a + 1 - 1 = (a - 1) + 1 by ring, Real.rpow_add_one ht.ne']
  ring

theorem gamma_mean {a r : ℝ} (ha : 0 < a) (hr : 0 < r) : ∫ x, gammaPDFReal a r x * x = a / r := by
  rw [integral_gammaPDFReal_mul a r fun x => x,
    setIntegral_congr_fun measurableSet_Ioi fun t ht => kernel_mul_id ht,
    Real.integral_rpow_mul_exp_neg_mul_Ioi (by linarith) hr, Real.Gamma_add_one ha.ne',
    Real.rpow_add_one (by positivity)]
  have := norm_const ha hr
  calc r ^ a / Real.Gamma a * ((1 / r) ^ a * (1 / r) * (a * Real.Gamma a))
      = r ^ a / Real.Gamma a * ((1 / r) ^ a * Real.Gamma a) * (a / r) := by ring
    _ = a / r := by rw [this, one_mul]

theorem gamma_log_mean {a r : ℝ} (ha : 0 < a) (hr : 0 < r) :
    ∫ x, gammaPDFReal a r x * Real.log x = psi a - Real.log r := by
  rw [integral_gammaPDFReal_mul a r Real.log]
  have e : (fun t => t ^ (a - 1) * Real.exp (-(r * t)) * Real.log t) =
      fun t => t ^ (a - 1) * (Real.log t * Real.exp (-(r * t))) := by funext t; ring
  rw [e, (integral_log_gamma_kernel ha hr).2, ← mul_assoc, norm_const ha hr, one_mul]

theorem integrable_of_Ioi {f : ℝ → ℝ} (h : IntegrableOn f (Ioi 0)) (h0 : ∀ x < 0, f x = 0) :
    Integrable f := by
  have h1 : IntegrableOn f (Ici 0) := (integrableOn_Ici_iff_integrableOn_Ioi (by simp)).2 h
  rw [← integrableOn_iff_integrable_of_support_subset (s := Ici 0)]
  · exact h1
  · intro x hx
    by_contra hc
    exact hx (h0 x (by simpa using hc))

theorem integrable_gammaPDFReal_mul {a r : ℝ} {g : ℝ → ℝ}
    (h : IntegrableOn (fun t => t ^ (a - 1) * Real.exp (-(r * t)) * g t) (Ioi 0)) :
    Integrable fun x => gammaPDFReal a r x * g x := by
  refine integrable_of_Ioi ?_ fun x hx => by simp [gammaPDFReal, not_le.2 hx]
  refine IntegrableOn.congr_fun (Integrable.const_mul h (r ^ a / Real.Gamma a)) (fun t ht => ?_) measurableSet_Ioi
  simp only [gammaPDFReal, if_pos (le_of_lt (mem_Ioi.1 ht))]
  ring

theorem integrable_gamma_one {a r : ℝ} (ha : 0 < a) (hr : 0 < r) :
    Integrable (gammaPDFReal a r) := by
  have := integrable_gammaPDFReal_mul (a := a) (r := r) (g := fun _ => 1)
    (by simpa using integrable_gamma_kernel ha hr)
  simpa using this

theorem integrable_gamma_id {a r : ℝ} (ha : 0 < a) (hr : 0 < r) :
    Integrable fun x => gammaPDFReal a r x * x :=
  integrable_gammaPDFReal_mul (g := fun x => x)
    ((integrable_gamma_kernel (a := a + 1) (by linarith) hr).congr_fun
      (fun t ht => (kernel_mul_id ht).symm) measurableSet_Ioi)

theorem integrable_gamma_log {a r : ℝ} (ha : 0 < a) (hr : 0 < r) :
    Integrable fun x => gammaPDFReal a r x * Real.log x :=
  integrable_gammaPDFReal_mul (g := Real.log)
    ((integral_log_gamma_kernel ha hr).1.congr_fun (fun t _ => by ring) measurableSet_Ioi)

theorem log_gammaPDFReal {a r x : ℝ} (ha : 0 < a) (hr : 0 < r) (hx : 0 < x) :
    Real.log (gammaPDFReal a r x) =
      a * Real.log r - Real.log (Real.Gamma a) + (a - 1) * Real.log x - r * x := by
  have hG := Real.Gamma_pos_of_pos ha
  have h1 := Real.rpow_pos_of_pos hr a
  have h2 := Real.rpow_pos_of_pos hx (a - 1)
  rw [gammaPDFReal, if_pos hx.le, Real.log_mul (by positivity) (by positivity),
    Real.log_mul (by positivity) (by positivity), Real.log_div h1.ne' hG.ne', Real.log_rpow hr,
    Real.log_rpow hx, Real.log_exp]
  ring

/-- The differential entropy of the gamma density. -/
theorem entropy_gamma {a r : ℝ} (ha : 0 < a) (hr : 0 < r) :
    -∫ x, gammaPDFReal a r x * Real.log (gammaPDFReal a r x) =
      a - Real.log r + Real.log (Real.Gamma a) + (1 - a) * psi a := by
  have e : (fun x => gammaPDFReal a r x * Real.log (gammaPDFReal a r x)) =ᵐ[volume] fun x =>
      (a * Real.log r - Real.log (Real.Gamma a)) * gammaPDFReal a r x +
        (a - 1) * (gammaPDFReal a r x * Real.log x) - r * (gammaPDFReal a r x * x) := by
    have h0 : ∀ᵐ x : ℝ, x ≠ 0 := by
      rw [ae_iff]
      simp
    filter_upwards [h0] with x hx
    rcases lt_or_gt_of_ne hx with h | h
    · simp [gammaPDFReal, not_le.2 h]
    · rw [log_gammaPDFReal ha hr h]
      ring
  rw [integral_congr_ae e, integral_sub, integral_add, integral_const_mul, integral_const_mul,
    integral_const_mul, integral_gammaPDFReal ha hr, gamma_log_mean ha hr, gamma_mean ha hr]
  · field_simp
    ring
  · exact (integrable_gamma_one ha hr).const_mul _
  · exact (integrable_gamma_log ha hr).const_mul _
  · exact ((integrable_gamma_one ha hr).const_mul _).add ((integrable_gamma_log ha hr).const_mul _)
  · exact (integrable_gamma_id ha hr).const_mul _

end

end LRVB
