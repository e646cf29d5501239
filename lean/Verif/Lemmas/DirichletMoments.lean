import Verif.Lemmas.DirichletDist

/-!
# Moments and entropy of the Dirichlet distribution
-/

namespace LRVB

open MeasureTheory ProbabilityTheory Set Filter Topology
open scoped ENNReal

noncomputable section

variable {m : ℕ} {α : Fin (m + 1) → ℝ}

theorem sum_alpha_pos (hα : ∀ i, 0 < α i) : 0 < ∑ i, α i :=
  Finset.sum_pos (fun i _ => hα i) Finset.univ_nonempty

theorem dirichletPdf_nonneg (hα : ∀ i, 0 < α i) (x : Fin m → ℝ) : 0 ≤ dirichletPdf α x := by
  unfold dirichletPdf
  split_ifs with h
  · have h0 := Real.Gamma_pos_of_pos (sum_alpha_pos hα)
    have h1 : 0 < ∏ i, Real.Gamma (α i) := Finset.prod_pos fun i _ => Real.Gamma_pos_of_pos (hα i)
    have h2 : 0 ≤ ∏ i, simplexPoint x i ^ (α i - 1) :=
      Finset.prod_nonneg fun i _ => Real.rpow_nonneg (h i) _
    positivity
  · exact le_rfl

theorem measurable_dirichletPdf (α : Fin (m + 1) → ℝ) : Measurable (dirichletPdf α) := by
  have h : ∀ i, Measurable fun x : Fin m → ℝ => simplexPoint x i := fun i =>
    (measurable_pi_apply i).comp measurable_simplexPoint
  unfold dirichletPdf
  refine Measurable.ite ?_ ?_ measurable_const
  · rw [show {x : Fin m → ℝ | ∀ i, 0 ≤ simplexPoint x i} = ⋂ i, {x | 0 ≤ simplexPoint x i} by
      ext x; simp]
    exact MeasurableSet.iInter fun i => measurableSet_le measurable_const (h i)
  · exact (Finset.measurable_prod _ fun i _ => (h i).pow_const _).const_mul _

/-- The Dirichlet distribution on all coordinates but the first. -/
def dirichlet (α : Fin (m + 1) → ℝ) : Measure (Fin m → ℝ) :=
  volume.withDensity fun x => ENNReal.ofReal (dirichletPdf α x)

theorem lintegral_dirichlet (hα : ∀ i, 0 < α i) :
    ∫⁻ x, ENNReal.ofReal (dirichletPdf α x) = 1 := by
  have := gammas_prob hα
  have := isProbabilityMeasure_gammaMeasure (sum_alpha_pos hα) one_pos
  have h := lintegral_normalized hα (fun _ => 1) measurable_const (fun _ => 1) measurable_const
  simpa using h.symm

theorem map_normalized (hα : ∀ i, 0 < α i) :
    (gammas α).map (fun g i => g i / ∑ j, g j) = (dirichlet α).map simplexPoint := by
  have hN : Measurable fun g : Fin (m + 1) → ℝ => fun i => g i / ∑ j, g j :=
    measurable_pi_lambda _ fun i => by fun_prop
  have := isProbabilityMeasure_gammaMeasure (sum_alpha_pos hα) one_pos
  refine Measure.ext_of_lintegral _ fun f hf => ?_
  have hfs : Measurable fun x : Fin m → ℝ => f (simplexPoint x) := hf.comp measurable_simplexPoint
  rw [lintegral_map hf hN, lintegral_map hf measurable_simplexPoint, dirichlet,
    lintegral_withDensity_eq_lintegral_mul _ (measurable_dirichletPdf α).ennreal_ofReal hfs]
  have h := lintegral_normalized hα f hf (fun _ => 1) measurable_const
  simpa using h

theorem map_sum (hα : ∀ i, 0 < α i) :
    (gammas α).map (fun g => ∑ j, g j) = gammaMeasure (∑ i, α i) 1 := by
  refine Measure.ext_of_lintegral _ fun f hf => ?_
  rw [lintegral_map hf (by fun_prop)]
  have h := lintegral_normalized hα (fun _ => 1) measurable_const f hf
  simpa [lintegral_dirichlet hα] using h

theorem map_eval (hα : ∀ i, 0 < α i) (i : Fin (m + 1)) :
    (gammas α).map (fun g => g i) = gammaMeasure (α i) 1 := by
  have := fun i => isProbabilityMeasure_gammaMeasure (hα i) one_pos
  exact (measurePreserving_eval (fun i => gammaMeasure (α i) 1) i).map_eq

theorem gamma_ae_pos {a : ℝ} (ha : 0 < a) : ∀ᵐ x ∂gammaMeasure a 1, 0 < x := by
  rw [ae_iff, gammaMeasure]
  have : MeasurableSet {x : ℝ | ¬ 0 < x} := by
    simp only [not_lt]
    exact measurableSet_Iic
  rw [withDensity_apply _ this]
  refine (setLIntegral_congr_fun_ae this ?_).trans (lintegral_zero)
  filter_upwards [Measure.ae_ne volume (0 : ℝ)] with x hx hx'
  exact gammaPDF_of_neg (lt_of_le_of_ne (not_lt.1 hx') hx)

theorem gammas_ae_pos (hα : ∀ i, 0 < α i) : ∀ᵐ g ∂gammas α, ∀ i, 0 < g i := by
  refine ae_all_iff.2 fun i => ?_
  have h := gamma_ae_pos (hα i)
  rw [← map_eval hα i] at h
  exact ae_of_ae_map (measurable_pi_apply i).aemeasurable h

theorem integrable_gammaMeasure {a : ℝ} (ha : 0 < a) {f : ℝ → ℝ}
    (h : Integrable fun x => gammaPDFReal a 1 x * f x) : Integrable f (gammaMeasure a 1) := by
  unfold gammaMeasure
  rw [integrable_withDensity_iff_integrable_smul' (measurable_gammaPDF a)
    (ae_of_all _ fun x => ENNReal.ofReal_lt_top)]
  refine h.congr (ae_of_all _ fun x => ?_)
  simp only [gammaPDF, smul_eq_mul]
  rw [ENNReal.toReal_ofReal (gammaPDFReal_nonneg ha one_pos x)]

theorem gammas_log (hα : ∀ i, 0 < α i) (i : Fin (m + 1)) :
    Integrable (fun g => Real.log (g i)) (gammas α) ∧
      ∫ g, Real.log (g i) ∂gammas α = psi (α i) := by
  have h1 := integrable_gammaMeasure (hα i) (integrable_gamma_log (hα i) one_pos)
  have h2 := (integral_gammaMeasure (hα i) one_pos Real.log).trans (gamma_log_mean (hα i) one_pos)
  rw [← map_eval hα i] at h1 h2
  rw [integral_map (measurable_pi_apply i).aemeasurable h1.aestronglyMeasurable] at h2
  exact ⟨h1.comp_measurable (measurable_pi_apply i), by simpa using h2⟩

theorem gammas_log_sum (hα : ∀ i, 0 < α i) :
    Integrable (fun g => Real.log (∑ j, g j)) (gammas α) ∧
      ∫ g, Real.log (∑ j, g j) ∂gammas α = psi (∑ i, α i) := by
  have h0 := sum_alpha_pos hα
  have hm : Measurable fun g : Fin (m + 1) → ℝ => ∑ j, g j := by fun_prop
  have h1 := integrable_gammaMeasure h0 (integrable_gamma_log h0 one_pos)
  have h2 := (integral_gammaMeasure h0 one_pos Real.log).trans (gamma_log_mean h0 one_pos)
  rw [← map_sum hα] at h1 h2
  rw [integral_map hm.aemeasurable h1.aestronglyMeasurable] at h2
  exact ⟨h1.comp_measurable hm, by simpa using h2⟩

/-- Functions of the normalized variables. -/
theorem integral_normalized (hα : ∀ i, 0 < α i) {f : (Fin (m + 1) → ℝ) → ℝ} (hf : Measurable f)
    (hi : Integrable (fun g => f fun i => g i / ∑ j, g j) (gammas α)) :
    Integrable (fun x => dirichletPdf α x * f (simplexPoint x)) ∧
      ∫ x, dirichletPdf α x * f (simplexPoint x) = ∫ g, f (fun i => g i / ∑ j, g j) ∂gammas α := by
  have hN : Measurable fun g : Fin (m + 1) → ℝ => fun i => g i / ∑ j, g j :=
    measurable_pi_lambda _ fun i => by fun_prop
  have hd := (measurable_dirichletPdf α).ennreal_ofReal
  have hlt : ∀ᵐ x : Fin m → ℝ, ENNReal.ofReal (dirichletPdf α x) < ∞ :=
    ae_of_all _ fun x => ENNReal.ofReal_lt_top
  have e : ∀ x, (ENNReal.ofReal (dirichletPdf α x)).toReal = dirichletPdf α x := fun x =>
    ENNReal.toReal_ofReal (dirichletPdf_nonneg hα x)
  have h1 : Integrable f ((gammas α).map fun g i => g i / ∑ j, g j) :=
    (integrable_map_measure hf.aestronglyMeasurable hN.aemeasurable).2 hi
  rw [map_normalized hα] at h1
  have h2 := (integrable_map_measure hf.aestronglyMeasurable
    measurable_simplexPoint.aemeasurable).1 h1
  rw [dirichlet, integrable_withDensity_iff_integrable_smul' hd hlt] at h2
  simp only [e, smul_eq_mul, Function.comp_apply] at h2
  refine ⟨h2, ?_⟩
  rw [← integral_map (f := f) hN.aemeasurable hf.aestronglyMeasurable, map_normalized hα,
    integral_map measurable_simplexPoint.aemeasurable hf.aestronglyMeasurable, dirichlet,
    integral_withDensity_eq_integral_toReal_smul hd hlt]
  simp only [e, smul_eq_mul]

theorem integral_dirichletPdf (hα : ∀ i, 0 < α i) : ∫ x, dirichletPdf α x = 1 := by
  have := gammas_prob hα
  have h := integral_normalized hα (f := fun _ => 1) measurable_const (integrable_const _)
  simpa using h.2

theorem dirichlet_log (hα : ∀ i, 0 < α i) (i : Fin (m + 1)) :
    Integrable (fun x => dirichletPdf α x * Real.log (simplexPoint x i)) ∧
      ∫ x, dirichletPdf α x * Real.log (simplexPoint x i) = psi (α i) - psi (∑ j, α j) := by
  obtain ⟨h1, h2⟩ := gammas_log hα i
  obtain ⟨h3, h4⟩ := gammas_log_sum hα
  have hae : (fun g : Fin (m + 1) → ℝ => Real.log (g i / ∑ j, g j)) =ᵐ[gammas α]
      fun g => Real.log (g i) - Real.log (∑ j, g j) := by
    filter_upwards [gammas_ae_pos hα] with g hg
    exact Real.log_div (hg i).ne' (Finset.sum_pos (fun i _ => hg i) Finset.univ_nonempty).ne'
  have h := integral_normalized hα (f := fun v => Real.log (v i))
    (Real.measurable_log.comp (measurable_pi_apply i)) ((h1.sub h3).congr hae.symm)
  refine ⟨h.1, h.2.trans ?_⟩
  rw [integral_congr_ae hae, integral_sub h1 h3, h2, h4]

theorem lintegral_gamma_id {a : ℝ} (ha : 0 < a) :
    ∫⁻ x, ENNReal.ofReal x ∂gammaMeasure a 1 = ENNReal.ofReal a := by
  have h1 : Integrable (fun x : ℝ => x) (gammaMeasure a 1) :=
    integrable_gammaMeasure ha (integrable_gamma_id ha one_pos)
  rw [← ofReal_integral_eq_lintegral_ofReal h1
    ((gamma_ae_pos ha).mono fun x hx => le_of_lt hx)]
  congr 1
  rw [integral_gammaMeasure ha one_pos fun x => x, gamma_mean ha one_pos, div_one]

theorem dirichlet_mean (hα : ∀ i, 0 < α i) (i : Fin (m + 1)) :
    ∫ x, dirichletPdf α x * simplexPoint x i = α i / ∑ j, α j := by
  have h0 := sum_alpha_pos hα
  have h := lintegral_normalized hα (fun v => ENNReal.ofReal (v i))
    (measurable_pi_apply i).ennreal_ofReal ENNReal.ofReal ENNReal.measurable_ofReal
  rw [lintegral_gamma_id h0] at h
  have h1 : ∫⁻ g, ENNReal.ofReal (g i / ∑ j, g j) * ENNReal.ofReal (∑ j, g j) ∂gammas α =
      ENNReal.ofReal (α i) := by
    rw [← lintegral_gamma_id (hα i), ← map_eval hα i,
      lintegral_map ENNReal.measurable_ofReal (measurable_pi_apply i)]
    refine lintegral_congr_ae ?_
    filter_upwards [gammas_ae_pos hα] with g hg
    have hs : 0 < ∑ j, g j := Finset.sum_pos (fun i _ => hg i) Finset.univ_nonempty
    rw [← ENNReal.ofReal_mul (div_pos (hg i) hs).le, div_mul_cancel₀ _ hs.ne']
  rw [h1] at h
  have hnn : ∀ x : Fin m → ℝ, 0 ≤ dirichletPdf α x * simplexPoint x i := by
    intro x
    by_cases hx : ∀ i, 0 ≤ simplexPoint x i
    · exact mul_nonneg (dirichletPdf_nonneg hα x) (hx i)
    · rw [dirichletPdf, if_neg hx, zero_mul]
  rw [integral_eq_lintegral_of_nonneg_ae (ae_of_all _ hnn)
    ((measurable_dirichletPdf α).mul
      ((measurable_pi_apply i).comp measurable_simplexPoint)).aestronglyMeasurable]
  simp only [ENNReal.ofReal_mul (dirichletPdf_nonneg hα _)]
  have h2 := congrArg ENNReal.toReal h
  rw [ENNReal.toReal_mul, ENNReal.toReal_ofReal (hα i).le, ENNReal.toReal_ofReal h0.le] at h2
  rw [eq_div_iff h0.ne', h2]

/-- The differential entropy of the Dirichlet density. -/
theorem entropy_dirichlet (hα : ∀ i, 0 < α i) :
    Integrable (fun x => dirichletPdf α x * Real.log (dirichletPdf α x)) ∧
    -∫ x, dirichletPdf α x * Real.log (dirichletPdf α x) =
      ∑ i, Real.log (Real.Gamma (α i)) - Real.log (Real.Gamma (∑ i, α i)) -
        ((m + 1 : ℝ) - ∑ i, α i) * psi (∑ i, α i) - ∑ i, (α i - 1) * psi (α i) := by
  have hG : ∀ i, 0 < Real.Gamma (α i) := fun i => Real.Gamma_pos_of_pos (hα i)
  have h0 : 0 < Real.Gamma (∑ i, α i) := Real.Gamma_pos_of_pos (sum_alpha_pos hα)
  have hP : 0 < ∏ i, Real.Gamma (α i) := Finset.prod_pos fun i _ => hG i
  have := gammas_prob hα
  set c := Real.log (Real.Gamma (∑ i, α i)) - ∑ i, Real.log (Real.Gamma (α i)) with hc
  have hae : ∀ᵐ x : Fin m → ℝ, dirichletPdf α x * Real.log (dirichletPdf α x) =
      dirichletPdf α x * c +
        ∑ i, (α i - 1) * (dirichletPdf α x * Real.log (simplexPoint x i)) := by
    have hpos : ∀ᵐ x ∂dirichlet α, ∀ i, 0 < simplexPoint x i := by
      have hN : Measurable fun g : Fin (m + 1) → ℝ => fun i => g i / ∑ j, g j :=
        measurable_pi_lambda _ fun i => by fun_prop
      have hs : MeasurableSet {v : Fin (m + 1) → ℝ | ∀ i, 0 < v i} := by
        rw [show {v : Fin (m + 1) → ℝ | ∀ i, 0 < v i} = ⋂ i, {v | 0 < v i} by ext; simp]
        exact MeasurableSet.iInter fun i => measurableSet_lt measurable_const (measurable_pi_apply i)
      have h1 : ∀ᵐ v ∂(gammas α).map (fun g i => g i / ∑ j, g j), ∀ i, 0 < v i := by
        rw [ae_map_iff hN.aemeasurable hs]
        filter_upwards [gammas_ae_pos hα] with g hg i
        exact div_pos (hg i) (Finset.sum_pos (fun i _ => hg i) Finset.univ_nonempty)
      rw [map_normalized hα] at h1
      exact ae_of_ae_map measurable_simplexPoint.aemeasurable h1
    rw [dirichlet, ae_withDensity_iff (measurable_dirichletPdf α).ennreal_ofReal] at hpos
    filter_upwards [hpos] with x hx
    by_cases hz : dirichletPdf α x = 0
    · simp [hz]
    · have hx' := hx (by
        rw [Ne, ENNReal.ofReal_eq_zero, not_le]
        exact lt_of_le_of_ne (dirichletPdf_nonneg hα x) (Ne.symm hz))
      have hpw : ∀ i, simplexPoint x i ^ (α i - 1) ≠ 0 := fun i =>
        (Real.rpow_pos_of_pos (hx' i) _).ne'
      have hlog : Real.log (dirichletPdf α x) =
          c + ∑ i, (α i - 1) * Real.log (simplexPoint x i) := by
        unfold dirichletPdf
        rw [if_pos fun i => (hx' i).le, Real.log_mul (div_ne_zero h0.ne' hP.ne')
          (Finset.prod_ne_zero_iff.2 fun i _ => hpw i), Real.log_div h0.ne' hP.ne',
          Real.log_prod fun i _ => (hG i).ne', Real.log_prod fun i _ => hpw i]
        congr 1
        exact Finset.sum_congr rfl fun i _ => Real.log_rpow (hx' i) _
      rw [hlog, mul_add, Finset.mul_sum]
      congr 1
      exact Finset.sum_congr rfl fun i _ => by ring
  have hi1 : Integrable (fun x : Fin m → ℝ => dirichletPdf α x * c) :=
    (integral_normalized hα (f := fun _ => c) measurable_const (integrable_const _)).1
  have hi2 : ∀ i, Integrable (fun x : Fin m → ℝ =>
      (α i - 1) * (dirichletPdf α x * Real.log (simplexPoint x i))) := fun i =>
    (dirichlet_log hα i).1.const_mul _
  have hi3 := integrable_finset_sum Finset.univ fun i _ => hi2 i
  refine ⟨(hi1.add hi3).congr (hae.mono fun x hx => hx.symm), ?_⟩
  rw [integral_congr_ae hae, integral_add hi1 hi3, integral_mul_const, integral_dirichletPdf hα,
    integral_finset_sum _ fun i _ => hi2 i]
  simp only [integral_const_mul, (dirichlet_log hα _).2]
  rw [hc]
  simp only [mul_sub, Finset.sum_sub_distrib]
  rw [← Finset.sum_mul, Finset.sum_sub_distrib]
  simp
  ring

end

end LRVB
