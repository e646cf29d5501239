import Verif.Lemmas.GammaDist
import Verif.Spec.Dirichlet
import Mathlib.MeasureTheory.Integral.Pi
import Mathlib.MeasureTheory.Measure.Haar.NormedSpace

/-!
# Normalized independent gamma variables have the Dirichlet density
-/

namespace LRVB

open MeasureTheory ProbabilityTheory Set Filter Topology
open scoped ENNReal

noncomputable section

theorem piFin_symm {m : ℕ} (z : ℝ × (Fin m → ℝ)) :
    (MeasurableEquiv.piFinSuccAbove (fun _ : Fin (m + 1) => ℝ) 0).symm z = Fin.cons z.1 z.2 := by
  simp [MeasurableEquiv.piFinSuccAbove_symm_apply, Fin.insertNthEquiv]

/-- Tonelli for products of functions of one coordinate. -/
theorem lintegral_pi_prod : ∀ {n : ℕ} (μ : Fin n → Measure ℝ) [∀ i, SigmaFinite (μ i)]
    (f : Fin n → ℝ → ℝ≥0∞), (∀ i, Measurable (f i)) →
    ∫⁻ x, ∏ i, f i (x i) ∂Measure.pi μ = ∏ i, ∫⁻ x, f i x ∂μ i
  | 0, μ, _, f, _ => by simp
  | n + 1, μ, _, f, hf => by
    have h := (measurePreserving_piFinSuccAbove μ 0).symm
    rw [← h.lintegral_comp (by fun_prop)]
    simp only [piFin_symm, Fin.prod_univ_succ, Fin.cons_zero, Fin.cons_succ, Fin.zero_succAbove]
    rw [lintegral_prod_mul (f := f 0) (g := fun y : Fin n → ℝ => ∏ i, f i.succ (y i))
      (hf 0).aemeasurable (Measurable.aemeasurable
        (Finset.measurable_prod _ fun i _ => (hf i.succ).comp (measurable_pi_apply i)))]
    rw [lintegral_pi_prod (fun i : Fin n => μ i.succ) (fun i => f i.succ) fun i => hf _]

/-- Independent gamma variables. -/
def gammas {n : ℕ} (α : Fin n → ℝ) : Measure (Fin n → ℝ) :=
  Measure.pi fun i => gammaMeasure (α i) 1

theorem gammas_prob {n : ℕ} {α : Fin n → ℝ} (hα : ∀ i, 0 < α i) :
    IsProbabilityMeasure (gammas α) := by
  have := fun i => isProbabilityMeasure_gammaMeasure (hα i) one_pos
  unfold gammas
  infer_instance

theorem measurable_gammaPDF (a : ℝ) : Measurable (gammaPDF a 1) :=
  ENNReal.measurable_ofReal.comp (measurable_gammaPDFReal a 1)

theorem gammas_density {n : ℕ} {α : Fin n → ℝ} (hα : ∀ i, 0 < α i) :
    gammas α = volume.withDensity fun g => ∏ i, gammaPDF (α i) 1 (g i) := by
  have := fun i => isProbabilityMeasure_gammaMeasure (hα i) one_pos
  have hm := fun i => measurable_gammaPDF (α i)
  refine Measure.pi_eq fun s hs => ?_
  rw [withDensity_apply _ (MeasurableSet.univ_pi hs), ← lintegral_indicator (MeasurableSet.univ_pi hs)]
  have h1 : ∀ g : Fin n → ℝ, (univ.pi s).indicator (fun g => ∏ i, gammaPDF (α i) 1 (g i)) g =
      ∏ i, (s i).indicator (gammaPDF (α i) 1) (g i) := by
    intro g
    by_cases hg : g ∈ univ.pi s
    · rw [indicator_of_mem hg]
      exact Finset.prod_congr rfl fun i _ => (indicator_of_mem (hg i (mem_univ i)) _).symm
    · rw [indicator_of_notMem hg]
      simp only [mem_univ_pi, not_forall] at hg
      obtain ⟨i, hi⟩ := hg
      exact (Finset.prod_eq_zero (Finset.mem_univ i) (indicator_of_notMem hi _)).symm
  simp only [h1]
  rw [show (volume : Measure (Fin n → ℝ)) = Measure.pi fun _ => volume from rfl,
    lintegral_pi_prod _ _ fun i => (hm i).indicator (hs i)]
  refine Finset.prod_congr rfl fun i _ => ?_
  rw [lintegral_indicator (hs i), gammaMeasure, withDensity_apply _ (hs i)]

/-- Integration over `m + 1` coordinates, by the sum of all of them and the last `m`. -/
theorem lintegral_by_sum {m : ℕ} (Φ : (Fin (m + 1) → ℝ) → ℝ≥0∞) (hΦ : Measurable Φ) :
    ∫⁻ g, Φ g = ∫⁻ s : ℝ, ∫⁻ y : Fin m → ℝ, Φ (Fin.cons (s - ∑ i, y i) y) := by
  have h := (volume_preserving_piFinSuccAbove (fun _ : Fin (m + 1) => ℝ) 0).symm
  have hc : Measurable fun z : ℝ × (Fin m → ℝ) => (Fin.cons z.1 z.2 : Fin (m + 1) → ℝ) := by
    refine measurable_pi_lambda _ fun i => ?_
    refine Fin.cases ?_ (fun j => ?_) i
    · exact measurable_fst
    · simp only [Fin.cons_succ]
      fun_prop
  rw [← h.lintegral_comp hΦ]
  simp only [piFin_symm]
  rw [Measure.volume_eq_prod,
    lintegral_prod_symm' (fun z : ℝ × (Fin m → ℝ) => Φ (Fin.cons z.1 z.2)) (hΦ.comp hc)]
  have h2 : ∀ y : Fin m → ℝ, ∫⁻ a : ℝ, Φ (Fin.cons a y) =
      ∫⁻ s : ℝ, Φ (Fin.cons (s - ∑ i, y i) y) := fun y =>
    (lintegral_sub_right_eq_self (fun a => Φ (Fin.cons a y)) (∑ i, y i)).symm
  simp only [h2]
  refine lintegral_lintegral_swap (f := fun (y : Fin m → ℝ) (s : ℝ) =>
    Φ (Fin.cons (s - ∑ i, y i) y)) (Measurable.aemeasurable ?_)
  exact hΦ.comp (hc.comp (f := fun z : (Fin m → ℝ) × ℝ => (z.2 - ∑ i, z.1 i, z.1)) (by fun_prop))

theorem lintegral_scale {m : ℕ} (Ψ : (Fin m → ℝ) → ℝ≥0∞) (hΨ : Measurable Ψ) {s : ℝ} (hs : 0 < s) :
    ∫⁻ y, Ψ y = ENNReal.ofReal (s ^ m) * ∫⁻ x, Ψ (s • x) := by
  have h := Measure.map_addHaar_smul (volume : Measure (Fin m → ℝ)) hs.ne'
  rw [← lintegral_map hΨ (measurable_const_smul s), h, lintegral_smul_measure, smul_eq_mul,
    ← mul_assoc, ← ENNReal.ofReal_mul (by positivity), Module.finrank_fin_fun,
    abs_of_pos (by positivity), mul_inv_cancel₀ (by positivity), ENNReal.ofReal_one, one_mul]

theorem sum_simplexPoint {m : ℕ} (x : Fin m → ℝ) : ∑ i, simplexPoint x i = 1 := by
  rw [Fin.sum_univ_succ]
  simp [simplexPoint]

theorem measurable_simplexPoint {m : ℕ} :
    Measurable (simplexPoint : (Fin m → ℝ) → Fin (m + 1) → ℝ) := by
  refine measurable_pi_lambda _ fun i => ?_
  refine Fin.cases ?_ (fun j => ?_) i
  · simp only [simplexPoint, Fin.cons_zero]
    fun_prop
  · simp only [simplexPoint, Fin.cons_succ]
    fun_prop

theorem cons_scale {m : ℕ} (s : ℝ) (x : Fin m → ℝ) :
    (Fin.cons (s - ∑ i, (s • x) i) (s • x) : Fin (m + 1) → ℝ) = s • simplexPoint x := by
  funext i
  refine Fin.cases ?_ (fun j => ?_) i
  · simp [simplexPoint, ← Finset.mul_sum, mul_sub]
  · simp [simplexPoint]

theorem gammaPDF_scaled {m : ℕ} {α : Fin (m + 1) → ℝ} (hα : ∀ i, 0 < α i) {s : ℝ} (hs : 0 < s)
    (x : Fin m → ℝ) :
    ENNReal.ofReal (s ^ m) * ∏ i, gammaPDF (α i) 1 ((s • simplexPoint x) i) =
      ENNReal.ofReal (dirichletPdf α x) * gammaPDF (∑ i, α i) 1 s := by
  unfold dirichletPdf
  by_cases hx : ∀ i, 0 ≤ simplexPoint x i
  · rw [if_pos hx]
    have h1 : ∀ i, gammaPDF (α i) 1 ((s • simplexPoint x) i) = ENNReal.ofReal
        (1 / Real.Gamma (α i) * (s ^ (α i - 1) * simplexPoint x i ^ (α i - 1)) *
          Real.exp (-(s * simplexPoint x i))) := fun i => by
      have : 0 ≤ s * simplexPoint x i := mul_nonneg hs.le (hx i)
      rw [gammaPDF, gammaPDFReal, Pi.smul_apply, smul_eq_mul, if_pos this, Real.one_rpow, one_mul,
        Real.mul_rpow hs.le (hx i)]
    have hG : ∀ i, 0 < Real.Gamma (α i) := fun i => Real.Gamma_pos_of_pos (hα i)
    have hnn : ∀ i, 0 ≤ simplexPoint x i ^ (α i - 1) := fun i => Real.rpow_nonneg (hx i) _
    have h0 : 0 < Real.Gamma (∑ i, α i) :=
      Real.Gamma_pos_of_pos (Finset.sum_pos (fun i _ => hα i) Finset.univ_nonempty)
    have hP : 0 < ∏ i, Real.Gamma (α i) := Finset.prod_pos fun i _ => hG i
    have hQ : 0 ≤ ∏ i, simplexPoint x i ^ (α i - 1) := Finset.prod_nonneg fun i _ => hnn i
    simp only [h1]
    rw [← ENNReal.ofReal_prod_of_nonneg fun i _ => by
        have := hG i
        have := hnn i
        positivity,
      ← ENNReal.ofReal_mul (by positivity), gammaPDF, gammaPDFReal, if_pos hs.le,
      ← ENNReal.ofReal_mul (by positivity), Real.one_rpow, one_mul]
    congr 1
    rw [Finset.prod_mul_distrib, Finset.prod_mul_distrib, Finset.prod_mul_distrib, ← Real.exp_sum,
      Finset.sum_neg_distrib, ← Finset.mul_sum, sum_simplexPoint, mul_one,
      ← Real.rpow_sum_of_pos hs, Finset.sum_sub_distrib, Finset.prod_div_distrib]
    have h2 : s ^ ((∑ i, α i) - 1) = s ^ m * s ^ ((∑ i, α i) - ∑ _i : Fin (m + 1), (1 : ℝ)) := by
      rw [← Real.rpow_natCast, ← Real.rpow_add hs]
      congr 1
      simp
      ring
    rw [h2]
    simp only [Finset.prod_const_one]
    field_simp
  · rw [if_neg hx, ENNReal.ofReal_zero, zero_mul]
    simp only [not_forall, not_le] at hx
    obtain ⟨i, hi⟩ := hx
    rw [Finset.prod_eq_zero (Finset.mem_univ i), mul_zero]
    exact gammaPDF_of_neg (by simpa using mul_neg_of_pos_of_neg hs hi)

/-- The normalized variables and their sum are independent, the first with the Dirichlet density and
the second with a gamma distribution. -/
theorem lintegral_normalized {m : ℕ} {α : Fin (m + 1) → ℝ} (hα : ∀ i, 0 < α i)
    (F : (Fin (m + 1) → ℝ) → ℝ≥0∞) (hF : Measurable F) (G : ℝ → ℝ≥0∞) (hG : Measurable G) :
    ∫⁻ g, F (fun i => g i / ∑ j, g j) * G (∑ j, g j) ∂gammas α =
      (∫⁻ x, ENNReal.ofReal (dirichletPdf α x) * F (simplexPoint x)) *
        ∫⁻ s, G s ∂gammaMeasure (∑ i, α i) 1 := by
  have hm := fun i => measurable_gammaPDF (α i)
  have hN : Measurable fun g : Fin (m + 1) → ℝ => fun i => g i / ∑ j, g j :=
    measurable_pi_lambda _ fun i => by fun_prop
  have hFN : Measurable fun g : Fin (m + 1) → ℝ => F (fun i => g i / ∑ j, g j) := hF.comp hN
  have hp : Measurable fun g : Fin (m + 1) → ℝ => ∏ i, gammaPDF (α i) 1 (g i) :=
    Finset.measurable_prod _ fun i _ => (hm i).comp (measurable_pi_apply i)
  have hGs : Measurable fun g : Fin (m + 1) → ℝ => G (∑ j, g j) := hG.comp (by fun_prop)
  have hH : Measurable fun g : Fin (m + 1) → ℝ => F (fun i => g i / ∑ j, g j) * G (∑ j, g j) :=
    hFN.mul hGs
  rw [gammas_density hα, lintegral_withDensity_eq_lintegral_mul _ hp hH, gammaMeasure,
    lintegral_withDensity_eq_lintegral_mul _ (measurable_gammaPDF _) hG,
    lintegral_by_sum _ (hp.mul hH), ← lintegral_const_mul _
      ((measurable_gammaPDF _).mul hG)]
  refine lintegral_congr_ae ?_
  filter_upwards [Measure.ae_ne volume (0 : ℝ)] with s hs
  simp only [Pi.mul_apply]
  rcases lt_or_gt_of_ne hs with h | h
  · rw [gammaPDF_of_neg h, zero_mul, mul_zero]
    refine lintegral_eq_zero_of_ae_eq_zero (ae_of_all _ fun y => ?_)
    have h1 : ∑ i, (Fin.cons (s - ∑ i, y i) y : Fin (m + 1) → ℝ) i < 0 := by
      rw [Fin.sum_univ_succ]
      simpa using h
    obtain ⟨i, -, hi⟩ := Finset.exists_lt_of_sum_lt
      (f := fun i => (Fin.cons (s - ∑ i, y i) y : Fin (m + 1) → ℝ) i) (g := fun _ => (0 : ℝ))
      (s := Finset.univ) (by rw [Finset.sum_const_zero]; exact h1)
    simp only [Pi.zero_apply]
    rw [Finset.prod_eq_zero (Finset.mem_univ i) (gammaPDF_of_neg hi), zero_mul]
  · have hc : Measurable fun y : Fin m → ℝ => (Fin.cons (s - ∑ i, y i) y : Fin (m + 1) → ℝ) := by
      refine measurable_pi_lambda _ fun i => ?_
      refine Fin.cases ?_ (fun j => ?_) i
      · simp only [Fin.cons_zero]
        fun_prop
      · simp only [Fin.cons_succ]
        fun_prop
    refine (lintegral_scale _ ((hp.mul hH).comp hc) h).trans ?_
    have hdm : Measurable fun x : Fin m → ℝ => ∏ i, gammaPDF (α i) 1 ((s • simplexPoint x) i) :=
      hp.comp (measurable_simplexPoint.const_smul s)
    have e : ∀ x : Fin m → ℝ, ((∏ i, gammaPDF (α i) 1
          ((Fin.cons (s - ∑ i, (s • x) i) (s • x) : Fin (m + 1) → ℝ) i)) *
        (F (fun i => (Fin.cons (s - ∑ i, (s • x) i) (s • x) : Fin (m + 1) → ℝ) i /
            ∑ j, (Fin.cons (s - ∑ i, (s • x) i) (s • x) : Fin (m + 1) → ℝ) j) *
          G (∑ j, (Fin.cons (s - ∑ i, (s • x) i) (s • x) : Fin (m + 1) → ℝ) j))) =
        (∏ i, gammaPDF (α i) 1 ((s • simplexPoint x) i)) * F (simplexPoint x) * G s := by
      intro x
      simp only [cons_scale]
      have h1 : ∑ j, (s • simplexPoint x) j = s := by
        simp only [Pi.smul_apply, smul_eq_mul]
        rw [← Finset.mul_sum, sum_simplexPoint, mul_one]
      rw [h1, mul_assoc]
      congr 2
      refine congrArg F (funext fun i => ?_)
      rw [Pi.smul_apply, smul_eq_mul, mul_div_cancel_left₀ _ h.ne']
    simp only [Function.comp_def, Pi.mul_apply, e]
    have hdF : Measurable fun x : Fin m → ℝ =>
        (∏ i, gammaPDF (α i) 1 ((s • simplexPoint x) i)) * F (simplexPoint x) :=
      hdm.mul (hF.comp measurable_simplexPoint)
    rw [lintegral_mul_const _ hdF, ← mul_assoc, ← lintegral_const_mul _ hdF]
    simp only [← mul_assoc, gammaPDF_scaled hα h]
    rw [← lintegral_mul_const' (gammaPDF (∑ i, α i) 1 s) _ ENNReal.ofReal_ne_top]
    congr 1
    refine lintegral_congr fun x => ?_
    ring

end

end LRVB
