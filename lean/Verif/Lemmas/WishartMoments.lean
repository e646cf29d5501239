import Verif.Lemmas.WishartDist

/-!
# Moments and entropy of the Wishart distribution
-/

namespace LRVB

open MeasureTheory ProbabilityTheory Set

noncomputable section

variable {n : ℕ}

/-! ### The density -/

theorem half_inv_posDef {v : Matrix (Fin n) (Fin n) ℝ} (hv : v.PosDef) :
    ((1 / 2 : ℝ) • v⁻¹).PosDef := hv.inv.smul (by norm_num)

theorem det_half_inv (v : Matrix (Fin n) (Fin n) ℝ) :
    ((1 / 2 : ℝ) • v⁻¹).det = (1 / 2) ^ n * (v.det)⁻¹ := by
  rw [Matrix.det_smul, Fintype.card_fin, Matrix.det_nonsing_inv, Ring.inverse_eq_inv']

theorem log_det_half_inv {v : Matrix (Fin n) (Fin n) ℝ} (hv : v.PosDef) :
    Real.log ((1 / 2 : ℝ) • v⁻¹).det = -(n * Real.log 2) - Real.log v.det := by
  have := hv.det_pos
  rw [det_half_inv, Real.log_mul (by positivity) (by positivity), Real.log_inv, Real.log_pow,
    one_div, Real.log_inv]
  ring

theorem wishartPdf_eq {df : ℝ} {v : Matrix (Fin n) (Fin n) ℝ} (hv : v.PosDef) (z : Sym2 (Fin n) → ℝ) :
    wishartPdf n df v z =
      kern (df / 2) ((1 / 2 : ℝ) • v⁻¹) (symmMat z) / wZ (df / 2) ((1 / 2 : ℝ) • v⁻¹) := by
  have hd := hv.det_pos
  unfold wishartPdf kern wZ
  split_ifs with h
  · rw [det_half_inv, Fintype.card_fin, show (df - n - 1) / 2 = df / 2 - ((n : ℝ) + 1) / 2 by ring]
    congr 1
    · congr 2
      rw [Matrix.smul_mul, Matrix.trace_smul, smul_eq_mul]
      ring
    · rw [Real.mul_rpow (by positivity) (by positivity), Real.inv_rpow hd.le, Real.rpow_neg hd.le,
        inv_inv, ← Real.rpow_natCast, ← Real.rpow_mul (by norm_num), one_div,
        Real.inv_rpow (by norm_num), ← Real.rpow_neg (by norm_num),
        show -((n : ℝ) * -(df / 2)) = df * n / 2 by ring]
      ring
  · simp

theorem wishart_eq {df : ℝ} {v : Matrix (Fin n) (Fin n) ℝ} (hv : v.PosDef) :
    wishart n df v = wMeas (df / 2) ((1 / 2 : ℝ) • v⁻¹) := by
  unfold wishart wMeas
  congr 1
  funext z
  rw [wishartPdf_eq hv]

section

variable {df : ℝ} {v : Matrix (Fin n) (Fin n) ℝ}

theorem half_df (hdf : (n : ℝ) - 1 < df) : ((n : ℝ) - 1) / 2 < df / 2 := by linarith

theorem wishart_prob (hdf : (n : ℝ) - 1 < df) (hv : v.PosDef) :
    IsProbabilityMeasure (wishart n df v) := by
  rw [wishart_eq hv]
  exact wMeas_prob (half_df hdf) (half_inv_posDef hv)

theorem wishart_posDef (hv : v.PosDef) : ∀ᵐ z ∂wishart n df v, (symmMat z).PosDef := by
  rw [wishart_eq hv]
  exact wMeas_posDef _

/-! ### Mean, log determinant -/

theorem wishart_mean (hdf : (n : ℝ) - 1 < df) (hv : v.PosDef) (i j : Fin n) :
    Integrable (fun z => symmMat z i j) (wishart n df v) ∧
      ∫ z, symmMat z i j ∂wishart n df v = df * v i j := by
  rw [wishart_eq hv]
  obtain ⟨h1, h2⟩ := wMeas_mean (half_df hdf) (half_inv_posDef hv) i j
  refine ⟨h1, h2.trans ?_⟩
  have hu : IsUnit v.det := (isUnit_iff_ne_zero.2 hv.det_pos.ne')
  have : ((1 / 2 : ℝ) • v⁻¹)⁻¹ = (2 : ℝ) • v := by
    refine Matrix.inv_eq_right_inv ?_
    rw [Matrix.smul_mul, Matrix.mul_smul, smul_smul, Matrix.nonsing_inv_mul _ hu]
    norm_num
  rw [this, Matrix.smul_apply, smul_eq_mul]
  ring

theorem wishart_logdet (hdf : (n : ℝ) - 1 < df) (hv : v.PosDef) :
    Integrable (fun z => Real.log (symmMat z).det) (wishart n df v) ∧
      ∫ z, Real.log (symmMat z).det ∂wishart n df v =
        ∑ j ∈ Finset.range n, psi (df / 2 - (j : ℝ) / 2) + n * Real.log 2 + Real.log v.det := by
  rw [wishart_eq hv]
  obtain ⟨h1, h2⟩ := wMeas_logdet (half_df hdf) (half_inv_posDef hv)
  refine ⟨h1, h2.trans ?_⟩
  rw [log_det_half_inv hv]
  ring

/-! ### The diagonal of the inverse -/

theorem integrable_gammaMeasure' {a r : ℝ} (ha : 0 < a) (hr : 0 < r) {f : ℝ → ℝ}
    (h : Integrable fun x => gammaPDFReal a r x * f x) : Integrable f (gammaMeasure a r) := by
  unfold gammaMeasure
  have hm : Measurable (gammaPDF a r) := (measurable_gammaPDFReal a r).ennreal_ofReal
  rw [integrable_withDensity_iff_integrable_smul' hm
    (ae_of_all _ fun x => ENNReal.ofReal_lt_top)]
  refine h.congr (ae_of_all _ fun x => ?_)
  simp only [gammaPDF, smul_eq_mul]
  rw [ENNReal.toReal_ofReal (gammaPDFReal_nonneg ha hr x)]

theorem kernel_mul_inv {a r t : ℝ} (ht : 0 < t) :
    t ^ (a - 1) * Real.exp (-(r * t)) * t⁻¹ = t ^ (a - 1 - 1) * Real.exp (-(r * t)) := by
  rw [Real.rpow_sub_one ht.ne' (a - 1)]
  ring

/-- The mean of the reciprocal of a gamma variable. -/
theorem gamma_inv_mean {a r : ℝ} (ha : 1 < a) (hr : 0 < r) :
    Integrable (fun x : ℝ => x⁻¹) (gammaMeasure a r) ∧ ∫ x, x⁻¹ ∂gammaMeasure a r = r / (a - 1) := by
  have ha' : 0 < a - 1 := by linarith
  refine ⟨integrable_gammaMeasure' (by linarith) hr (integrable_gammaPDFReal_mul (g := fun x => x⁻¹)
    ((integrable_gamma_kernel ha' hr).congr_fun (fun t ht => (kernel_mul_inv ht).symm)
      measurableSet_Ioi)), ?_⟩
  rw [integral_gammaMeasure (by linarith) hr, integral_gammaPDFReal_mul a r fun x => x⁻¹,
    setIntegral_congr_fun measurableSet_Ioi fun t ht => kernel_mul_inv ht,
    Real.integral_rpow_mul_exp_neg_mul_Ioi ha' hr, one_div, Real.inv_rpow hr.le,
    Real.rpow_sub_one hr.ne']
  have h1 : Real.Gamma a = (a - 1) * Real.Gamma (a - 1) := by
    rw [← Real.Gamma_add_one ha'.ne', sub_add_cancel]
  have h2 := Real.Gamma_pos_of_pos ha'
  have h3 := Real.rpow_pos_of_pos hr a
  rw [h1]
  field_simp

theorem measurable_inv_diag (i : Fin n) :
    Measurable fun z : Sym2 (Fin n) → ℝ => 1 / (symmMat z)⁻¹ i i := by
  obtain ⟨m, rfl⟩ : ∃ m, n = m + 1 := ⟨n - 1, by have := i.2; omega⟩
  simp only [inv_diag]
  refine Measurable.const_div (Measurable.div ?_ measurable_symmMat_det) 1
  refine Continuous.measurable (Continuous.matrix_det ?_)
  exact continuous_matrix fun i j => continuous_apply _

theorem wishart_inv_diag (hdf : (n : ℝ) - 1 < df) (hv : v.PosDef) (i : Fin n) :
    (wishart n df v).map (fun z => 1 / (symmMat z)⁻¹ i i) =
      gammaMeasure ((df - n + 1) / 2) (v⁻¹ i i / 2) := by
  obtain ⟨m, rfl⟩ : ∃ m, n = m + 1 := ⟨n - 1, by have := i.2; omega⟩
  rw [wishart_eq hv, wMeas_inv_diag (half_df hdf) (half_inv_posDef hv) i]
  congr 1
  · push_cast; ring
  · rw [Matrix.smul_apply, smul_eq_mul]; ring

theorem inv_diag_pos (hv : v.PosDef) (i : Fin n) : 0 < v⁻¹ i i := hv.inv.diag_pos

theorem wishart_log_inv_diag (hdf : (n : ℝ) - 1 < df) (hv : v.PosDef) (i : Fin n) :
    Integrable (fun z => Real.log ((symmMat z)⁻¹ i i)) (wishart n df v) ∧
      ∫ z, Real.log ((symmMat z)⁻¹ i i) ∂wishart n df v =
        Real.log (v⁻¹ i i) - psi ((df - n + 1) / 2) - Real.log 2 := by
  have ha : 0 < (df - n + 1) / 2 := by linarith
  have hr : 0 < v⁻¹ i i / 2 := by have := inv_diag_pos hv i; positivity
  have h1 := integrable_gammaMeasure' ha hr (integrable_gamma_log ha hr)
  have h2 := (integral_gammaMeasure ha hr Real.log).trans (gamma_log_mean ha hr)
  rw [← wishart_inv_diag hdf hv i] at h1 h2
  have hm := measurable_inv_diag i
  rw [integral_map hm.aemeasurable h1.aestronglyMeasurable] at h2
  have h3 := h1.comp_measurable hm
  simp only [one_div, Function.comp_def, Real.log_inv] at h2 h3
  refine ⟨by simpa using h3.neg, ?_⟩
  rw [integral_neg, Real.log_div (inv_diag_pos hv i).ne' two_ne_zero] at h2
  linarith

theorem wishart_inv_mean (hdf : (n : ℝ) + 1 < df) (hv : v.PosDef) (i : Fin n) :
    Integrable (fun z => (symmMat z)⁻¹ i i) (wishart n df v) ∧
      ∫ z, (symmMat z)⁻¹ i i ∂wishart n df v = v⁻¹ i i / (df - n - 1) := by
  have ha : 1 < (df - n + 1) / 2 := by linarith
  have hr : 0 < v⁻¹ i i / 2 := by have := inv_diag_pos hv i; positivity
  obtain ⟨h1, h2⟩ := gamma_inv_mean ha hr
  rw [← wishart_inv_diag (by linarith) hv i] at h1 h2
  have hm := measurable_inv_diag i
  rw [integral_map hm.aemeasurable h1.aestronglyMeasurable] at h2
  have h3 := h1.comp_measurable hm
  simp only [one_div, Function.comp_def, inv_inv] at h2 h3
  refine ⟨h3, h2.trans ?_⟩
  have : df - n - 1 ≠ 0 := by intro h; linarith
  rw [show (df - n + 1) / 2 - 1 = (df - n - 1) / 2 by ring]
  field_simp

/-! ### The correlation matrix -/

theorem det_corr {S : Matrix (Fin n) (Fin n) ℝ} (hS : S.PosDef) :
    (corr S).det = S.det / ∏ i, S i i := by
  have e : corr S = Matrix.diagonal (fun i => (√(S i i))⁻¹) * S *
      Matrix.diagonal (fun i => (√(S i i))⁻¹) := by
    ext i j
    rw [Matrix.mul_diagonal, Matrix.diagonal_mul]
    simp only [corr, Matrix.of_apply]
    field_simp
  rw [e, Matrix.det_mul, Matrix.det_mul, Matrix.det_diagonal]
  have h : ∀ i, (√(S i i))⁻¹ * (√(S i i))⁻¹ = (S i i)⁻¹ := fun i => by
    rw [← mul_inv, Real.mul_self_sqrt hS.diag_pos.le]
  have : (∏ i, (√(S i i))⁻¹) * (∏ i, (√(S i i))⁻¹) = (∏ i, S i i)⁻¹ := by
    rw [← Finset.prod_mul_distrib, Finset.prod_congr rfl fun i _ => h i, Finset.prod_inv_distrib]
  rw [mul_right_comm, this]
  ring

theorem log_det_corr_inv {X : Matrix (Fin n) (Fin n) ℝ} (hX : X.PosDef) :
    Real.log (corr X⁻¹).det = -Real.log X.det - ∑ i, Real.log (X⁻¹ i i) := by
  have h1 := hX.det_pos
  have h2 : 0 < X⁻¹.det := hX.inv.det_pos
  have h3 : 0 < ∏ i, X⁻¹ i i := Finset.prod_pos fun i _ => inv_diag_pos hX i
  rw [det_corr hX.inv, Real.log_div h2.ne' h3.ne',
    Real.log_prod (fun i _ => (inv_diag_pos hX i).ne'), Matrix.det_nonsing_inv, Ring.inverse_eq_inv',
    Real.log_inv]

theorem wishart_lkj (hdf : (n : ℝ) - 1 < df) (hv : v.PosDef) :
    Integrable (fun z => Real.log (corr (symmMat z)⁻¹).det) (wishart n df v) ∧
      ∫ z, Real.log (corr (symmMat z)⁻¹).det ∂wishart n df v =
        -(∑ j ∈ Finset.range n, psi (df / 2 - (j : ℝ) / 2) + n * Real.log 2 + Real.log v.det) -
          ∑ i, (Real.log (v⁻¹ i i) - psi ((df - n + 1) / 2) - Real.log 2) := by
  obtain ⟨a1, a2⟩ := wishart_logdet hdf hv
  have e : (fun z => Real.log (corr (symmMat z)⁻¹).det) =ᵐ[wishart n df v]
      fun z => -Real.log (symmMat z).det - ∑ i, Real.log ((symmMat z)⁻¹ i i) :=
    (wishart_posDef hv).mono fun z hz => log_det_corr_inv hz
  have b1 : Integrable (fun z => ∑ i, Real.log ((symmMat z)⁻¹ i i)) (wishart n df v) :=
    integrable_finsetSum _ fun i _ => (wishart_log_inv_diag hdf hv i).1
  have c1 : Integrable (fun z => -Real.log (symmMat z).det) (wishart n df v) := a1.neg
  refine ⟨(c1.sub b1).congr e.symm, ?_⟩
  rw [integral_congr_ae e, integral_sub c1 b1, integral_neg, a2,
    integral_finsetSum _ fun i _ => (wishart_log_inv_diag hdf hv i).1]
  congr 1
  exact Finset.sum_congr rfl fun i _ => (wishart_log_inv_diag hdf hv i).2

/-! ### Entropy -/

theorem wishartPdf_nonneg (hdf : (n : ℝ) - 1 < df) (hv : v.PosDef) (z : Sym2 (Fin n) → ℝ) :
    0 ≤ wishartPdf n df v z := by
  rw [wishartPdf_eq hv]
  exact div_nonneg (kern_nonneg _ _ _) (wZ_pos (half_df hdf) (half_inv_posDef hv)).le

theorem measurable_wishartPdf (hv : v.PosDef) : Measurable (wishartPdf n df v) := by
  have : wishartPdf n df v = fun z => _ := funext fun z => wishartPdf_eq hv z
  rw [this]
  exact (measurable_kern _ _).div_const _

theorem integral_wishart (hdf : (n : ℝ) - 1 < df) (hv : v.PosDef) (g : (Sym2 (Fin n) → ℝ) → ℝ) :
    ∫ z, g z ∂wishart n df v = ∫ z, wishartPdf n df v z * g z := by
  unfold wishart
  rw [integral_withDensity_eq_integral_toReal_smul (measurable_wishartPdf hv).ennreal_ofReal
    (ae_of_all _ fun z => ENNReal.ofReal_lt_top)]
  refine integral_congr_ae (ae_of_all _ fun z => ?_)
  simp only [smul_eq_mul]
  rw [ENNReal.toReal_ofReal (wishartPdf_nonneg hdf hv z)]

theorem log_multiGamma {s : ℝ} (hs : ((n : ℝ) - 1) / 2 < s) :
    Real.log (multiGamma n s) = (n : ℝ) * ((n : ℝ) - 1) / 4 * Real.log Real.pi +
      ∑ j ∈ Finset.range n, Real.log (Real.Gamma (s - (j : ℝ) / 2)) := by
  have h : ∀ j ∈ Finset.range n, 0 < Real.Gamma (s - (j : ℝ) / 2) := fun j hj => by
    have : ((j : ℕ) : ℝ) + 1 ≤ n := by exact_mod_cast Finset.mem_range.1 hj
    exact Real.Gamma_pos_of_pos (by linarith)
  rw [multiGamma, Real.log_mul (Real.rpow_pos_of_pos Real.pi_pos _).ne'
    (Finset.prod_pos h).ne', Real.log_rpow Real.pi_pos, Real.log_prod fun j hj => (h j hj).ne']

theorem wishart_trace (hdf : (n : ℝ) - 1 < df) (hv : v.PosDef) :
    Integrable (fun z => (v⁻¹ * symmMat z).trace) (wishart n df v) ∧
      ∫ z, (v⁻¹ * symmMat z).trace ∂wishart n df v = df * n := by
  simp only [Matrix.trace, Matrix.diag_apply, Matrix.mul_apply]
  have i1 : ∀ i k : Fin n, Integrable (fun z => v⁻¹ i k * symmMat z k i) (wishart n df v) :=
    fun i k => (wishart_mean hdf hv k i).1.const_mul _
  refine ⟨integrable_finsetSum _ fun i _ => integrable_finsetSum _ fun k _ => i1 i k, ?_⟩
  rw [integral_finsetSum _ fun i _ => integrable_finsetSum _ fun k _ => i1 i k]
  have : ∀ i : Fin n, ∫ z, ∑ k, v⁻¹ i k * symmMat z k i ∂wishart n df v = df := by
    intro i
    rw [integral_finsetSum _ fun k _ => i1 i k]
    have e : ∀ k : Fin n, ∫ z, v⁻¹ i k * symmMat z k i ∂wishart n df v = df * (v⁻¹ i k * v k i) := by
      intro k
      rw [integral_const_mul, (wishart_mean hdf hv k i).2]
      ring
    rw [Finset.sum_congr rfl fun k _ => e k, ← Finset.mul_sum, ← Matrix.mul_apply,
      Matrix.nonsing_inv_mul _ (isUnit_iff_ne_zero.2 hv.det_pos.ne'), Matrix.one_apply_eq, mul_one]
  rw [Finset.sum_congr rfl fun i _ => this i]
  simp [mul_comm]

theorem wishart_entropy_eq (hdf : (n : ℝ) - 1 < df) (hv : v.PosDef) :
    -∫ z, wishartPdf n df v z * Real.log (wishartPdf n df v z) =
      ((n : ℝ) + 1) / 2 * Real.log v.det + (n : ℝ) * (n + 1) / 2 * Real.log 2 +
        Real.log (multiGamma n (df / 2)) -
        (df - n - 1) / 2 * ∑ j ∈ Finset.range n, psi (df / 2 - (j : ℝ) / 2) + df * n / 2 := by
  have hd := hv.det_pos
  have hG := multiGamma_pos (half_df hdf)
  have hC : 0 < 2 ^ (df * n / 2) * v.det ^ (df / 2) * multiGamma n (df / 2) := by positivity
  have e : ∀ z, wishartPdf n df v z * Real.log (wishartPdf n df v z) =
      wishartPdf n df v z * ((df - n - 1) / 2 * Real.log (symmMat z).det -
        (v⁻¹ * symmMat z).trace / 2 -
          Real.log (2 ^ (df * n / 2) * v.det ^ (df / 2) * multiGamma n (df / 2))) := by
    intro z
    unfold wishartPdf
    split_ifs with h
    · have hz := h.det_pos
      rw [Real.log_div (by positivity) hC.ne', Real.log_mul (by positivity) (Real.exp_pos _).ne',
        Real.log_rpow hz, Real.log_exp]
      ring
    · simp
  rw [integral_congr_ae (ae_of_all _ e), ← integral_wishart hdf hv]
  obtain ⟨a1, a2⟩ := wishart_logdet hdf hv
  obtain ⟨b1, b2⟩ := wishart_trace hdf hv
  have a3 := a1.const_mul ((df - n - 1) / 2)
  have b3 := b1.div_const 2
  have ab : Integrable (fun z => (df - n - 1) / 2 * Real.log (symmMat z).det -
    (v⁻¹ * symmMat z).trace / 2) (wishart n df v) := a3.sub b3
  have := wishart_prob hdf hv
  rw [integral_sub ab (integrable_const _), integral_sub a3 b3, integral_const_mul, integral_div,
    a2, b2, integral_const, probReal_univ, one_smul, Real.log_mul (by positivity) hG.ne',
    Real.log_mul (by positivity) (by positivity), Real.log_rpow two_pos, Real.log_rpow hd]
  ring

end

end

end LRVB
