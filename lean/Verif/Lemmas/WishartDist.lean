import Verif.Lemmas.WishartInt
import Verif.Lemmas.GammaDist
import Mathlib.Probability.Moments.MGFAnalytic

/-!
# The Wishart distribution: its laws and moments
-/

namespace LRVB

open MeasureTheory ProbabilityTheory Matrix Set

noncomputable section

/-- An expectation from the logarithm of the moment generating function. -/
theorem mean_of_mgf {Ω : Type*} [MeasurableSpace Ω] {μ : Measure Ω} [IsProbabilityMeasure μ]
    {X : Ω → ℝ} (hX : Measurable X) {φ : ℝ → ℝ} {ε d : ℝ} (hε : 0 < ε)
    (h : ∀ u, |u| < ε → ∫⁻ x, ENNReal.ofReal (Real.exp (u * X x)) ∂μ = ENNReal.ofReal (Real.exp (φ u)))
    (hd : HasDerivAt φ d 0) : Integrable X μ ∧ ∫ x, X x ∂μ = d := by
  have hint : ∀ u, |u| < ε → Integrable (fun x => Real.exp (u * X x)) μ := by
    intro u hu
    refine ⟨(hX.const_mul u).exp.aestronglyMeasurable, ?_⟩
    rw [hasFiniteIntegral_iff_ofReal (.of_forall fun x => (Real.exp_pos _).le), h u hu]
    exact ENNReal.ofReal_lt_top
  have hball : Metric.ball (0 : ℝ) ε ⊆ integrableExpSet X μ := by
    intro u hu
    exact hint u (by simpa using hu)
  have h0 : 0 ∈ interior (integrableExpSet X μ) :=
    interior_mono hball (by rw [Metric.isOpen_ball.interior_eq]; exact Metric.mem_ball_self hε)
  refine ⟨integrable_of_mem_interior_integrableExpSet h0, ?_⟩
  have hc := deriv_cgf_zero h0
  rw [probReal_univ, div_one] at hc
  rw [← hc]
  have he : cgf X μ =ᶠ[nhds 0] φ := by
    filter_upwards [Metric.ball_mem_nhds (0 : ℝ) hε] with u hu
    have hu' : |u| < ε := by simpa using hu
    have : mgf X μ u = Real.exp (φ u) := by
      unfold mgf
      rw [integral_eq_lintegral_of_nonneg_ae (.of_forall fun x => (Real.exp_pos _).le)
        (hint u hu').1, h u hu', ENNReal.toReal_ofReal (Real.exp_pos _).le]
    rw [cgf, this, Real.log_exp]
  rw [he.deriv_eq, hd.deriv]

/-! ### The measure with density proportional to the kernel -/

variable {n : ℕ}

/-- The normalizing constant. -/
def wZ (s : ℝ) (W : Matrix (Fin n) (Fin n) ℝ) : ℝ := multiGamma n s * W.det ^ (-s)

/-- The probability measure with density proportional to the kernel. -/
def wMeas (s : ℝ) (W : Matrix (Fin n) (Fin n) ℝ) : Measure (Sym2 (Fin n) → ℝ) :=
  volume.withDensity fun z => ENNReal.ofReal (kern s W (symmMat z) / wZ s W)

theorem wZ_pos {s : ℝ} (hs : ((n : ℝ) - 1) / 2 < s) {W : Matrix (Fin n) (Fin n) ℝ} (hW : W.PosDef) :
    0 < wZ s W :=
  mul_pos (multiGamma_pos hs) (Real.rpow_pos_of_pos hW.det_pos _)

theorem lintegral_wMeas {s : ℝ} (hs : ((n : ℝ) - 1) / 2 < s) {W : Matrix (Fin n) (Fin n) ℝ}
    (hW : W.PosDef) {f : (Sym2 (Fin n) → ℝ) → ENNReal} (hf : Measurable f) :
    ∫⁻ z, f z ∂wMeas s W =
      (ENNReal.ofReal (wZ s W))⁻¹ * ∫⁻ z, ENNReal.ofReal (kern s W (symmMat z)) * f z := by
  have hm := (measurable_kern s W).ennreal_ofReal
  rw [wMeas, lintegral_withDensity_eq_lintegral_mul _ ((measurable_kern s W).div_const _).ennreal_ofReal
    hf]
  refine Eq.trans ?_ (lintegral_const_mul _ (hm.mul hf))
  refine lintegral_congr fun z => ?_
  simp only [Pi.mul_apply]
  rw [ENNReal.ofReal_div_of_pos (wZ_pos hs hW), div_eq_mul_inv]
  ring

theorem wMeas_prob {s : ℝ} (hs : ((n : ℝ) - 1) / 2 < s) {W : Matrix (Fin n) (Fin n) ℝ}
    (hW : W.PosDef) : IsProbabilityMeasure (wMeas s W) := by
  refine ⟨?_⟩
  rw [← lintegral_one, lintegral_wMeas hs hW measurable_const]
  simp only [mul_one]
  have := wInt_eq n s hs W hW
  rw [wInt] at this
  rw [this]
  exact ENNReal.inv_mul_cancel (ENNReal.ofReal_pos.2 (wZ_pos hs hW)).ne' ENNReal.ofReal_ne_top

theorem wMeas_posDef {s : ℝ} (W : Matrix (Fin n) (Fin n) ℝ) :
    ∀ᵐ z ∂wMeas s W, (symmMat z).PosDef := by
  rw [wMeas, ae_withDensity_iff ((measurable_kern s W).div_const _).ennreal_ofReal]
  refine .of_forall fun z hz => ?_
  by_contra h
  exact hz (by rw [kern, if_neg h]; simp)

/-! ### The logarithm of the determinant -/

theorem hasDerivAt_log_multiGamma {s : ℝ} (hs : ((n : ℝ) - 1) / 2 < s) :
    HasDerivAt (fun u => Real.log (multiGamma n (s + u)))
      (∑ j ∈ Finset.range n, psi (s - (j : ℝ) / 2)) 0 := by
  have hpos : ∀ j ∈ Finset.range n, 0 < s - ((j : ℕ) : ℝ) / 2 := by
    intro j hj
    have : ((j : ℕ) : ℝ) + 1 ≤ n := by exact_mod_cast Finset.mem_range.1 hj
    linarith
  have h1 : ∀ j ∈ Finset.range n, HasDerivAt (fun u => Real.log (Real.Gamma (s + u - (j : ℝ) / 2)))
      (psi (s - (j : ℝ) / 2)) 0 := by
    intro j hj
    have hp := hpos j hj
    have hg : HasDerivAt (fun t => Real.log (Real.Gamma t)) (psi (s - (j : ℝ) / 2))
        (s - (j : ℝ) / 2) := by
      refine DifferentiableAt.hasDerivAt ?_
      refine DifferentiableAt.log ?_ (Real.Gamma_pos_of_pos hp).ne'
      refine Real.differentiableAt_Gamma fun m hm => ?_
      have : (0 : ℝ) ≤ m := Nat.cast_nonneg m
      linarith
    have hl : HasDerivAt (fun u : ℝ => s + u - (j : ℝ) / 2) 1 0 := by
      simpa using ((hasDerivAt_id (0 : ℝ)).const_add s).sub_const ((j : ℝ) / 2)
    have := HasDerivAt.comp (0 : ℝ) (h₂ := fun t => Real.log (Real.Gamma t)) (by
      simpa using hg) hl
    rw [mul_one] at this
    exact this
  have h2 := HasDerivAt.fun_sum h1
  have h3 := h2.const_add (Real.log (Real.pi ^ ((n : ℝ) * ((n : ℝ) - 1) / 4)))
  refine h3.congr_of_eventuallyEq ?_
  have hε : 0 < s - ((n : ℝ) - 1) / 2 := by linarith
  filter_upwards [Metric.ball_mem_nhds (0 : ℝ) hε] with u hu
  have hu' : |u| < s - ((n : ℝ) - 1) / 2 := by simpa using hu
  have hu2 := (abs_lt.1 hu').1
  unfold multiGamma
  rw [Real.log_mul (Real.rpow_pos_of_pos Real.pi_pos _).ne', Real.log_prod]
  · intro j hj
    have : ((j : ℕ) : ℝ) + 1 ≤ n := by exact_mod_cast Finset.mem_range.1 hj
    exact (Real.Gamma_pos_of_pos (by linarith)).ne'
  · refine (Finset.prod_pos fun j hj => ?_).ne'
    have : ((j : ℕ) : ℝ) + 1 ≤ n := by exact_mod_cast Finset.mem_range.1 hj
    exact Real.Gamma_pos_of_pos (by linarith)

/-- The mean of the logarithm of the determinant. -/
theorem wMeas_logdet {s : ℝ} (hs : ((n : ℝ) - 1) / 2 < s) {W : Matrix (Fin n) (Fin n) ℝ}
    (hW : W.PosDef) :
    Integrable (fun z => Real.log (symmMat z).det) (wMeas s W) ∧
      ∫ z, Real.log (symmMat z).det ∂wMeas s W =
        ∑ j ∈ Finset.range n, psi (s - (j : ℝ) / 2) - Real.log W.det := by
  have := wMeas_prob hs hW
  have hε : 0 < s - ((n : ℝ) - 1) / 2 := by linarith
  have hZ := wZ_pos hs hW
  refine mean_of_mgf (φ := fun u => Real.log (multiGamma n (s + u)) - Real.log (multiGamma n s) -
    u * Real.log W.det) measurable_symmMat_det.log hε (fun u hu => ?_) ?_
  · have hu2 := (abs_lt.1 hu).1
    have hs' : ((n : ℝ) - 1) / 2 < s + u := by linarith
    rw [lintegral_wMeas hs hW (measurable_symmMat_det.log.const_mul u).exp.ennreal_ofReal]
    have e : ∀ z : Sym2 (Fin n) → ℝ, ENNReal.ofReal (kern s W (symmMat z)) *
        ENNReal.ofReal (Real.exp (u * Real.log (symmMat z).det)) =
        ENNReal.ofReal (kern (s + u) W (symmMat z)) := by
      intro z
      rw [← ENNReal.ofReal_mul (kern_nonneg _ _ _)]
      congr 1
      unfold kern
      split_ifs with h
      · have hd := h.det_pos
        rw [mul_comm u, ← Real.rpow_def_of_pos hd, mul_right_comm, ← Real.rpow_add hd]
        congr 2
        ring
      · simp
    simp only [e]
    have h1 := wInt_eq n (s + u) hs' W hW
    rw [wInt] at h1
    have p1 := multiGamma_pos hs
    have p2 := multiGamma_pos hs'
    have hd := hW.det_pos
    rw [h1, ← ENNReal.ofReal_inv_of_pos hZ, ← ENNReal.ofReal_mul (by positivity)]
    congr 1
    rw [Real.exp_sub, Real.exp_sub, Real.exp_log p1, Real.exp_log p2, wZ, mul_comm u,
      ← Real.rpow_def_of_pos hd, neg_add, Real.rpow_add hd, Real.rpow_neg hd.le u]
    have p3 : W.det ^ (-s) ≠ 0 := (Real.rpow_pos_of_pos hd _).ne'
    have p4 : W.det ^ u ≠ 0 := (Real.rpow_pos_of_pos hd _).ne'
    field_simp
  · have h1 := ((hasDerivAt_log_multiGamma hs).sub_const (Real.log (multiGamma n s))).sub
      ((hasDerivAt_id (0 : ℝ)).mul_const (Real.log W.det))
    rw [one_mul] at h1
    exact h1

/-! ### Quadratic forms and the mean -/

theorem posDef_sub_rank_one {W : Matrix (Fin n) (Fin n) ℝ} (hW : W.PosDef) (x : Fin n → ℝ) {u : ℝ}
    (hu : u * (x ⬝ᵥ (W⁻¹ *ᵥ x)) < 1) :
    (W - u • vecMulVec x x).PosDef ∧
      (W - u • vecMulVec x x).det = W.det * (1 - u * (x ⬝ᵥ (W⁻¹ *ᵥ x))) := by
  have hd := hW.det_pos
  have hT : ∀ i j, W i j = W j i := fun i j => by simpa using hW.1.apply j i
  have hdet : (W - u • vecMulVec x x).det = W.det * (1 - u * (x ⬝ᵥ (W⁻¹ *ᵥ x))) := by
    have h1 : W - u • vecMulVec x x =
        W + replicateCol Unit (-u • x) * replicateRow Unit x := by
      ext i j
      simp [mul_apply, vecMulVec_apply]
      ring
    rw [h1, det_add_replicateCol_mul_replicateRow (isUnit_iff_ne_zero.2 hd.ne')]
    congr 1
    rw [det_unique]
    simp only [Matrix.add_apply, one_apply_eq, Matrix.mul_assoc]
    have : (replicateRow Unit x * (W⁻¹ * replicateCol Unit (-u • x))) default default =
        x ⬝ᵥ (W⁻¹ *ᵥ (-u • x)) := rfl
    rw [this, mulVec_smul, dotProduct_smul, smul_eq_mul]
    ring
  refine ⟨?_, hdet⟩
  rcases le_or_gt u 0 with h0 | h0
  · have hp : ((-u) • vecMulVec x x).PosSemidef := by
      refine PosSemidef.smul ?_ (by linarith)
      have := posSemidef_vecMulVec_self_star x
      simpa using this
    have := hW.add_posSemidef hp
    rwa [neg_smul, ← sub_eq_add_neg] at this
  · have hb : (border (1 / u) x W).PosDef := by
      rw [posDef_border]
      refine ⟨hW, ?_⟩
      rw [sub_pos, lt_div_iff₀ h0, mul_comm]
      exact hu
    have := (rest_posDef hb).2.1
    rwa [rest, one_div, inv_inv] at this

theorem trace_rank_one (x : Fin n → ℝ) (X : Matrix (Fin n) (Fin n) ℝ) :
    (vecMulVec x x * X).trace = x ⬝ᵥ (X *ᵥ x) := by
  simp only [trace, diag_apply, mul_apply, vecMulVec_apply, dotProduct, mulVec, Finset.mul_sum]
  rw [Finset.sum_comm]
  exact Finset.sum_congr rfl fun i _ => Finset.sum_congr rfl fun j _ => by ring

theorem measurable_quad (x : Fin n → ℝ) :
    Measurable fun z : Sym2 (Fin n) → ℝ => x ⬝ᵥ (symmMat z *ᵥ x) := by
  simp only [← trace_rank_one]
  exact measurable_trace _

/-- The mean of a quadratic form. -/
theorem wMeas_quad {s : ℝ} (hs : ((n : ℝ) - 1) / 2 < s) {W : Matrix (Fin n) (Fin n) ℝ}
    (hW : W.PosDef) (x : Fin n → ℝ) :
    Integrable (fun z => x ⬝ᵥ (symmMat z *ᵥ x)) (wMeas s W) ∧
      ∫ z, x ⬝ᵥ (symmMat z *ᵥ x) ∂wMeas s W = s * (x ⬝ᵥ (W⁻¹ *ᵥ x)) := by
  have := wMeas_prob hs hW
  have hZ := wZ_pos hs hW
  set c := x ⬝ᵥ (W⁻¹ *ᵥ x) with hc
  have hc0 : 0 ≤ c := by
    have := hW.inv.posSemidef.dotProduct_mulVec_nonneg x
    simpa using this
  have hε : 0 < 1 / (c + 1) := by positivity
  have hlt : ∀ u, |u| < 1 / (c + 1) → u * c < 1 := by
    intro u hu
    have h1 : u * c ≤ |u| * c := mul_le_mul_of_nonneg_right (le_abs_self u) hc0
    have h2 : |u| * (c + 1) < 1 := by rwa [lt_div_iff₀ (by positivity)] at hu
    nlinarith [abs_nonneg u]
  refine mean_of_mgf (φ := fun u => -s * Real.log (1 - u * c)) (measurable_quad x) hε
    (fun u hu => ?_) ?_
  · have h1 := hlt u hu
    obtain ⟨hp, hd⟩ := posDef_sub_rank_one hW x h1
    rw [← hc] at hd
    rw [lintegral_wMeas hs hW ((measurable_quad x).const_mul u).exp.ennreal_ofReal]
    have e : ∀ z : Sym2 (Fin n) → ℝ, ENNReal.ofReal (kern s W (symmMat z)) *
        ENNReal.ofReal (Real.exp (u * (x ⬝ᵥ (symmMat z *ᵥ x)))) =
        ENNReal.ofReal (kern s (W - u • vecMulVec x x) (symmMat z)) := by
      intro z
      rw [← ENNReal.ofReal_mul (kern_nonneg _ _ _)]
      congr 1
      unfold kern
      split_ifs with h
      · rw [mul_assoc, ← Real.exp_add, sub_mul, trace_sub, smul_mul, trace_smul, trace_rank_one,
          smul_eq_mul]
        congr 2
        ring
      · simp
    simp only [e]
    have h2 := wInt_eq n s hs _ hp
    rw [wInt] at h2
    have p1 := multiGamma_pos hs
    have hdW := hW.det_pos
    have hpos : 0 < 1 - u * c := by linarith
    rw [h2, ← ENNReal.ofReal_inv_of_pos hZ, ← ENNReal.ofReal_mul (by positivity)]
    congr 1
    rw [hd, mul_comm (-s), ← Real.rpow_def_of_pos hpos, Real.mul_rpow hdW.le hpos.le, wZ]
    have p3 : W.det ^ (-s) ≠ 0 := (Real.rpow_pos_of_pos hdW _).ne'
    field_simp
  · have h1 : HasDerivAt (fun u : ℝ => 1 - u * c) (-c) 0 := by
      have := ((hasDerivAt_id (0 : ℝ)).mul_const c).const_sub 1
      rwa [one_mul] at this
    have h2 := (h1.log (by simp)).const_mul (-s)
    refine h2.congr_deriv ?_
    simp

/-- The mean of the matrix. -/
theorem wMeas_mean {s : ℝ} (hs : ((n : ℝ) - 1) / 2 < s) {W : Matrix (Fin n) (Fin n) ℝ}
    (hW : W.PosDef) (i j : Fin n) :
    Integrable (fun z => symmMat z i j) (wMeas s W) ∧
      ∫ z, symmMat z i j ∂wMeas s W = s * W⁻¹ i j := by
  have hq : ∀ (X : Matrix (Fin n) (Fin n) ℝ) (i j : Fin n),
      Pi.single i (1 : ℝ) ⬝ᵥ (X *ᵥ Pi.single j 1) = X i j := by
    intro X i j
    rw [mulVec_single_one, single_one_dotProduct]
    rfl
  have hpol : ∀ X : Matrix (Fin n) (Fin n) ℝ, X.IsHermitian → X i j =
      ((Pi.single i (1 : ℝ) + Pi.single j 1) ⬝ᵥ (X *ᵥ (Pi.single i 1 + Pi.single j 1)) -
        Pi.single i (1 : ℝ) ⬝ᵥ (X *ᵥ Pi.single i 1) -
          Pi.single j (1 : ℝ) ⬝ᵥ (X *ᵥ Pi.single j 1)) / 2 := by
    intro X hX
    simp only [mulVec_add, add_dotProduct, dotProduct_add, hq]
    have : X j i = X i j := by simpa using hX.apply i j
    rw [this]
    ring
  have e : (fun z : Sym2 (Fin n) → ℝ => symmMat z i j) = fun z =>
      ((Pi.single i (1 : ℝ) + Pi.single j 1) ⬝ᵥ (symmMat z *ᵥ (Pi.single i 1 + Pi.single j 1)) -
        Pi.single i (1 : ℝ) ⬝ᵥ (symmMat z *ᵥ Pi.single i 1) -
          Pi.single j (1 : ℝ) ⬝ᵥ (symmMat z *ᵥ Pi.single j 1)) / 2 := by
    funext z
    exact hpol _ (symmMat_isHermitian z)
  obtain ⟨i1, v1⟩ := wMeas_quad hs hW (Pi.single i (1 : ℝ) + Pi.single j 1)
  obtain ⟨i2, v2⟩ := wMeas_quad hs hW (Pi.single i (1 : ℝ))
  obtain ⟨i3, v3⟩ := wMeas_quad hs hW (Pi.single j (1 : ℝ))
  have i12 : Integrable (fun z =>
      (Pi.single i (1 : ℝ) + Pi.single j 1) ⬝ᵥ (symmMat z *ᵥ (Pi.single i 1 + Pi.single j 1)) -
        Pi.single i (1 : ℝ) ⬝ᵥ (symmMat z *ᵥ Pi.single i 1)) (wMeas s W) := i1.sub i2
  rw [e]
  refine ⟨(i12.sub i3).div_const 2, ?_⟩
  rw [integral_div, integral_sub i12 i3, integral_sub i1 i2, v1, v2, v3,
    hpol W⁻¹ hW.inv.1]
  ring

/-! ### The diagonal of the inverse -/

/-- The reciprocals of the diagonal entries of the inverse have gamma distributions. -/
theorem wMeas_inv_diag {s : ℝ} (hs : ((n + 1 : ℕ) - 1 : ℝ) / 2 < s)
    {W : Matrix (Fin (n + 1)) (Fin (n + 1)) ℝ} (hW : W.PosDef) (i : Fin (n + 1)) :
    (wMeas s W).map (fun z => 1 / (symmMat z)⁻¹ i i) = gammaMeasure (s - (n : ℝ) / 2) (W i i) := by
  have hs' : (n : ℝ) / 2 < s := by push_cast at hs; linarith
  obtain ⟨hw, hr, -⟩ := restAt_posDef i hW
  have ha : 0 < s - (n : ℝ) / 2 := by linarith
  have hm : Measurable fun z : Sym2 (Fin (n + 1)) → ℝ => 1 / (symmMat z)⁻¹ i i := by
    simp only [inv_diag]
    refine Measurable.const_div (Measurable.div ?_ measurable_symmMat_det) 1
    refine Continuous.measurable (Continuous.matrix_det ?_)
    exact continuous_matrix fun i j => continuous_apply _
  have key : ∀ g : ℝ → ENNReal, Measurable g → ∫⁻ z, g (1 / (symmMat z)⁻¹ i i) ∂wMeas s W =
      (∫⁻ t in Ioi 0, ENNReal.ofReal (t ^ (s - (n : ℝ) / 2 - 1) * Real.exp (-(W i i * t))) * g t) *
        ((ENNReal.ofReal (wZ s W))⁻¹ *
          (ENNReal.ofReal (√(Real.pi / W i i) ^ n) * wInt s (restAt i W))) := by
    intro g hg
    have hgm : Measurable fun z : Sym2 (Fin (n + 1)) → ℝ => g (1 / (symmMat z)⁻¹ i i) := hg.comp hm
    rw [lintegral_wMeas hs hW hgm, wInt_split i s hW hg]
    ring
  have hone := key (fun _ => 1) measurable_const
  have := wMeas_prob hs hW
  simp only [mul_one, lintegral_one, measure_univ] at hone
  rw [lintegral_gamma ha hw] at hone
  set K := (ENNReal.ofReal (wZ s W))⁻¹ *
    (ENNReal.ofReal (√(Real.pi / W i i) ^ n) * wInt s (restAt i W)) with hK
  have hG : 0 < Real.Gamma (s - (n : ℝ) / 2) * W i i ^ (-(s - (n : ℝ) / 2)) :=
    mul_pos (Real.Gamma_pos_of_pos ha) (Real.rpow_pos_of_pos hw _)
  have hK' : K = ENNReal.ofReal (W i i ^ (s - (n : ℝ) / 2) / Real.Gamma (s - (n : ℝ) / 2)) := by
    rw [mul_comm] at hone
    rw [ENNReal.eq_inv_of_mul_eq_one_left hone.symm, ← ENNReal.ofReal_inv_of_pos hG, mul_inv,
      Real.rpow_neg hw.le, inv_inv, mul_comm, ← div_eq_mul_inv]
  ext A hA
  rw [Measure.map_apply hm hA, gammaMeasure, withDensity_apply _ hA]
  have h1 : wMeas s W ((fun z => 1 / (symmMat z)⁻¹ i i) ⁻¹' A) =
      ∫⁻ z, A.indicator (fun _ => 1) (1 / (symmMat z)⁻¹ i i) ∂wMeas s W := by
    rw [← lintegral_indicator_one (hm hA)]
    rfl
  rw [h1, key _ (measurable_const.indicator hA), ← lintegral_mul_const' _ _ (by
    rw [hK']; exact ENNReal.ofReal_ne_top), ← lintegral_indicator measurableSet_Ioi,
    ← lintegral_indicator hA]
  have h0 : ∀ᵐ t : ℝ, t ≠ 0 := Measure.ae_ne volume 0
  refine lintegral_congr_ae ?_
  filter_upwards [h0] with t ht
  by_cases hA' : t ∈ A
  · rw [indicator_of_mem hA', gammaPDF_eq]
    by_cases hp : 0 < t
    · rw [indicator_of_mem (mem_Ioi.2 hp), indicator_of_mem hA', if_pos hp.le, hK', mul_one,
        ← ENNReal.ofReal_mul (by positivity)]
      congr 1
      ring
    · rw [indicator_of_notMem (by simpa using hp), if_neg]
      · simp
      · intro h
        exact hp (lt_of_le_of_ne h (Ne.symm ht))
  · rw [indicator_of_notMem hA']
    by_cases hp : 0 < t
    · rw [indicator_of_mem (mem_Ioi.2 hp), indicator_of_notMem hA']
      simp
    · rw [indicator_of_notMem (by simpa using hp)]

end

end LRVB
