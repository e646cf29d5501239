import Verif.Props.PriorOptimum
import Verif.Props.Regression

/-!
# C163: the expected log likelihood plus the log prior plus the entropy bounds the evidence
-/

namespace LRVB

open Arr ExpFam Families MeasureTheory ProbabilityTheory Matrix Regression

noncomputable section

/-- Multivariate normal distributions that agree have the same parameters. -/
theorem mvn_params_of_measure {n : ℕ} {m i m₀ i₀ : Arr} (hi : (asMatrix n i).PosDef)
    (hi₀ : (asMatrix n i₀).PosDef) (hμ : mvn n m i = mvn n m₀ i₀) :
    (∀ j : Fin n, m.get [(j : ℕ)] = m₀.get [(j : ℕ)]) ∧ asMatrix n i = asMatrix n i₀ := by
  refine mvn_params_eq hi hi₀ ?_
  have h1 : mvnPdf n m i =ᵐ[volume] mvnPdf n m₀ i₀ := by
    rw [C92_density n m i hi, C92_density n m₀ i₀ hi₀] at hμ
    have h := (withDensity_eq_iff (measurable_mvnPdf n m i).ennreal_ofReal.aemeasurable
      (measurable_mvnPdf n m₀ i₀).ennreal_ofReal.aemeasurable (by
        rw [← ofReal_integral_eq_lintegral_ofReal (mvnPdf_integral hi).1
          (ae_of_all _ fun x => (mvnPdf_pos hi x).le)]
        exact ENNReal.ofReal_ne_top)).1 hμ
    filter_upwards [h] with x hx
    rwa [ENNReal.ofReal_eq_ofReal_iff (mvnPdf_pos hi x).le (mvnPdf_pos hi₀ x).le] at hx
  exact h1.symm

/-- An integral under a multivariate normal distribution, by its density. -/
theorem mvn_integral {n : ℕ} {m i : Arr} (hi : (asMatrix n i).PosDef) {f : EuclideanSpace ℝ (Fin n) → ℝ} :
    (Integrable f (mvn n m i) ↔ Integrable fun x => mvnPdf n m i x * f x) ∧
    ∫ x, f x ∂mvn n m i = ∫ x, mvnPdf n m i x * f x := by
  have hm := (measurable_mvnPdf n m i).ennreal_ofReal
  have e : (fun x => (ENNReal.ofReal (mvnPdf n m i x)).toReal • f x) = fun x => mvnPdf n m i x * f x := by
    funext x
    rw [ENNReal.toReal_ofReal (mvnPdf_pos hi x).le, smul_eq_mul]
  rw [C92_density n m i hi, integrable_withDensity_iff_integrable_smul' hm (by simp),
    integral_withDensity_eq_integral_toReal_smul hm (by simp), e]
  exact ⟨Iff.rfl, rfl⟩

/-- **C163** The evidence bound for multivariate normal priors and any log likelihood `f`: the expectation
of `f` under `q`, plus `mvn_prior` at the moments of `q` completed by a number that depends on the prior only
to the expected log density of the prior, plus `q.entropy()`, is at most the log of the evidence, the
integral of the likelihood under the prior.  It equals it exactly when `q` is the posterior distribution. -/
theorem C163_mvn (n : ℕ) (m₀ : List ℝ) (i₀ : Arr) (hm₀ : m₀.length = n) (hi₀ : IsMat i₀ n n)
    (hpd₀ : (asMatrix n i₀).PosDef) :
    ∃ k : ℝ, ∀ (f : EuclideanSpace ℝ (Fin n) → ℝ), Measurable f →
      Integrable (fun β => Real.exp (f β)) (mvn n (vec m₀) i₀) →
      ∀ (q : Param) (m i : Arr), HoldsMvn q n m i → (asMatrix n i).PosDef → Integrable f (mvn n m i) →
      ∃ e C r H, mvnE q = .ok e ∧ mvnCov q = .ok C ∧ mvnPrior m₀ i₀ e.data C = .ok r ∧
        mvnEntropy q = .ok H ∧ ∫ β, Real.log (mvnPdf n (vec m₀) i₀ β) ∂mvn n m i = r + k ∧
        ∫ β, f β ∂mvn n m i + (r + k) + H ≤ Real.log (∫ β, Real.exp (f β) ∂mvn n (vec m₀) i₀) ∧
        (∫ β, f β ∂mvn n m i + (r + k) + H = Real.log (∫ β, Real.exp (f β) ∂mvn n (vec m₀) i₀) ↔
          (mvn n (vec m₀) i₀).withDensity (fun β => ENNReal.ofReal (Real.exp (f β))) =
            ENNReal.ofReal (∫ β, Real.exp (f β) ∂mvn n (vec m₀) i₀) • mvn n m i) := by
  obtain ⟨c, hc⟩ := C81_mvn_prior n m₀ i₀ hm₀ hi₀ hpd₀
  refine ⟨c, fun f hf hexp q m i h hpd hfq => ?_⟩
  have hsym : (asMatrix n i).IsSymm := by
    have := hpd.1
    rwa [Matrix.IsHermitian, conjTranspose_eq_transpose_of_trivial] at this
  obtain ⟨e1, C, O, e2, e3, -⟩ := C84_moments_consistent q n m i h hsym hpd.det_pos.ne'
  obtain ⟨e', C', O', f1, f2, -, f4, f5, -⟩ := C84_true_moments q n m i h hpd
  rw [e1] at f1
  cases f1
  rw [e2] at f2
  cases f2
  have hml : m.data.length = n := by
    have := h.mean_arr.1
    rw [WF, h.mean_arr.2] at this
    simpa using this
  have hget : ∀ j : Fin n, m.get [(j : ℕ)] = m.data.getD j 0 := by
    intro j
    have : (j : ℕ) < m.data.length := by rw [hml]; exact j.2
    simp [Arr.get, flat, h.mean_arr.2]
  obtain ⟨r, r1, r2⟩ := hc m.data C hml e3
  have hcross := r2 (mvn n m i) (mvn_memLp n m i) (fun j => by rw [← f4 j, hget]) (fun j k => (f5 j k).symm)
  obtain ⟨x1, x2⟩ := mvn_cross (m := m) (m₀ := vec m₀) hpd hpd₀
  obtain ⟨s1, s2⟩ := mvn_cross (m := m) (m₀ := m) hpd hpd
  set Z := ∫ β, Real.exp (f β) ∂mvn n (vec m₀) i₀ with hZ
  have hpos₀ := fun x => mvnPdf_pos (m := vec m₀) hpd₀ x
  have hposq := fun x => mvnPdf_pos (m := m) hpd x
  have hZpos : 0 < Z := integral_exp_pos hexp
  have iE : Integrable fun x => mvnPdf n (vec m₀) i₀ x * Real.exp (f x) := (mvn_integral hpd₀).1.1 hexp
  have vE : Z = ∫ x, mvnPdf n (vec m₀) i₀ x * Real.exp (f x) := (mvn_integral hpd₀).2
  have iF : Integrable fun x => mvnPdf n m i x * f x := (mvn_integral hpd).1.1 hfq
  have vF : ∫ β, f β ∂mvn n m i = ∫ x, mvnPdf n m i x * f x := (mvn_integral hpd).2
  -- the posterior density
  set p : EuclideanSpace ℝ (Fin n) → ℝ := fun x => mvnPdf n (vec m₀) i₀ x * Real.exp (f x) / Z with hp
  have hppos : ∀ x, 0 < p x := fun x => div_pos (mul_pos (hpos₀ x) (Real.exp_pos _)) hZpos
  have ip : Integrable p := iE.div_const Z
  have vp : ∫ x, p x = 1 := by
    simp only [hp]
    rw [integral_div, ← vE, div_self hZpos.ne']
  have hlog : (fun x => mvnPdf n m i x * Real.log (p x)) = fun x =>
      mvnPdf n m i x * f x + mvnPdf n m i x * Real.log (mvnPdf n (vec m₀) i₀ x) -
        Real.log Z * mvnPdf n m i x := by
    funext x
    simp only [hp]
    rw [Real.log_div (mul_pos (hpos₀ x) (Real.exp_pos _)).ne' hZpos.ne',
      Real.log_mul (hpos₀ x).ne' (Real.exp_pos _).ne', Real.log_exp]
    ring
  have iS : Integrable fun x => mvnPdf n m i x * f x +
      mvnPdf n m i x * Real.log (mvnPdf n (vec m₀) i₀ x) := iF.add x1
  have iq := (mvnPdf_integral (m := m) hpd).1
  have i1 : Integrable fun x => mvnPdf n m i x * Real.log (p x) := by
    rw [hlog]
    exact iS.sub (iq.const_mul _)
  have v1 : ∫ x, mvnPdf n m i x * Real.log (p x) = ∫ β, f β ∂mvn n m i + (r + c) - Real.log Z := by
    rw [hlog, integral_sub iS (iq.const_mul _), integral_add iF x1, x2, hcross, ← vF, integral_const_mul,
      (mvnPdf_integral hpd).2, mul_one]
  obtain ⟨g1, g2⟩ := gibbs (ae_of_all _ fun x => (hppos x).le) (ae_of_all _ fun x => (hposq x).le)
    (ae_of_all _ fun x _ => hppos x) ip iq (by rw [vp, (mvnPdf_integral hpd).2]) i1 s1
  rw [v1] at g1 g2
  have hH := C92_entropy q n m i h hpd
  have hD : (mvn n (vec m₀) i₀).withDensity (fun β => ENNReal.ofReal (Real.exp (f β))) =
      volume.withDensity fun x => ENNReal.ofReal (mvnPdf n (vec m₀) i₀ x * Real.exp (f x)) := by
    rw [C92_density n (vec m₀) i₀ hpd₀, ← withDensity_mul _ (measurable_mvnPdf _ _ _).ennreal_ofReal
      hf.exp.ennreal_ofReal]
    congr 1
    funext x
    rw [Pi.mul_apply, ENNReal.ofReal_mul (hpos₀ x).le]
  have hQ : ENNReal.ofReal Z • mvn n m i =
      volume.withDensity fun x => ENNReal.ofReal (Z * mvnPdf n m i x) := by
    rw [C92_density n m i hpd, ← withDensity_smul _ (measurable_mvnPdf _ _ _).ennreal_ofReal]
    congr 1
    funext x
    rw [Pi.smul_apply, smul_eq_mul, ENNReal.ofReal_mul hZpos.le]
  have hiff : ((mvn n (vec m₀) i₀).withDensity (fun β => ENNReal.ofReal (Real.exp (f β))) =
      ENNReal.ofReal Z • mvn n m i) ↔ p =ᵐ[volume] mvnPdf n m i := by
    have a1 : AEMeasurable (fun x => ENNReal.ofReal (mvnPdf n (vec m₀) i₀ x * Real.exp (f x))) volume :=
      ((measurable_mvnPdf n (vec m₀) i₀).mul hf.exp).ennreal_ofReal.aemeasurable
    have a2 : AEMeasurable (fun x => ENNReal.ofReal (Z * mvnPdf n m i x)) volume :=
      ((measurable_mvnPdf n m i).const_mul Z).ennreal_ofReal.aemeasurable
    rw [hD, hQ, withDensity_eq_iff a1 a2 (by
        rw [← ofReal_integral_eq_lintegral_ofReal iE
          (ae_of_all _ fun x => (mul_pos (hpos₀ x) (Real.exp_pos _)).le)]
        exact ENNReal.ofReal_ne_top)]
    refine Filter.eventually_congr (ae_of_all _ fun x => ?_)
    rw [ENNReal.ofReal_eq_ofReal_iff (mul_pos (hpos₀ x) (Real.exp_pos _)).le (mul_pos hZpos (hposq x)).le]
    simp only [hp]
    rw [div_eq_iff hZpos.ne', mul_comm Z]
  refine ⟨m, C, r, _, e1, e2, r1, hH, hcross, by linarith, ?_⟩
  rw [hiff]
  constructor
  · intro heq
    exact g2 (by linarith)
  · intro hae
    have : ∫ x, mvnPdf n m i x * Real.log (p x) = ∫ x, mvnPdf n m i x * Real.log (mvnPdf n m i x) := by
      refine integral_congr_ae ?_
      filter_upwards [hae] with x hx
      rw [hx]
    rw [v1] at this
    linarith

/-- **C163** For linear regression with known weights and a normal prior: the expected log likelihood under
`q` (up to the constant of its density) plus `mvn_prior` at the moments of `q` plus `q.entropy()` is at most
a number that depends on the data and the prior only, and equals it exactly for the `q` that holds the mean
and the information matrix returned by `get_posterior_regression_coefficients`. -/
theorem C163_regression (e : List ℕ) (s r : ℕ) (y x : Arr) (info : Info) (m₀ : List ℝ) (i₀ : Arr)
    (hy : IsArr y (e ++ [s])) (hx : IsArr x [s, r]) (hi : InfoShape info [] s)
    (hpsd : (weightAt info [] s).PosSemidef) (hm₀ : m₀.length = r) (hi₀ : IsMat i₀ r r)
    (hpd₀ : (asMatrix r i₀).PosDef) :
    ∃ m₁ i₁, getPosteriorRegressionCoefficients y x info (vec m₀) i₀ = .ok (m₁, i₁) ∧
      ∃ c : ℝ, ∀ (q : Param) (m i : Arr), HoldsMvn q r m i → (asMatrix r i).PosDef →
      ∃ e' C p H, mvnE q = .ok e' ∧ mvnCov q = .ok C ∧ mvnPrior m₀ i₀ e'.data C = .ok p ∧
        mvnEntropy q = .ok H ∧ Integrable (fun β => wls y x info e [] s r β.ofLp) (mvn r m i) ∧
        ∫ β, -0.5 * wls y x info e [] s r β.ofLp ∂mvn r m i + p + H ≤ c ∧
        (∫ β, -0.5 * wls y x info e [] s r β.ofLp ∂mvn r m i + p + H = c ↔ m = m₁ ∧ i = i₁) := by
  have hmat : ∀ {a : Arr}, IsMat a r r → matAt a [] r r = asMatrix r a := by
    intro a ha
    ext j k
    simp [matAt, asMatrix, Arr.at2, Arr.get, flat, ha.2]
  have hv₀ : IsArr (vec m₀) [r] := ⟨by simp [Arr.vec, WF], by simp [Arr.vec, hm₀]⟩
  have hb0 : ∀ bi, InShape bi [] → bi = [] := fun bi h => by cases h; rfl
  obtain ⟨m₁, i₁, h1, h2, h3, h4⟩ := C80_posterior [] e s r y x info (vec m₀) i₀ (by simpa using hy) hx hi
    (fun bi h => by rw [hb0 bi h]; exact hpsd) hv₀ hi₀ (fun bi h => by
      rw [hb0 bi h, hmat hi₀]; exact hpd₀)
  obtain ⟨hpd₁, K, hK0, hKt, hK⟩ := h4 [] .nil
  have h3' : IsMat i₁ r r := h3
  have h2' : IsArr m₁ [r] := h2
  rw [hmat h3'] at hpd₁ hK
  rw [hmat hi₀] at hK
  have hK' : (mvn r (vec m₀) i₀).withDensity
      (fun β => ENNReal.ofReal (Real.exp (-0.5 * wls y x info e [] s r β.ofLp))) = K • mvn r m₁ i₁ := by
    rw [show (fun β : EuclideanSpace ℝ (Fin r) =>
      ENNReal.ofReal (Real.exp (-0.5 * wls y x info e [] s r β.ofLp))) =
      fun β => ENNReal.ofReal (Real.exp (-wls y x info e [] s r β.ofLp / 2)) from by
        funext β
        congr 2
        ring]
    exact hK
  refine ⟨m₁, i₁, h1, ?_⟩
  -- the log likelihood is a polynomial
  have hsym : (weightAt info [] s).IsSymm := by
    have := hpsd.1
    rwa [Matrix.IsHermitian, conjTranspose_eq_transpose_of_trivial] at this
  obtain ⟨n1, n2, -, -, -, hn⟩ := C80_likelihood_natural_parameters [] e s r y x info (by simpa using hy) hx hi
    (fun bi h => by rw [hb0 bi h]; exact hsym)
  obtain ⟨-, c₂, hc₂⟩ := hn [] .nil
  set f : EuclideanSpace ℝ (Fin r) → ℝ := fun β => -0.5 * wls y x info e [] s r β.ofLp with hfdef
  have hpoly : f = fun β => (∑ j, vecAt n1 [] r j * β j +
      ∑ j, ∑ k, matAt n2 [] r r j k * (β j * β k)) + c₂ := by
    funext β
    rw [hfdef]
    simp only
    rw [hc₂ β.ofLp]
    simp only [dotProduct, Matrix.mulVec, Finset.mul_sum]
    congr 2
    exact Finset.sum_congr rfl fun j _ => Finset.sum_congr rfl fun k _ => by ring
  have hmeas : Measurable f := by
    rw [hpoly]
    fun_prop
  have hint : ∀ m i : Arr, Integrable f (mvn r m i) := by
    intro m i
    rw [hpoly]
    refine ((integrable_finset_sum _ fun j _ => ?_).add
      (integrable_finset_sum _ fun j _ => integrable_finset_sum _ fun k _ => ?_)).add (integrable_const _)
    · exact ((mvn_memLp r m i j).integrable (by norm_num)).const_mul _
    · exact ((mvn_memLp r m i j).integrable_mul (mvn_memLp r m i k)).const_mul _
  have hwint : ∀ m i : Arr, Integrable (fun β => wls y x info e [] s r β.ofLp) (mvn r m i) := by
    intro m i
    refine ((hint m i).const_mul (-2)).congr (ae_of_all _ fun β => ?_)
    simp only [hfdef]
    ring
  have hnonneg : ∀ β : EuclideanSpace ℝ (Fin r), f β ≤ 0 := by
    intro β
    have : 0 ≤ wls y x info e [] s r β.ofLp := by
      unfold wls
      refine List.sum_nonneg fun t ht => ?_
      obtain ⟨ei, -, rfl⟩ := List.mem_map.1 ht
      have := hpsd.dotProduct_mulVec_nonneg (vecAt y ([] ++ ei) s - matAt x [] s r *ᵥ β.ofLp)
      simpa using this
    simp only [hfdef]
    linarith
  have hexp : Integrable (fun β => Real.exp (f β)) (mvn r (vec m₀) i₀) := by
    refine Integrable.mono' (integrable_const 1) hmeas.exp.aestronglyMeasurable (ae_of_all _ fun β => ?_)
    rw [Real.norm_eq_abs, abs_of_pos (Real.exp_pos _)]
    exact Real.exp_le_one_iff.2 (hnonneg β)
  obtain ⟨k, hk⟩ := C163_mvn r m₀ i₀ hm₀ hi₀ hpd₀
  set Z := ∫ β, Real.exp (f β) ∂mvn r (vec m₀) i₀ with hZ
  -- the constant of Bayes' rule is the evidence
  have hKZ : K = ENNReal.ofReal Z := by
    have := congrArg (fun μ => μ Set.univ) hK'
    simp only [Measure.smul_apply, measure_univ, smul_eq_mul, mul_one, withDensity_apply _ MeasurableSet.univ,
      Measure.restrict_univ] at this
    rw [← this, hZ, ofReal_integral_eq_lintegral_ofReal hexp (ae_of_all _ fun β => (Real.exp_pos _).le)]
  have hZpos : 0 < Z := integral_exp_pos hexp
  refine ⟨Real.log Z - k, fun q m i h hpd => ?_⟩
  obtain ⟨e', C, p, H, u1, u2, u3, u4, -, u6, u7⟩ := hk f hmeas hexp q m i h hpd (hint m i)
  refine ⟨e', C, p, H, u1, u2, u3, u4, hwint m i, by linarith, ?_⟩
  have hu : (∫ β, f β ∂mvn r m i + p + H = Real.log Z - k) ↔
      (∫ β, f β ∂mvn r m i + (p + k) + H = Real.log Z) := by
    constructor <;> intro <;> linarith
  rw [hu, u7, hK', hKZ]
  constructor
  · intro heq
    have heq2 : mvn r m i = mvn r m₁ i₁ := by
      have hz0 : ENNReal.ofReal Z ≠ 0 := by simpa using hZpos
      ext t ht
      have := congrArg (fun μ => μ t) heq
      simp only [Measure.smul_apply, smul_eq_mul] at this
      exact ((ENNReal.mul_right_inj hz0 ENNReal.ofReal_ne_top).1 this).symm
    obtain ⟨p1, p2⟩ := mvn_params_of_measure hpd hpd₁ heq2
    refine ⟨(arr_eq_iff h.mean_arr h2').2 fun idx hidx => ?_, ?_⟩
    · cases hidx with
      | cons hk hn =>
        cases hn
        exact p1 ⟨_, hk⟩
    · refine (arr_eq_iff (s := [r, r]) h.info_arr h3').2 fun idx hidx => ?_
      cases hidx with
      | cons hj hr =>
        cases hr with
        | cons hk hn =>
          cases hn
          have := congrFun (congrFun p2 ⟨_, hj⟩) ⟨_, hk⟩
          simpa [asMatrix, Arr.at2, Arr.get, flat, h.info_arr.2, h3'.2] using this
  · rintro ⟨rfl, rfl⟩
    rfl

/-- Three responses of two observations each, one regressor, weights two, and a standard normal prior; a
parameter after `set_free`. -/
example (y : Arr) (hy : IsArr y [3, 2]) :
    ∃ m₁ i₁ q m i, getPosteriorRegressionCoefficients y (batchMat [] 2 1 fun _ => of fun _ _ => 1) (.scalar 2)
      (vec [0]) (batchMat [] 1 1 fun _ => 1) = .ok (m₁, i₁) ∧ HoldsMvn q 1 m i ∧ (asMatrix 1 i).PosDef := by
  have h1 : matAt (batchMat [] 1 1 fun _ => 1) [] 1 1 = 1 := matAt_batchMat _ .nil
  have h2 : asMatrix 1 (batchMat [] 1 1 fun _ => 1) = 1 := by
    refine Eq.trans ?_ h1
    ext j k
    simp [matAt, asMatrix, Arr.at2, Arr.get, flat, (batchMat_arr [] 1 1 fun _ => 1).2]
  obtain ⟨m₁, i₁, h, -⟩ := C163_regression [3] 2 1 y (batchMat [] 2 1 fun _ => of fun _ _ => 1) (.scalar 2) [0]
    (batchMat [] 1 1 fun _ => 1) hy (batchMat_arr _ _ _ _) trivial (by
      have : (2 : ℝ) • (1 : Matrix (Fin 2) (Fin 2) ℝ) = diagonal fun _ => 2 := by
        ext i j
        simp [diagonal, one_apply]
      rw [weightAt, this]
      exact PosSemidef.diagonal fun _ => by norm_num) rfl (batchMat_arr [] 1 1 _) (by rw [h2]; exact PosDef.one)
  obtain ⟨p, -, -, hs⟩ := C84_after_set_free "b" 1 0.5 (by norm_num) []
  obtain ⟨q, m, i, -, h3, h4⟩ := hs [1, 2] rfl
  exact ⟨m₁, i₁, q, m, i, h, h3, h4⟩

end

end LRVB
