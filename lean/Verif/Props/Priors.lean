import Verif.Props.Mvn
import Verif.Props.Gamma
import Mathlib.Probability.Distributions.Exponential

/-!
# Expected log priors: C81
-/

namespace LRVB

open Arr ExpFam Families MeasureTheory ProbabilityTheory

noncomputable section

theorem uvnPrior_ofFn (s : List ℕ) (m i e v : List ℕ → ℝ) :
    uvnPrior (ofFn s m) (ofFn s i) (ofFn s e) (ofFn s v) =
      .ok (ofFn s fun idx => -0.5 * (i idx * ((e idx - m idx) ^ 2 + v idx))) := by
  unfold uvnPrior minus add mul
  rw [bin_ofFn, py_ok_bind, map_ofFn, bin_ofFn, py_ok_bind, bin_ofFn, py_ok_bind, map_ofFn]

theorem integral_sub_sq {μ : Measure ℝ} [IsProbabilityMeasure μ] (h : MemLp id 2 μ) (m : ℝ) :
    Integrable (fun x => (x - m) ^ 2) μ ∧ ∫ x, (x - m) ^ 2 ∂μ = (∫ x, x ∂μ - m) ^ 2 + Var[id; μ] := by
  have i1 : Integrable (fun x : ℝ => x) μ := h.integrable (by norm_num)
  have i2 : Integrable (fun x : ℝ => x ^ 2) μ := h.integrable_sq
  have e : (fun x : ℝ => (x - m) ^ 2) = fun x => x ^ 2 + (-2 * m) * x + m ^ 2 := by
    funext x; ring
  have i3 : Integrable (fun x : ℝ => x ^ 2 + (-2 * m) * x) μ := i2.add (i1.const_mul _)
  rw [e]
  refine ⟨i3.add (integrable_const _), ?_⟩
  rw [integral_add i3 (integrable_const _), integral_add i2 (i1.const_mul _), integral_const_mul,
    variance_eq_sub h]
  simp
  ring

/-- **C81** `uvn_prior(prior_mean, prior_info, e, var)` is, up to a constant that depends on the prior
only, the expectation of the normal log density with the prior mean and precision under any
distribution whose mean is `e` and whose variance is `var`. -/
theorem C81_uvn_prior (s : List ℕ) (m i : Arr) (hm : IsArr m s) (hi : IsPosArr i s) :
    ∃ c : List ℕ → ℝ, ∀ e v : Arr, IsArr e s → IsArr v s →
    ∃ r, uvnPrior m i e v = .ok r ∧ IsArr r s ∧ ∀ idx, InShape idx s →
      ∀ (μ : Measure ℝ) [IsProbabilityMeasure μ], MemLp id 2 μ → ∫ x, x ∂μ = e.get idx →
        Var[id; μ] = v.get idx →
        ∫ x, Real.log (normalPdf (m.get idx) (i.get idx) x) ∂μ = r.get idx + c idx := by
  refine ⟨fun idx => Real.log (normalPdf (m.get idx) (i.get idx) (m.get idx)), fun e v he hv =>
    ⟨ofFn s fun idx => -0.5 * (i.get idx * ((e.get idx - m.get idx) ^ 2 + v.get idx)), ?_,
      ofFn_arr _ _, fun idx h => ?_⟩⟩
  · conv_lhs => rw [arr_eq hm, arr_eq hi.1, arr_eq he, arr_eq hv]
    exact uvnPrior_ofFn _ _ _ _ _
  intro μ _ hμ h1 h2
  have hp := hi.2 idx h
  rw [get_ofFn _ h]
  have e1 : ∀ x, Real.log (normalPdf (m.get idx) (i.get idx) x) =
      -0.5 * i.get idx * (x - m.get idx) ^ 2 +
        Real.log (normalPdf (m.get idx) (i.get idx) (m.get idx)) := by
    intro x
    simp only [normalPdf]
    rw [log_gaussianPDFReal _ (varOf_ne_zero hp), log_gaussianPDFReal _ (varOf_ne_zero hp),
      varOf_coe hp]
    field_simp
    norm_num
    ring
  obtain ⟨i1, i2⟩ := integral_sub_sq hμ (m.get idx)
  rw [integral_congr_ae (.of_forall e1)]
  rw [integral_add (i1.const_mul _) (integrable_const _), integral_const_mul, i2, h1, h2,
    integral_const, probReal_univ, one_smul]
  ring

/-- Non-vacuity: a prior with two components, averaged under a normal distribution with mean 3 and
variance 2. -/
example : ∃ (c : List ℕ → ℝ) (r : Arr),
    uvnPrior (ofFn [2] fun _ => 1) (ofFn [2] fun _ => 5) (ofFn [2] fun _ => 3) (ofFn [2] fun _ => 2) =
      .ok r ∧ ∫ x, Real.log (normalPdf 1 5 x) ∂gaussianReal 3 2 = r.get [1] + c [1] := by
  obtain ⟨c, hc⟩ := C81_uvn_prior [2] (ofFn [2] fun _ => 1) (ofFn [2] fun _ => 5) (ofFn_arr _ _)
    ⟨ofFn_arr _ _, fun idx h => by rw [get_ofFn _ h]; norm_num⟩
  obtain ⟨r, h1, -, h2⟩ := hc (ofFn [2] fun _ => 3) (ofFn [2] fun _ => 2) (ofFn_arr _ _) (ofFn_arr _ _)
  have h : InShape [1] [2] := by simp [InShape]
  refine ⟨c, r, h1, ?_⟩
  have := h2 [1] h (gaussianReal 3 2) (memLp_id_gaussianReal 2)
    (by rw [get_ofFn _ h, integral_id_gaussianReal])
    (by rw [get_ofFn _ h, variance_id_gaussianReal]; norm_num)
  rwa [get_ofFn _ h, get_ofFn _ h] at this

/-- **C81** `gamma_prior(shape, rate, e, e_log)` is, up to a constant that depends on the prior only,
the expectation of the gamma log density under any distribution on the positive numbers with
`E x = e` and `E log(x) = e_log`. -/
theorem C81_gamma_prior (s : List ℕ) (a b : Arr) (ha : IsPosArr a s) (hb : IsPosArr b s) :
    ∃ c : List ℕ → ℝ, ∀ e l : Arr, IsArr e s → IsArr l s →
    ∃ r, gammaPrior a b e l = .ok r ∧ IsArr r s ∧ ∀ idx, InShape idx s →
      ∀ (μ : Measure ℝ) [IsProbabilityMeasure μ], (∀ᵐ x ∂μ, 0 < x) →
        Integrable (fun x => x) μ → Integrable Real.log μ → ∫ x, x ∂μ = e.get idx →
        ∫ x, Real.log x ∂μ = l.get idx →
        ∫ x, Real.log (gammaPDFReal (a.get idx) (b.get idx) x) ∂μ = r.get idx + c idx := by
  refine ⟨fun idx => a.get idx * Real.log (b.get idx) - Real.log (Real.Gamma (a.get idx)),
    fun e l he hl => ⟨ofFn s fun idx => (a.get idx - 1) * l.get idx - b.get idx * e.get idx, ?_,
      ofFn_arr _ _, fun idx h => ?_⟩⟩
  · unfold gammaPrior minus mul
    conv_lhs => rw [arr_eq ha.1, arr_eq hb.1, arr_eq he, arr_eq hl]
    rw [bin_scalar_right, py_ok_bind]
    rw [show (ofFn (ofFn s a.get).shape fun idx => (ofFn s a.get).get idx - 1) =
      ofFn s fun idx => a.get idx - 1 from
        ofFn_congr (s := s) fun idx hi => by rw [get_ofFn _ hi]]
    rw [bin_ofFn, py_ok_bind, bin_ofFn, py_ok_bind, bin_ofFn]
  · intro μ _ hpos i1 i2 h1 h2
    rw [get_ofFn _ h]
    have hc : (fun x => Real.log (gammaPDFReal (a.get idx) (b.get idx) x)) =ᵐ[μ] fun x =>
        (a.get idx * Real.log (b.get idx) - Real.log (Real.Gamma (a.get idx))) +
          ((a.get idx - 1) * Real.log x - b.get idx * x) := by
      filter_upwards [hpos] with x hx
      rw [log_gammaPDFReal (ha.2 idx h) (hb.2 idx h) hx]
      ring
    have i3 : Integrable (fun x => (a.get idx - 1) * Real.log x - b.get idx * x) μ :=
      (i2.const_mul _).sub (i1.const_mul _)
    rw [integral_congr_ae hc, integral_add (integrable_const _) i3,
      integral_sub (i2.const_mul _) (i1.const_mul _), integral_const_mul,
      integral_const_mul, h1, h2, integral_const, probReal_univ, one_smul]
    ring

/-- Non-vacuity: the log density of a gamma prior at a known value 3. -/
example : ∃ (c : List ℕ → ℝ) (r : Arr),
    gammaPrior (ofFn [2] fun _ => 4) (ofFn [2] fun _ => 5) (ofFn [2] fun _ => 3)
      (ofFn [2] fun _ => Real.log 3) = .ok r ∧
    Real.log (gammaPDFReal 4 5 3) = r.get [1] + c [1] := by
  obtain ⟨c, hc⟩ := C81_gamma_prior [2] (ofFn [2] fun _ => 4) (ofFn [2] fun _ => 5)
    ⟨ofFn_arr _ _, fun idx h => by rw [get_ofFn _ h]; norm_num⟩
    ⟨ofFn_arr _ _, fun idx h => by rw [get_ofFn _ h]; norm_num⟩
  obtain ⟨r, h1, -, h2⟩ := hc (ofFn [2] fun _ => 3) (ofFn [2] fun _ => Real.log 3) (ofFn_arr _ _)
    (ofFn_arr _ _)
  have h : InShape [1] [2] := by simp [InShape]
  refine ⟨c, r, h1, ?_⟩
  have := h2 [1] h (Measure.dirac 3) (by rw [ae_dirac_eq]; norm_num)
    (integrable_dirac (by simp)) (integrable_dirac (by simp))
    (by rw [get_ofFn _ h, integral_dirac]) (by rw [get_ofFn _ h, integral_dirac])
  rwa [get_ofFn _ h, get_ofFn _ h, integral_dirac] at this

/-- **C81** `exponential_prior(lambda, e)` is, up to a constant that depends on the prior only, the
expectation of the exponential log density under any distribution on the positive numbers with mean
`e`. -/
theorem C81_exponential_prior (s : List ℕ) (b : Arr) (hb : IsPosArr b s) :
    ∃ c : List ℕ → ℝ, ∀ e : Arr, IsArr e s →
    ∃ r, exponentialPrior b e = .ok r ∧ IsArr r s ∧ ∀ idx, InShape idx s →
      ∀ (μ : Measure ℝ) [IsProbabilityMeasure μ], (∀ᵐ x ∂μ, 0 < x) →
        Integrable (fun x => x) μ → ∫ x, x ∂μ = e.get idx →
        ∫ x, Real.log (exponentialPDFReal (b.get idx) x) ∂μ = r.get idx + c idx := by
  refine ⟨fun idx => Real.log (b.get idx), fun e he => ⟨ofFn s fun idx => -1 * b.get idx * e.get idx,
    ?_, ofFn_arr _ _, fun idx h => ?_⟩⟩
  · unfold exponentialPrior mul
    conv_lhs => rw [arr_eq hb.1, arr_eq he]
    rw [map_ofFn, bin_ofFn]
  · intro μ _ hpos i1 h1
    rw [get_ofFn _ h]
    have hp := hb.2 idx h
    have hc : (fun x => Real.log (exponentialPDFReal (b.get idx) x)) =ᵐ[μ] fun x =>
        Real.log (b.get idx) + (-1 * b.get idx) * x := by
      filter_upwards [hpos] with x hx
      rw [exponentialPDFReal, log_gammaPDFReal one_pos hp hx, Real.Gamma_one, Real.log_one]
      ring
    rw [integral_congr_ae hc, integral_add (integrable_const _) (i1.const_mul _),
      integral_const_mul, h1, integral_const, probReal_univ, one_smul]
    ring

/-- Non-vacuity: the log density of an exponential prior at a known value 3. -/
example : ∃ (c : List ℕ → ℝ) (r : Arr),
    exponentialPrior (ofFn [2] fun _ => 4) (ofFn [2] fun _ => 3) = .ok r ∧
    Real.log (exponentialPDFReal 4 3) = r.get [1] + c [1] := by
  obtain ⟨c, hc⟩ := C81_exponential_prior [2] (ofFn [2] fun _ => 4)
    ⟨ofFn_arr _ _, fun idx h => by rw [get_ofFn _ h]; norm_num⟩
  obtain ⟨r, h1, -, h2⟩ := hc (ofFn [2] fun _ => 3) (ofFn_arr _ _)
  have h : InShape [1] [2] := by simp [InShape]
  refine ⟨c, r, h1, ?_⟩
  have := h2 [1] h (Measure.dirac 3) (by rw [ae_dirac_eq]; norm_num)
    (integrable_dirac (by simp)) (by rw [get_ofFn _ h, integral_dirac])
  rwa [get_ofFn _ h, integral_dirac] at this

/-- **C81** `dirichlet_prior(alpha, e_log)` is the expectation of the Dirichlet log density without
its normalizing constant, under any distribution on positive vectors with `E log(x_k) = e_log[k]`. -/
theorem C81_dirichlet_prior (n : ℕ) (alpha l : List ℝ) (ha : alpha.length = n) (hl : l.length = n) :
    ∃ r, dirichletPrior alpha l = .ok r ∧ ∀ (μ : Measure (Fin n → ℝ)) [IsProbabilityMeasure μ],
      (∀ᵐ x ∂μ, ∀ k, 0 < x k) → (∀ k, Integrable (fun x => Real.log (x k)) μ) →
      (∀ k : Fin n, ∫ x, Real.log (x k) ∂μ = l.getD k 0) →
      ∫ x, Real.log (∏ k : Fin n, x k ^ (alpha.getD k 0 - 1)) ∂μ = r := by
  refine ⟨(List.zipWith (· * ·) (alpha.map (· - 1)) l).sum, ?_, ?_⟩
  · unfold dirichletPrior dot1
    rw [if_neg (by omega), if_pos (by simp; omega)]
  · intro μ _ hpos hint h1
    have hc : (fun x : Fin n → ℝ => Real.log (∏ k : Fin n, x k ^ (alpha.getD k 0 - 1))) =ᵐ[μ]
        fun x => ∑ k : Fin n, (alpha.getD k 0 - 1) * Real.log (x k) := by
      filter_upwards [hpos] with x hx
      rw [Real.log_prod fun k _ => (Real.rpow_pos_of_pos (hx k) _).ne']
      exact Finset.sum_congr rfl fun k _ => Real.log_rpow (hx k) _
    rw [integral_congr_ae hc, integral_finsetSum _ fun k _ => (hint k).const_mul _]
    simp only [integral_const_mul, h1]
    have e : List.zipWith (· * ·) (alpha.map (· - 1)) l =
        List.ofFn fun k : Fin n => (alpha.getD k 0 - 1) * l.getD k 0 := by
      refine List.ext_getElem (by simp [ha, hl]) fun i h2 h3 => ?_
      have hi : i < n := by simpa using h3
      simp [List.getD_eq_getElem?_getD, ha ▸ hi, hl ▸ hi]
    rw [e, List.sum_ofFn]

/-- Non-vacuity: the two-component Dirichlet kernel at the point (1/4, 3/4). -/
example : ∃ r, dirichletPrior [2, 3] [Real.log (1 / 4), Real.log (3 / 4)] = .ok r ∧
    Real.log (∏ k : Fin 2, (![1 / 4, 3 / 4] : Fin 2 → ℝ) k ^ (([2, 3] : List ℝ).getD k 0 - 1)) = r := by
  obtain ⟨r, h1, h2⟩ := C81_dirichlet_prior 2 [2, 3] [Real.log (1 / 4), Real.log (3 / 4)] rfl rfl
  refine ⟨r, h1, ?_⟩
  have := h2 (Measure.dirac ![1 / 4, 3 / 4])
    (by rw [ae_dirac_eq]; simp [Fin.forall_fin_two])
    (fun k => integrable_dirac (by simp)) (fun k => by rw [integral_dirac]; fin_cases k <;> simp)
  rwa [integral_dirac] at this

end

end LRVB
