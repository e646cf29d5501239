import Verif.Lemmas.Gibbs
import Verif.Props.MvnDensity
import Verif.Props.DirichletMoments
import Verif.Props.NormalPosterior

/-!
# C162: expected log prior plus entropy is largest at the prior
-/

namespace LRVB

open Arr ExpFam Families MeasureTheory ProbabilityTheory Matrix

noncomputable section

/-- Sums of terms bounded one by one. -/
theorem sum_le_and_eq {α : Type*} (l : List α) {f g : α → ℝ} (h : ∀ a ∈ l, f a ≤ g a) :
    (l.map f).sum ≤ (l.map g).sum ∧ ((l.map f).sum = (l.map g).sum ↔ ∀ a ∈ l, f a = g a) := by
  induction l with
  | nil => simp
  | cons a l ih =>
    obtain ⟨i1, i2⟩ := ih fun b hb => h b (by simp [hb])
    have ha := h a (by simp)
    simp only [List.map_cons, List.sum_cons, List.mem_cons, forall_eq_or_imp]
    refine ⟨by linarith, fun he => ?_, fun ⟨h1, h2⟩ => by rw [h1, i2.2 h2]⟩
    have h1 : f a = g a := by linarith
    exact ⟨h1, i2.1 (by linarith)⟩

/-- Arrays of one shape are equal when their entries are. -/
theorem arr_eq_iff {a b : Arr} {s : List ℕ} (ha : IsArr a s) (hb : IsArr b s) :
    a = b ↔ ∀ idx, InShape idx s → a.get idx = b.get idx := by
  refine ⟨fun h _ _ => by rw [h], fun h => ?_⟩
  rw [arr_eq ha, arr_eq hb]
  exact ofFn_congr h

theorem normal_gibbs (m m₀ : ℝ) {i i₀ : ℝ} (hi : 0 < i) (hi₀ : 0 < i₀) :
    -0.5 * (i₀ * ((m - m₀) ^ 2 + 1 / i)) + diffEntropy (normalPdf m i) ≤
      -0.5 + diffEntropy (normalPdf m₀ i₀) ∧
    (-0.5 * (i₀ * ((m - m₀) ^ 2 + 1 / i)) + diffEntropy (normalPdf m i) =
      -0.5 + diffEntropy (normalPdf m₀ i₀) ↔ m = m₀ ∧ i = i₀) := by
  rw [diffEntropy_normal m hi, diffEntropy_normal m₀ hi₀]
  have e : Real.log (i₀ / i) = Real.log i₀ - Real.log i := Real.log_div hi₀.ne' hi.ne'
  have e1 : i₀ * ((m - m₀) ^ 2 + 1 / i) = i₀ * (m - m₀) ^ 2 + i₀ / i := by ring
  have h1 := Real.log_le_sub_one_of_pos (div_pos hi₀ hi)
  have h2 : 0 ≤ i₀ * (m - m₀) ^ 2 := by positivity
  rw [e] at h1
  rw [e1, show (-0.5 : ℝ) = -1 / 2 by norm_num]
  refine ⟨by linarith, fun h => ?_, ?_⟩
  · have h3 : i₀ * (m - m₀) ^ 2 = 0 := by linarith
    have h4 : m = m₀ := by
      rcases mul_eq_zero.1 h3 with h5 | h5
      · exact absurd h5 hi₀.ne'
      · have := pow_eq_zero_iff (two_ne_zero) |>.1 h5
        linarith
    refine ⟨h4, ?_⟩
    by_contra hne
    have h5 := Real.log_lt_sub_one_of_pos (div_pos hi₀ hi)
      (fun hc => hne ((div_eq_one_iff_eq hi.ne').1 hc).symm)
    rw [e] at h5
    linarith
  · rintro ⟨rfl, rfl⟩
    rw [div_self hi.ne']
    ring

/-- **C162** For normal priors: the sum of `uvn_prior(prior_mean, prior_info, q.e(), q.var())` and
`q.entropy()` is at most a number that depends on the prior only, and equals it exactly for the `q` that
holds the mean and the precision of the prior. -/
theorem C162_uvn (s : List ℕ) (m₀ i₀ : Arr) (hm₀ : IsArr m₀ s) (hi₀ : IsPosArr i₀ s) :
    ∃ c : ℝ, ∀ (q : Param) (m i : Arr), HoldsNormals q s m i →
      ∃ e v r H, uvnE q = .ok e ∧ uvnVar q = .ok v ∧ uvnPrior m₀ i₀ e v = .ok r ∧ uvnEntropy q = .ok H ∧
        r.sumAll + H ≤ c ∧ (r.sumAll + H = c ↔ m = m₀ ∧ i = i₀) := by
  refine ⟨((indexProduct s).map fun idx => -0.5 + diffEntropy (normalPdf (m₀.get idx) (i₀.get idx))).sum,
    fun q m i h => ?_⟩
  obtain ⟨u1, -, u2, -⟩ := C72_uvn_moments q s m i h
  have hp : ∀ idx, InShape idx s → (∫ x, x ∂normal (m.get idx) (i.get idx) = m.get idx) ∧
      Var[id; normal (m.get idx) (i.get idx)] = 1 / i.get idx := by
    intro idx hi
    rw [normal, integral_id_gaussianReal, variance_id_gaussianReal, varOf_coe (h.info_arr.2 idx hi)]
    exact ⟨rfl, rfl⟩
  rw [ofFn_congr fun idx hi => (hp idx hi).1] at u1
  rw [ofFn_congr fun idx hi => (hp idx hi).2] at u2
  have u3 : uvnPrior m₀ i₀ (ofFn s m.get) (ofFn s fun idx => 1 / i.get idx) = .ok (ofFn s fun idx =>
      -0.5 * (i₀.get idx * ((m.get idx - m₀.get idx) ^ 2 + 1 / i.get idx))) := by
    conv_lhs => rw [arr_eq hm₀, arr_eq hi₀.1]
    exact uvnPrior_ofFn _ _ _ _ _
  refine ⟨_, _, _, _, u1, u2, u3, C73_uvn_entropy q s m i h, ?_⟩
  rw [sumAll_ofFn, ← List.sum_map_add]
  obtain ⟨a, b⟩ := sum_le_and_eq (indexProduct s) fun idx hidx =>
    (normal_gibbs (m.get idx) (m₀.get idx) (h.info_arr.2 idx (mem_indexProduct.1 hidx))
      (hi₀.2 idx (mem_indexProduct.1 hidx))).1
  refine ⟨a, b.trans ?_⟩
  rw [arr_eq_iff h.mean_arr hm₀, arr_eq_iff h.info_arr.1 hi₀.1]
  constructor
  · intro hh
    have hb := fun idx hi => (normal_gibbs (m.get idx) (m₀.get idx) (h.info_arr.2 idx hi) (hi₀.2 idx hi)).2.1
      (hh idx (mem_indexProduct.2 hi))
    exact ⟨fun idx hi => (hb idx hi).1, fun idx hi => (hb idx hi).2⟩
  · rintro ⟨h1, h2⟩ idx hidx
    have hi := mem_indexProduct.1 hidx
    exact (normal_gibbs (m.get idx) (m₀.get idx) (h.info_arr.2 idx hi) (hi₀.2 idx hi)).2.2
      ⟨h1 idx hi, h2 idx hi⟩

/-- **C162** For gamma priors: the sum of `gamma_prior(prior_shape, prior_rate, q.e(), q.e_log())` and
`q.entropy()` is at most a number that depends on the prior only, and equals it exactly for the `q` that
holds the shape and the rate of the prior. -/
theorem C162_gamma (s : List ℕ) (a₀ r₀ : Arr) (ha₀ : IsPosArr a₀ s) (hr₀ : IsPosArr r₀ s) :
    ∃ c : ℝ, ∀ (q : Param) (a r : Arr), HoldsGammas q s a r →
      ∃ e l v H, gammaE q = .ok e ∧ gammaELog q = .ok l ∧ gammaPrior a₀ r₀ e l = .ok v ∧
        gammaParEntropy q = .ok H ∧ v.sumAll + H ≤ c ∧ (v.sumAll + H = c ↔ a = a₀ ∧ r = r₀) := by
  refine ⟨((indexProduct s).map fun idx =>
    -(a₀.get idx * Real.log (r₀.get idx) - Real.log (Real.Gamma (a₀.get idx)))).sum, fun q a r h => ?_⟩
  obtain ⟨u1, u2, u3⟩ := C85_gamma_moments q s a r h
  have hp : ∀ idx, InShape idx s → 0 < a.get idx ∧ 0 < r.get idx ∧ 0 < a₀.get idx ∧ 0 < r₀.get idx :=
    fun idx hi => ⟨h.shape_arr.2 idx hi, h.rate_arr.2 idx hi, ha₀.2 idx hi, hr₀.2 idx hi⟩
  rw [ofFn_congr fun idx hi => (integral_gammaMeasure (hp idx hi).1 (hp idx hi).2.1 _).trans
    (gamma_mean (hp idx hi).1 (hp idx hi).2.1)] at u1
  rw [ofFn_congr fun idx hi => (integral_gammaMeasure (hp idx hi).1 (hp idx hi).2.1 _).trans
    (gamma_log_mean (hp idx hi).1 (hp idx hi).2.1)] at u2
  have u4 : gammaPrior a₀ r₀ (ofFn s fun idx => a.get idx / r.get idx)
      (ofFn s fun idx => psi (a.get idx) - Real.log (r.get idx)) = .ok (ofFn s fun idx =>
        (a₀.get idx - 1) * (psi (a.get idx) - Real.log (r.get idx)) - r₀.get idx * (a.get idx / r.get idx)) := by
    unfold gammaPrior minus mul
    conv_lhs => rw [arr_eq ha₀.1, arr_eq hr₀.1]
    rw [bin_scalar_right, py_ok_bind]
    rw [show (ofFn (ofFn s a₀.get).shape fun idx => (ofFn s a₀.get).get idx - 1) =
      ofFn s fun idx => a₀.get idx - 1 from
        ofFn_congr (s := s) fun idx hi => by rw [get_ofFn _ hi]]
    rw [bin_ofFn, py_ok_bind, bin_ofFn, py_ok_bind, bin_ofFn]
  refine ⟨_, _, _, _, u1, u2, u4, u3, ?_⟩
  rw [sumAll_ofFn, ← List.sum_map_add]
  have hg : ∀ idx, InShape idx s → _ := fun idx hi =>
    gamma_gibbs (hp idx hi).1 (hp idx hi).2.1 (hp idx hi).2.2.1 (hp idx hi).2.2.2
  have hH : ∀ idx, InShape idx s → diffEntropy (gammaPDFReal (a.get idx) (r.get idx)) = _ := fun idx hi =>
    entropy_gamma (hp idx hi).1 (hp idx hi).2.1
  obtain ⟨k1, k2⟩ := sum_le_and_eq (indexProduct s) (f := fun idx =>
      (a₀.get idx - 1) * (psi (a.get idx) - Real.log (r.get idx)) - r₀.get idx * (a.get idx / r.get idx) +
        diffEntropy (gammaPDFReal (a.get idx) (r.get idx)))
    (g := fun idx => -(a₀.get idx * Real.log (r₀.get idx) - Real.log (Real.Gamma (a₀.get idx))))
    fun idx hidx => by
      have hi := mem_indexProduct.1 hidx
      rw [hH idx hi]
      exact (hg idx hi).1
  refine ⟨k1, k2.trans ?_⟩
  rw [arr_eq_iff h.shape_arr.1 ha₀.1, arr_eq_iff h.rate_arr.1 hr₀.1]
  constructor
  · intro hh
    have hb := fun idx hi => (hg idx hi).2.1 (by rw [← hH idx hi]; exact hh idx (mem_indexProduct.2 hi))
    exact ⟨fun idx hi => (hb idx hi).1, fun idx hi => (hb idx hi).2⟩
  · rintro ⟨h1, h2⟩ idx hidx
    have hi := mem_indexProduct.1 hidx
    rw [hH idx hi]
    exact (hg idx hi).2.2 ⟨h1 idx hi, h2 idx hi⟩

/-- **C162** For exponential priors: the sum of `exponential_prior(lambda, q.e())` and `q.entropy()` of a
gamma parameter is at most a number that depends on the prior only, and equals it exactly for the `q` with
shape one and rate `lambda`. -/
theorem C162_exponential (s : List ℕ) (b : Arr) (hb : IsPosArr b s) :
    ∃ c : ℝ, ∀ (q : Param) (a r : Arr), HoldsGammas q s a r →
      ∃ e v H, gammaE q = .ok e ∧ exponentialPrior b e = .ok v ∧ gammaParEntropy q = .ok H ∧
        v.sumAll + H ≤ c ∧ (v.sumAll + H = c ↔ (∀ idx, InShape idx s → a.get idx = 1) ∧ r = b) := by
  have h1 : IsPosArr (ofFn s fun _ => 1) s := ⟨ofFn_arr _ _, fun idx h => by rw [get_ofFn _ h]; norm_num⟩
  obtain ⟨c, hc⟩ := C162_gamma s (ofFn s fun _ => 1) b h1 hb
  refine ⟨c, fun q a r h => ?_⟩
  obtain ⟨e, l, v, H, u1, u2, u3, u4, u5, u6⟩ := hc q a r h
  have he : IsArr e s := by
    rw [(C85_gamma_moments q s a r h).1] at u1
    cases u1
    exact ofFn_arr _ _
  have hl : IsArr l s := by
    rw [(C85_gamma_moments q s a r h).2.1] at u2
    cases u2
    exact ofFn_arr _ _
  have hv : exponentialPrior b e = .ok v := by
    rw [← u3]
    unfold gammaPrior exponentialPrior minus mul
    conv_lhs => rw [arr_eq hb.1, arr_eq he]
    conv_rhs => rw [arr_eq hb.1, arr_eq he, arr_eq hl]
    rw [map_ofFn, bin_ofFn, bin_scalar_right, py_ok_bind]
    rw [show (ofFn (ofFn s fun _ => (1 : ℝ)).shape fun idx => (ofFn s fun _ => (1 : ℝ)).get idx - 1) =
      ofFn s fun _ => 0 from ofFn_congr (s := s) fun idx hi => by rw [get_ofFn _ hi]; norm_num]
    rw [bin_ofFn, py_ok_bind, bin_ofFn, py_ok_bind, bin_ofFn]
    congr 1
    exact ofFn_congr fun idx _ => by ring
  refine ⟨e, v, H, u1, hv, u4, u5, u6.trans ?_⟩
  rw [arr_eq_iff h.shape_arr.1 (ofFn_arr _ _)]
  refine and_congr_left fun _ => forall_congr' fun idx => forall_congr' fun hi => ?_
  rw [get_ofFn _ hi]

/-- **C162** For Dirichlet priors with at least two components: the sum of
`dirichlet_prior(prior_alpha, q.e_log())` and `q.entropy()` is at most a number that depends on the prior
only, and equals it exactly for the `q` that holds the parameters of the prior. -/
theorem C162_dirichlet (n : ℕ) (α₀ : List ℝ) (hl : α₀.length = n + 2) (hα₀ : ∀ a ∈ α₀, 0 < a) :
    ∃ c : ℝ, ∀ (q : Param) (alpha : Arr), Holds q "alpha" alpha → IsPosArr alpha [n + 2] →
      ∃ l r H, dirichletELog q = .ok l ∧ dirichletPrior α₀ l.data = .ok r ∧
        dirichletParEntropy q = .ok H ∧ r + H.get [] ≤ c ∧ (r + H.get [] = c ↔ alpha = vec α₀) := by
  let β : Fin (n + 1 + 1) → ℝ := fun i => α₀.getD i 0
  have hβ : ∀ i, 0 < β i := by
    intro i
    have hi : (i : ℕ) < α₀.length := by rw [hl]; exact i.2
    have : β i = α₀[(i : ℕ)] := by simp [β, hi]
    rw [this]
    exact hα₀ _ (List.getElem_mem _)
  refine ⟨-dirichletLogC β, fun q alpha hq hp => ?_⟩
  obtain ⟨e, l, H, -, h2, h3, -, l1, -, hh⟩ := C95_dirichlet_moments (n + 1) [] alpha hp
  obtain ⟨m1, m2, m3⟩ := C95_dirichlet_methods q [] alpha hq
  obtain ⟨-, -, -, hlog, -, hent⟩ := hh [] List.Forall₂.nil
  let α : Fin (n + 1 + 1) → ℝ := fun i => alpha.get [(i : ℕ)]
  have hα : ∀ i, 0 < α i := fun i => hp.2 _ (List.Forall₂.cons i.2 List.Forall₂.nil)
  have hr : dirichletPrior α₀ l.data = .ok (∑ i, (β i - 1) * (psi (α i) - psi (∑ j, α j))) := by
    have hlen : l.data.length = n + 2 := by
      have := l1.1
      rw [WF, l1.2] at this
      simpa using this
    unfold dirichletPrior dot1
    rw [if_neg (by omega), if_pos (by simp; omega)]
    congr 1
    have e1 : List.zipWith (· * ·) (α₀.map (· - 1)) l.data =
        List.ofFn fun k : Fin (n + 1 + 1) => (β k - 1) * (psi (α k) - psi (∑ j, α j)) := by
      refine List.ext_getElem (by simp [hl, hlen]) fun k k1 k2 => ?_
      have hk : k < n + 1 + 1 := by simpa using k2
      have e2 : l.get [k] = l.data[k] := by
        have : k < l.data.length := by omega
        simp [Arr.get, flat, l1.2, this]
      have e3 := (hlog ⟨k, hk⟩).2
      rw [(dirichlet_log hα ⟨k, hk⟩).2] at e3
      simp only at e3
      rw [List.getElem_zipWith, List.getElem_ofFn, ← e2, e3, List.getElem_map]
      have e4 : β ⟨k, hk⟩ = α₀[k]'(by omega) := by
        have : k < α₀.length := by omega
        simp [β, this]
      rw [e4]
    rw [e1, List.sum_ofFn]
  obtain ⟨g1, g2⟩ := dirichlet_gibbs hα hβ
  refine ⟨l, _, H, m2.trans h2, hr, m3.trans h3, ?_, ?_⟩
  · rw [hent]
    linarith
  · rw [hent, ← sub_eq_add_neg]
    refine (g2 (by omega)).trans ?_
    have hv : IsArr (vec α₀) [n + 2] := ⟨by simp [Arr.vec, WF], by simp [Arr.vec, hl]⟩
    rw [arr_eq_iff hp.1 hv]
    have hget : ∀ k, k < n + 2 → (vec α₀).get [k] = α₀.getD k 0 := by
      intro k hk
      simp [Arr.get, Arr.vec, flat]
    constructor
    · intro h idx hi
      cases hi with
      | cons hk hn =>
        cases hn
        rw [hget _ hk]
        exact congrFun h ⟨_, hk⟩
    · intro h
      funext k
      have := h [(k : ℕ)] (List.Forall₂.cons k.2 List.Forall₂.nil)
      rw [hget _ k.2] at this
      exact this

/-- The log density of a multivariate normal under another one. -/
theorem mvn_cross {n : ℕ} {m i m₀ i₀ : Arr} (hi : (asMatrix n i).PosDef) (hi₀ : (asMatrix n i₀).PosDef) :
    Integrable (fun x => mvnPdf n m i x * Real.log (mvnPdf n m₀ i₀ x)) ∧
    ∫ x, mvnPdf n m i x * Real.log (mvnPdf n m₀ i₀ x) = ∫ x, Real.log (mvnPdf n m₀ i₀ x) ∂mvn n m i := by
  obtain ⟨q1, -⟩ := integral_quad (mvn_memLp n m i) (fun j => m₀.get [(j : ℕ)]) fun j k => i₀.at2 j k
  have h1 : Integrable (fun x => Real.log (mvnPdf n m₀ i₀ x)) (mvn n m i) := by
    refine Integrable.congr ((q1.const_mul (-0.5)).add (integrable_const
      (0.5 * Real.log (asMatrix n i₀).det - 0.5 * n * Real.log (2 * Real.pi)))) (ae_of_all _ fun x => ?_)
    exact (log_mvnPdf hi₀ x).symm
  rw [C92_density n m i hi] at h1 ⊢
  have hm := (measurable_mvnPdf n m i).ennreal_ofReal
  rw [integrable_withDensity_iff_integrable_smul' hm (by simp)] at h1
  rw [integral_withDensity_eq_integral_toReal_smul hm (by simp)]
  have e : (fun x => (ENNReal.ofReal (mvnPdf n m i x)).toReal • Real.log (mvnPdf n m₀ i₀ x)) =
      fun x => mvnPdf n m i x * Real.log (mvnPdf n m₀ i₀ x) := by
    funext x
    rw [ENNReal.toReal_ofReal (mvnPdf_pos hi x).le, smul_eq_mul]
  rw [e] at h1
  exact ⟨h1, by rw [e]⟩

theorem mvnPdf_integral {n : ℕ} {m i : Arr} (hi : (asMatrix n i).PosDef) :
    Integrable (mvnPdf n m i) ∧ ∫ x, mvnPdf n m i x = 1 := by
  have hm := (measurable_mvnPdf n m i).ennreal_ofReal
  have h1 : Integrable (fun _ : EuclideanSpace ℝ (Fin n) => (1 : ℝ)) (mvn n m i) := integrable_const _
  have h2 : ∫ _, (1 : ℝ) ∂mvn n m i = 1 := by simp
  rw [C92_density n m i hi] at h1 h2
  rw [integrable_withDensity_iff_integrable_smul' hm (by simp)] at h1
  rw [integral_withDensity_eq_integral_toReal_smul hm (by simp)] at h2
  have e : (fun x => (ENNReal.ofReal (mvnPdf n m i x)).toReal • (1 : ℝ)) = mvnPdf n m i := by
    funext x
    rw [ENNReal.toReal_ofReal (mvnPdf_pos hi x).le, smul_eq_mul, mul_one]
  rw [e] at h1 h2
  exact ⟨h1, h2⟩

/-- Multivariate normal densities that agree almost everywhere have the same parameters. -/
theorem mvn_params_eq {n : ℕ} {m i m₀ i₀ : Arr} (hi : (asMatrix n i).PosDef) (hi₀ : (asMatrix n i₀).PosDef)
    (h : mvnPdf n m₀ i₀ =ᵐ[volume] mvnPdf n m i) :
    (∀ j : Fin n, m.get [(j : ℕ)] = m₀.get [(j : ℕ)]) ∧ asMatrix n i = asMatrix n i₀ := by
  have hμ : mvn n m i = mvn n m₀ i₀ := by
    rw [C92_density n m i hi, C92_density n m₀ i₀ hi₀]
    refine withDensity_congr_ae ?_
    filter_upwards [h] with x hx
    rw [hx]
  refine ⟨fun j => by rw [← mvn_mean n m i, hμ, mvn_mean], ?_⟩
  have hinv : (asMatrix n i)⁻¹ = (asMatrix n i₀)⁻¹ := by
    ext j k
    have a : cov[fun x => x j, fun x => x k; mvn n m i] = (asMatrix n i)⁻¹ j k :=
      covariance_eval_multivariateGaussian hi.inv.posSemidef j k
    have b : cov[fun x => x j, fun x => x k; mvn n m₀ i₀] = (asMatrix n i₀)⁻¹ j k :=
      covariance_eval_multivariateGaussian hi₀.inv.posSemidef j k
    rw [← a, ← b, hμ]
  have h1 := congrArg (·⁻¹) hinv
  simpa [Matrix.nonsing_inv_nonsing_inv _ (isUnit_iff_ne_zero.2 hi.det_pos.ne'),
    Matrix.nonsing_inv_nonsing_inv _ (isUnit_iff_ne_zero.2 hi₀.det_pos.ne')] using h1

/-- **C162** For multivariate normal priors: the sum of `mvn_prior(prior_mean, prior_info, q.e(), q.cov())`
and `q.entropy()` is at most a number that depends on the prior only, and equals it exactly for the `q`
that holds the mean and the information matrix of the prior. -/
theorem C162_mvn (n : ℕ) (m₀ : List ℝ) (i₀ : Arr) (hm₀ : m₀.length = n) (hi₀ : IsMat i₀ n n)
    (hpd₀ : (asMatrix n i₀).PosDef) :
    ∃ c : ℝ, ∀ (q : Param) (m i : Arr), HoldsMvn q n m i → (asMatrix n i).PosDef →
      ∃ e C r H, mvnE q = .ok e ∧ mvnCov q = .ok C ∧ mvnPrior m₀ i₀ e.data C = .ok r ∧
        mvnEntropy q = .ok H ∧ r + H ≤ c ∧ (r + H = c ↔ m = vec m₀ ∧ i = i₀) := by
  obtain ⟨c, hc⟩ := C81_mvn_prior n m₀ i₀ hm₀ hi₀ hpd₀
  refine ⟨-c, fun q m i h hpd => ?_⟩
  have hsym : (asMatrix n i).IsSymm := by
    have := hpd.1
    rwa [Matrix.IsHermitian, conjTranspose_eq_transpose_of_trivial] at this
  obtain ⟨e1, C, O, e2, e3, -⟩ := C84_moments_consistent q n m i h hsym hpd.det_pos.ne'
  obtain ⟨e', C', O', f1, f2, -, f4, f5, -⟩ := C84_true_moments q n m i h hpd
  rw [e1] at f1
  cases f1
  rw [e2] at f2
  cases f2
  have hml : m.data.length = n := by
    have := h.mean_arr.1
    rw [WF, h.mean_arr.2] at this
    simpa using this
  have hget : ∀ j : Fin n, m.get [(j : ℕ)] = m.data.getD j 0 := by
    intro j
    have : (j : ℕ) < m.data.length := by rw [hml]; exact j.2
    simp [Arr.get, flat, h.mean_arr.2]
  obtain ⟨r, r1, r2⟩ := hc m.data C hml e3
  have hcross := r2 (mvn n m i) (mvn_memLp n m i) (fun j => by rw [← f4 j, hget]) (fun j k => (f5 j k).symm)
  obtain ⟨x1, x2⟩ := mvn_cross (m := m) (m₀ := vec m₀) hpd hpd₀
  obtain ⟨s1, s2⟩ := mvn_cross (m := m) (m₀ := m) hpd hpd
  obtain ⟨g1, g2⟩ := gibbs (ae_of_all _ fun x => (mvnPdf_pos (m := vec m₀) hpd₀ x).le)
    (ae_of_all _ fun x => (mvnPdf_pos (m := m) hpd x).le)
    (ae_of_all _ fun x _ => mvnPdf_pos (m := vec m₀) hpd₀ x) (mvnPdf_integral hpd₀).1 (mvnPdf_integral hpd).1
    (by rw [(mvnPdf_integral hpd₀).2, (mvnPdf_integral hpd).2]) x1 s1
  rw [x2, hcross] at g1 g2
  refine ⟨m, C, r, _, e1, e2, r1, C92_entropy q n m i h hpd, by linarith, fun heq => ?_, ?_⟩
  · obtain ⟨p1, p2⟩ := mvn_params_eq hpd hpd₀ (g2 (by linarith))
    have hv : IsArr (vec m₀) [n] := ⟨by simp [Arr.vec, WF], by simp [Arr.vec, hm₀]⟩
    refine ⟨(arr_eq_iff h.mean_arr hv).2 fun idx hidx => ?_, ?_⟩
    · cases hidx with
      | cons hk hn =>
        cases hn
        exact p1 ⟨_, hk⟩
    · refine (arr_eq_iff (s := [n, n]) h.info_arr hi₀).2 fun idx hidx => ?_
      cases hidx with
      | cons hj hr =>
        cases hr with
        | cons hk hn =>
          cases hn
          have := congrFun (congrFun p2 ⟨_, hj⟩) ⟨_, hk⟩
          simpa [asMatrix, Arr.at2, Arr.get, flat, h.info_arr.2, hi₀.2] using this
  · rintro ⟨rfl, rfl⟩
    rw [x2, hcross] at s2
    linarith

/-- A `UVNParamVector` after `set_free` meets the hypotheses of `C162_uvn` with a prior of two components,
and a `GammaParam` those of `C162_gamma`. -/
example : (∃ q m i, HoldsNormals q [2] m i) ∧ (∃ q a r, HoldsGammas q [1] a r) ∧
    IsPosArr ⟨[2], [1, 2]⟩ [2] ∧ IsPosArr ⟨[1], [3]⟩ [1] := by
  obtain ⟨-, ⟨p, -, -, h⟩, -⟩ := C72_after_set_free "u" 0.5 (by norm_num) 2 [] []
  obtain ⟨q, m, i, -, h1⟩ := h [1, 2, 3, 4] rfl
  obtain ⟨p', -, -, h'⟩ := C85_after_set_free "g" 0 0.5 le_rfl (by norm_num) [.setFree [1]]
  obtain ⟨q', a, r, -, h2⟩ := h' [0.3, -2] rfl
  exact ⟨⟨q, m, i, h1⟩, ⟨q', a, r, h2⟩,
    ⟨⟨rfl, rfl⟩, fun _ hi => forall_data_get (a := ⟨[2], [1, 2]⟩) (P := fun x => 0 < x) rfl (by norm_num) hi⟩,
    ⟨⟨rfl, rfl⟩, fun _ hi => forall_data_get (a := ⟨[1], [3]⟩) (P := fun x => 0 < x) rfl (by norm_num) hi⟩⟩

/-- A Dirichlet parameter with three components and a multivariate normal parameter of dimension two,
after `set_free`; the information matrix held by the latter can serve as a prior. -/
example : (∃ q alpha, Holds q "alpha" alpha ∧ IsPosArr alpha [1 + 2]) ∧
    ∃ q m i, HoldsMvn q 2 m i ∧ (asMatrix 2 i).PosDef := by
  obtain ⟨p, -, -, h⟩ := C77_after_set_free "d" 0.1 (by norm_num) 3 (by norm_num) [] []
  obtain ⟨q, a, -, -, h1, h2, -⟩ := h [1, 2, 3] rfl
  obtain ⟨p', -, -, h'⟩ := C84_after_set_free "b" 2 0.5 (by norm_num) [.setFree [1]]
  obtain ⟨q', m, i, -, h3, h4⟩ := h' [1, 2, 0.1, 0.2, 0.3] (by simp)
  exact ⟨⟨q, a, h1, h2⟩, q', m, i, h3, h4⟩

end

end LRVB
