import Mathlib.Data.List.GetD
import Verif.Props.PriorOptimum

/-!
# C173: in conjugate models the best approximation is the posterior
-/

namespace LRVB

open Arr ExpFam Families MeasureTheory ProbabilityTheory

noncomputable section

/-- The distribution `post` is the posterior for the prior `prior` and the likelihood `lik` (up to the normalizing
constant). -/
def IsPosterior (prior : Measure ℝ) (lik : ℝ → ℝ) (post : Measure ℝ) : Prop :=
  ∃ C : ENNReal, C ≠ 0 ∧ C ≠ ⊤ ∧ prior.withDensity (fun x => ENNReal.ofReal (lik x)) = C • post

/-- Densities that agree up to a constant. -/
theorem isPosterior_of_density {f g lik : ℝ → ℝ} (hf : Measurable f) (hg : Measurable g) (hl : Measurable lik)
    (hf0 : ∀ x, 0 ≤ f x) {C : ℝ} (hC : 0 < C) (h : ∀ x, x ≠ 0 → f x * lik x = C * g x) :
    IsPosterior (volume.withDensity fun x => ENNReal.ofReal (f x)) lik
      (volume.withDensity fun x => ENNReal.ofReal (g x)) := by
  refine ⟨ENNReal.ofReal C, by simpa using hC, ENNReal.ofReal_ne_top, ?_⟩
  rw [← withDensity_mul _ hf.ennreal_ofReal hl.ennreal_ofReal, ← withDensity_smul _ hg.ennreal_ofReal]
  refine withDensity_congr_ae ?_
  have h0 : ∀ᵐ x : ℝ, x ≠ 0 := by simp [ae_iff]
  filter_upwards [h0] with x hx
  rw [Pi.mul_apply, Pi.smul_apply, smul_eq_mul, ← ENNReal.ofReal_mul (hf0 x), ← ENNReal.ofReal_mul hC.le, h x hx]

/-- Bayes' rule for a gamma prior. -/
theorem gamma_posterior {a r k t : ℝ} (ha : 0 < a) (hr : 0 < r) (hk : 0 ≤ k) (ht : 0 ≤ t) :
    IsPosterior (gammaMeasure a r) (fun x => x ^ k * Real.exp (-(t * x))) (gammaMeasure (a + k) (r + t)) := by
  have e : ∀ a r : ℝ, gammaMeasure a r = volume.withDensity fun x => ENNReal.ofReal (gammaPDFReal a r x) :=
    fun _ _ => rfl
  rw [e, e]
  have hak : 0 < a + k := by linarith
  have hrt : 0 < r + t := by linarith
  refine isPosterior_of_density (measurable_gammaPDFReal a r) (measurable_gammaPDFReal _ _) (by fun_prop)
    (fun x => gammaPDFReal_nonneg ha hr x)
    (C := r ^ a / Real.Gamma a / ((r + t) ^ (a + k) / Real.Gamma (a + k))) ?_ fun x hx => ?_
  · have := Real.Gamma_pos_of_pos ha
    have := Real.Gamma_pos_of_pos hak
    positivity
  · unfold gammaPDFReal
    by_cases h : 0 ≤ x
    · have hx' : 0 < x := lt_of_le_of_ne h (Ne.symm hx)
      rw [if_pos h, if_pos h, show a + k - 1 = (a - 1) + k by ring, Real.rpow_add hx',
        show -((r + t) * x) = -(r * x) + -(t * x) by ring, Real.exp_add]
      have h1 : (r + t) ^ (a + k) / Real.Gamma (a + k) ≠ 0 := by
        have := Real.Gamma_pos_of_pos hak
        positivity
      field_simp
    · rw [if_neg h, if_neg h]
      ring

/-- **C173** Gamma priors and likelihoods `λ ^ k exp(-t λ)` for each entry (Poisson counts with sum `k` over the
exposure `t`, or `k` exponential waiting times with sum `t`): the expected log likelihood `k · e_log - t · e`, plus
`gamma_prior` at the moments of `q`, plus `q.entropy()`, has a maximum, which `q` attains exactly when it holds the
shape and rate of the posterior. -/
theorem C173_gamma (s : List ℕ) (a₀ r₀ k t : Arr) (ha₀ : IsPosArr a₀ s) (hr₀ : IsPosArr r₀ s) (hk : IsArr k s)
    (ht : IsArr t s) (hk0 : ∀ idx, InShape idx s → 0 ≤ k.get idx) (ht0 : ∀ idx, InShape idx s → 0 ≤ t.get idx) :
    (∀ idx, InShape idx s → IsPosterior (gammaMeasure (a₀.get idx) (r₀.get idx))
      (fun x => x ^ k.get idx * Real.exp (-(t.get idx * x)))
      (gammaMeasure (a₀.get idx + k.get idx) (r₀.get idx + t.get idx))) ∧
    ∃ c : ℝ, ∀ (q : Param) (a r : Arr), HoldsGammas q s a r →
      ∃ e l v H, gammaE q = .ok e ∧ gammaELog q = .ok l ∧ gammaPrior a₀ r₀ e l = .ok v ∧
        gammaParEntropy q = .ok H ∧
        ((indexProduct s).map fun idx => k.get idx * l.get idx - t.get idx * e.get idx).sum + v.sumAll + H ≤ c ∧
        (((indexProduct s).map fun idx => k.get idx * l.get idx - t.get idx * e.get idx).sum + v.sumAll + H = c ↔
          ∀ idx, InShape idx s → a.get idx = a₀.get idx + k.get idx ∧ r.get idx = r₀.get idx + t.get idx) := by
  refine ⟨fun idx h => gamma_posterior (ha₀.2 idx h) (hr₀.2 idx h) (hk0 idx h) (ht0 idx h), ?_⟩
  have ha₁ : IsPosArr (ofFn s fun idx => a₀.get idx + k.get idx) s :=
    ⟨ofFn_arr _ _, fun idx h => by rw [get_ofFn _ h]; linarith [ha₀.2 idx h, hk0 idx h]⟩
  have hr₁ : IsPosArr (ofFn s fun idx => r₀.get idx + t.get idx) s :=
    ⟨ofFn_arr _ _, fun idx h => by rw [get_ofFn _ h]; linarith [hr₀.2 idx h, ht0 idx h]⟩
  obtain ⟨c, hc⟩ := C162_gamma s _ _ ha₁ hr₁
  refine ⟨c, fun q a r h => ?_⟩
  obtain ⟨e, l, v, H, u1, u2, u3, u4, u5, u6⟩ := hc q a r h
  have he : IsArr e s := by
    rw [(C85_gamma_moments q s a r h).1] at u1
    cases u1
    exact ofFn_arr _ _
  have hl : IsArr l s := by
    rw [(C85_gamma_moments q s a r h).2.1] at u2
    cases u2
    exact ofFn_arr _ _
  have hprior : ∀ a r : Arr, IsArr a s → IsArr r s → gammaPrior a r e l = .ok (ofFn s fun idx =>
      (a.get idx - 1) * l.get idx - r.get idx * e.get idx) := by
    intro a r ha hr
    unfold gammaPrior minus mul
    conv_lhs => rw [arr_eq ha, arr_eq hr, arr_eq he, arr_eq hl]
    rw [bin_scalar_right, py_ok_bind]
    rw [show (ofFn (ofFn s a.get).shape fun idx => (ofFn s a.get).get idx - 1) =
      ofFn s fun idx => a.get idx - 1 from
        ofFn_congr (s := s) fun idx hi => by rw [get_ofFn _ hi]]
    rw [bin_ofFn, py_ok_bind, bin_ofFn, py_ok_bind, bin_ofFn]
  rw [hprior _ _ ha₁.1 hr₁.1] at u3
  have hsum : ((indexProduct s).map fun idx => k.get idx * l.get idx - t.get idx * e.get idx).sum +
      (ofFn s fun idx => (a₀.get idx - 1) * l.get idx - r₀.get idx * e.get idx).sumAll = v.sumAll := by
    rw [← Except.ok.inj u3, sumAll_ofFn, sumAll_ofFn, ← List.sum_map_add]
    congr 1
    refine List.map_congr_left fun idx hidx => ?_
    have hi := mem_indexProduct.1 hidx
    rw [get_ofFn _ hi, get_ofFn _ hi]
    ring
  refine ⟨e, l, _, H, u1, u2, hprior _ _ ha₀.1 hr₀.1, u4, by rw [hsum]; exact u5, ?_⟩
  rw [hsum, u6, arr_eq_iff h.shape_arr.1 ha₁.1, arr_eq_iff h.rate_arr.1 hr₁.1]
  constructor
  · rintro ⟨h1, h2⟩ idx hi
    rw [h1 idx hi, h2 idx hi, get_ofFn _ hi, get_ofFn _ hi]
    exact ⟨rfl, rfl⟩
  · intro hh
    exact ⟨fun idx hi => by rw [(hh idx hi).1, get_ofFn _ hi], fun idx hi => by rw [(hh idx hi).2, get_ofFn _ hi]⟩

/-- Bayes' rule for a normal prior and a normal observation. -/
theorem normal_posterior (m y : ℝ) {i w : ℝ} (hi : 0 < i) (hw : 0 ≤ w) :
    IsPosterior (normal m i) (fun x => Real.exp (-0.5 * (w * (x - y) ^ 2)))
      (normal ((i * m + w * y) / (i + w)) (i + w)) := by
  have hiw : 0 < i + w := by linarith
  have e : ∀ {m i : ℝ}, 0 < i → normal m i = volume.withDensity fun x => ENNReal.ofReal (normalPdf m i x) := by
    intro m i hi
    have : varOf i ≠ 0 := by
      rw [varOf, ne_eq, Real.toNNReal_eq_zero, not_le]
      positivity
    rw [normal, gaussianReal_of_var_ne_zero _ this]
    rfl
  rw [e hi, e hiw]
  have hv : ∀ {j : ℝ}, 0 < j → ((varOf j : NNReal) : ℝ) = 1 / j := fun hj => varOf_coe hj
  refine isPosterior_of_density (measurable_gaussianPDFReal _ _) (measurable_gaussianPDFReal _ _) (by fun_prop)
    (fun x => gaussianPDFReal_nonneg _ _ x)
    (C := (√(2 * Real.pi * (1 / i)))⁻¹ / (√(2 * Real.pi * (1 / (i + w))))⁻¹ *
      Real.exp (-(i * w * (m - y) ^ 2) / (2 * (i + w)))) (by positivity) fun x _ => ?_
  unfold normalPdf gaussianPDFReal
  rw [hv hi, hv hiw]
  have h1 : (√(2 * Real.pi * (1 / (i + w))))⁻¹ ≠ 0 := by positivity
  have h2 : Real.exp (-(x - m) ^ 2 / (2 * (1 / i))) * Real.exp (-0.5 * (w * (x - y) ^ 2)) =
      Real.exp (-(i * w * (m - y) ^ 2) / (2 * (i + w))) *
        Real.exp (-(x - (i * m + w * y) / (i + w)) ^ 2 / (2 * (1 / (i + w)))) := by
    rw [← Real.exp_add, ← Real.exp_add]
    congr 1
    have := hi.ne'
    have := hiw.ne'
    field_simp
    ring
  rw [mul_assoc, h2]
  generalize Real.exp (-(i * w * (m - y) ^ 2) / (2 * (i + w))) = A
  generalize Real.exp (-(x - (i * m + w * y) / (i + w)) ^ 2 / (2 * (1 / (i + w)))) = B
  field_simp

/-- **C173** Normal priors and normal observations `y` with precisions `w` (zero for none): the expected log likelihood
`uvn_prior(y, w, q.e(), q.var())`, plus `uvn_prior` at the prior, plus `q.entropy()`, has a maximum, which `q` attains
exactly when it holds the means and precisions of the posterior. -/
theorem C173_uvn (s : List ℕ) (m₀ i₀ y w : Arr) (hm₀ : IsArr m₀ s) (hi₀ : IsPosArr i₀ s) (hy : IsArr y s)
    (hw : IsArr w s) (hw0 : ∀ idx, InShape idx s → 0 ≤ w.get idx) :
    (∀ idx, InShape idx s → IsPosterior (normal (m₀.get idx) (i₀.get idx))
      (fun x => Real.exp (-0.5 * (w.get idx * (x - y.get idx) ^ 2)))
      (normal ((i₀.get idx * m₀.get idx + w.get idx * y.get idx) / (i₀.get idx + w.get idx))
        (i₀.get idx + w.get idx))) ∧
    ∃ c : ℝ, ∀ (q : Param) (m i : Arr), HoldsNormals q s m i →
      ∃ e v r ℓ H, uvnE q = .ok e ∧ uvnVar q = .ok v ∧ uvnPrior m₀ i₀ e v = .ok r ∧ uvnPrior y w e v = .ok ℓ ∧
        uvnEntropy q = .ok H ∧ ℓ.sumAll + r.sumAll + H ≤ c ∧
        (ℓ.sumAll + r.sumAll + H = c ↔ ∀ idx, InShape idx s →
          m.get idx = (i₀.get idx * m₀.get idx + w.get idx * y.get idx) / (i₀.get idx + w.get idx) ∧
          i.get idx = i₀.get idx + w.get idx) := by
  refine ⟨fun idx h => normal_posterior _ _ (hi₀.2 idx h) (hw0 idx h), ?_⟩
  have hi₁ : IsPosArr (ofFn s fun idx => i₀.get idx + w.get idx) s :=
    ⟨ofFn_arr _ _, fun idx h => by rw [get_ofFn _ h]; linarith [hi₀.2 idx h, hw0 idx h]⟩
  have hm₁ : IsArr (ofFn s fun idx =>
    (i₀.get idx * m₀.get idx + w.get idx * y.get idx) / (i₀.get idx + w.get idx)) s := ofFn_arr _ _
  obtain ⟨c, hc⟩ := C162_uvn s _ _ hm₁ hi₁
  set K := ((indexProduct s).map fun idx =>
    -0.5 * (i₀.get idx * w.get idx * (m₀.get idx - y.get idx) ^ 2 / (i₀.get idx + w.get idx))).sum with hK
  refine ⟨c + K, fun q m i h => ?_⟩
  obtain ⟨e, v, r, H, u1, u2, u3, u4, u5, u6⟩ := hc q m i h
  have he : IsArr e s := by
    rw [(C72_uvn_moments q s m i h).1] at u1
    cases u1
    exact ofFn_arr _ _
  have hv : IsArr v s := by
    rw [(C72_uvn_moments q s m i h).2.2.1] at u2
    cases u2
    exact ofFn_arr _ _
  have hprior : ∀ m i : Arr, IsArr m s → IsArr i s → uvnPrior m i e v = .ok (ofFn s fun idx =>
      -0.5 * (i.get idx * ((e.get idx - m.get idx) ^ 2 + v.get idx))) := by
    intro m i hm hi
    conv_lhs => rw [arr_eq hm, arr_eq hi, arr_eq he, arr_eq hv]
    exact uvnPrior_ofFn _ _ _ _ _
  rw [hprior _ _ hm₁ hi₁.1] at u3
  have hsum : (ofFn s fun idx => -0.5 * (w.get idx * ((e.get idx - y.get idx) ^ 2 + v.get idx))).sumAll +
      (ofFn s fun idx => -0.5 * (i₀.get idx * ((e.get idx - m₀.get idx) ^ 2 + v.get idx))).sumAll =
      r.sumAll + K := by
    rw [← Except.ok.inj u3, sumAll_ofFn, sumAll_ofFn, sumAll_ofFn, hK, ← List.sum_map_add, ← List.sum_map_add]
    congr 1
    refine List.map_congr_left fun idx hidx => ?_
    have hi := mem_indexProduct.1 hidx
    rw [get_ofFn _ hi, get_ofFn _ hi]
    have : i₀.get idx + w.get idx ≠ 0 := by linarith [hi₀.2 idx hi, hw0 idx hi]
    field_simp
    ring
  refine ⟨e, v, _, _, H, u1, u2, hprior _ _ hm₀ hi₀.1, hprior _ _ hy hw, u4, by rw [hsum]; linarith, ?_⟩
  rw [hsum, show r.sumAll + K + H = c + K ↔ r.sumAll + H = c by constructor <;> intro <;> linarith, u6,
    arr_eq_iff h.mean_arr hm₁, arr_eq_iff h.info_arr.1 hi₁.1]
  constructor
  · rintro ⟨h1, h2⟩ idx hi
    rw [h1 idx hi, h2 idx hi, get_ofFn _ hi, get_ofFn _ hi]
    exact ⟨rfl, rfl⟩
  · intro hh
    exact ⟨fun idx hi => by rw [(hh idx hi).1, get_ofFn _ hi], fun idx hi => by rw [(hh idx hi).2, get_ofFn _ hi]⟩

/-- **C173** Dirichlet priors and multinomial counts: the expected log likelihood, the product of the counts with
`q.e_log()`, plus `dirichlet_prior` at the prior, plus `q.entropy()`, has a maximum, which `q` attains exactly when it
holds the parameters of the posterior, those of the prior plus the counts. -/
theorem C173_dirichlet (n : ℕ) (α₀ counts : List ℝ) (hl : α₀.length = n + 2) (hα₀ : ∀ a ∈ α₀, 0 < a)
    (hcl : counts.length = n + 2) (hc0 : ∀ c ∈ counts, 0 ≤ c) :
    (∃ C : ℝ, 0 < C ∧ ∀ x : Fin (n + 1) → ℝ, (∀ i, 0 < simplexPoint x i) →
      dirichletPdf (fun i => α₀.getD i 0) x * ∏ i, simplexPoint x i ^ counts.getD i 0 =
        C * dirichletPdf (fun i => α₀.getD i 0 + counts.getD i 0) x) ∧
    ∃ c : ℝ, ∀ (q : Param) (alpha : Arr), Holds q "alpha" alpha → IsPosArr alpha [n + 2] →
      ∃ l r H, dirichletELog q = .ok l ∧ dirichletPrior α₀ l.data = .ok r ∧ dirichletParEntropy q = .ok H ∧
        ∑ k ∈ Finset.range (n + 2), counts.getD k 0 * l.get [k] + r + H.get [] ≤ c ∧
        (∑ k ∈ Finset.range (n + 2), counts.getD k 0 * l.get [k] + r + H.get [] = c ↔
          ∀ k < n + 2, alpha.get [k] = α₀.getD k 0 + counts.getD k 0) := by
  have hα' : ∀ k < n + 2, 0 < α₀.getD k 0 := fun k hk => by
    have hk' : k < α₀.length := by omega
    rw [List.getD_eq_getElem _ _ hk']
    exact hα₀ _ (List.getElem_mem _)
  have hc' : ∀ k < n + 2, 0 ≤ counts.getD k 0 := fun k hk => by
    have hk' : k < counts.length := by omega
    rw [List.getD_eq_getElem _ _ hk']
    exact hc0 _ (List.getElem_mem _)
  constructor
  · set β : Fin (n + 1 + 1) → ℝ := fun i => α₀.getD i 0 with hβ
    set γ : Fin (n + 1 + 1) → ℝ := fun i => α₀.getD i 0 + counts.getD i 0 with hγ
    have hβ0 : ∀ i, 0 < β i := fun i => hα' i i.2
    have hγ0 : ∀ i, 0 < γ i := fun i => by
      have h1 := hα' i i.2
      have h2 := hc' i i.2
      simp only [hγ]
      linarith
    have hz : ∀ δ : Fin (n + 1 + 1) → ℝ, (∀ i, 0 < δ i) →
        0 < Real.Gamma (∑ i, δ i) / ∏ i, Real.Gamma (δ i) := fun δ hδ =>
      div_pos (Real.Gamma_pos_of_pos (Finset.sum_pos (fun i _ => hδ i) Finset.univ_nonempty))
        (Finset.prod_pos fun i _ => Real.Gamma_pos_of_pos (hδ i))
    refine ⟨(Real.Gamma (∑ i, β i) / ∏ i, Real.Gamma (β i)) / (Real.Gamma (∑ i, γ i) / ∏ i, Real.Gamma (γ i)),
      div_pos (hz β hβ0) (hz γ hγ0), fun x hx => ?_⟩
    unfold dirichletPdf
    rw [if_pos fun i => (hx i).le, if_pos fun i => (hx i).le, mul_assoc, ← Finset.prod_mul_distrib, ← mul_assoc,
      div_mul_cancel₀ _ (hz γ hγ0).ne']
    congr 1
    refine Finset.prod_congr rfl fun i _ => ?_
    rw [← Real.rpow_add (hx i)]
    congr 1
    simp only [hβ, hγ]
    ring
  · set δ := List.zipWith (· + ·) α₀ counts with hδ
    have hδl : δ.length = n + 2 := by simp [hδ, hl, hcl]
    have hδg : ∀ k < n + 2, δ.getD k 0 = α₀.getD k 0 + counts.getD k 0 := by
      intro k hk
      rw [List.getD_eq_getElem _ _ (by omega), List.getD_eq_getElem _ _ (by omega),
        List.getD_eq_getElem _ _ (by omega), List.getElem_zipWith]
    obtain ⟨c, hc⟩ := C162_dirichlet n δ hδl fun d hd => by
      obtain ⟨k, hk, rfl⟩ := List.getElem_of_mem hd
      rw [← List.getD_eq_getElem δ 0 hk, hδg k (by omega)]
      linarith [hα' k (by omega), hc' k (by omega)]
    refine ⟨c, fun q alpha hq hp => ?_⟩
    obtain ⟨l, r, H, u1, u2, u3, u4, u5⟩ := hc q alpha hq hp
    obtain ⟨e, l', H', -, h2, -, -, l1, -⟩ := C95_dirichlet_moments (n + 1) [] alpha hp
    obtain ⟨-, m2, -⟩ := C95_dirichlet_methods q [] alpha hq
    have u1' : dirichletELog q = .ok l' := m2.trans h2
    rw [u1'] at u1
    cases u1
    have hll : l.data.length = n + 2 := by
      have := l1.1
      rw [WF, l1.2] at this
      simpa using this
    have hlget : ∀ k, l.get [k] = l.data.getD k 0 := fun k => by simp [Arr.get, flat, l1.2]
    have hdot : ∀ a : List ℝ, a.length = n + 2 → dirichletPrior a l.data =
        .ok (∑ k ∈ Finset.range (n + 2), (a.getD k 0 - 1) * l.get [k]) := by
      intro a ha
      unfold dirichletPrior dot1
      rw [if_neg (by omega), if_pos (by simp; omega)]
      congr 1
      have e1 : List.zipWith (· * ·) (a.map (· - 1)) l.data =
          List.ofFn fun k : Fin (n + 2) => (a.getD k 0 - 1) * l.get [(k : ℕ)] := by
        refine List.ext_getElem (by simp [ha, hll]) fun k k1 k2 => ?_
        rw [List.getElem_zipWith, List.getElem_ofFn, hlget, List.getElem_map,
          List.getD_eq_getElem _ _ (by simpa using k2.trans_le (by simp [ha])),
          List.getD_eq_getElem _ _ (by simpa using k2.trans_le (by simp [hll]))]
      rw [e1, List.sum_ofFn, Finset.sum_range fun k => (a.getD k 0 - 1) * l.get [k]]
    rw [hdot δ hδl] at u2
    have hsum : ∑ k ∈ Finset.range (n + 2), counts.getD k 0 * l.get [k] +
        ∑ k ∈ Finset.range (n + 2), (α₀.getD k 0 - 1) * l.get [k] = r := by
      rw [← Except.ok.inj u2, ← Finset.sum_add_distrib]
      refine Finset.sum_congr rfl fun k hk => ?_
      rw [hδg k (Finset.mem_range.1 hk)]
      ring
    refine ⟨l, _, H, u1', hdot α₀ hl, u3, by rw [hsum]; exact u4, ?_⟩
    have hv : IsArr (vec δ) [n + 2] := ⟨by simp [Arr.vec, WF], by simp [Arr.vec, hδl]⟩
    have hget : ∀ k, (vec δ).get [k] = δ.getD k 0 := fun k => by simp [Arr.get, Arr.vec, flat]
    rw [hsum, u5, arr_eq_iff hp.1 hv]
    constructor
    · intro h k hk
      rw [h [k] (List.Forall₂.cons hk List.Forall₂.nil), hget, hδg k hk]
    · intro h idx hi
      cases hi with
      | cons hk hn =>
        cases hn
        rw [h _ hk, hget, hδg _ hk]

/-- Two observations under two normal priors (the second has weight zero), a Poisson count of three over an exposure of
two, and six draws in three classes meet the hypotheses; parameters that can be compared with the posterior exist. -/
example : (∃ q m i, HoldsNormals q [2] m i) ∧ (∃ q a r, HoldsGammas q [1] a r) ∧
    (∃ q alpha, Holds q "alpha" alpha ∧ IsPosArr alpha [1 + 2]) ∧
    IsPosArr ⟨[2], [1, 2]⟩ [2] ∧ IsPosArr ⟨[1], [3]⟩ [1] ∧
    (IsArr ⟨[2], [5, 0]⟩ [2] ∧ ∀ idx, InShape idx [2] → 0 ≤ (Arr.mk [2] [5, 0]).get idx) ∧
    (∀ c ∈ ([1, 5, 0] : List ℝ), 0 ≤ c) := by
  obtain ⟨-, ⟨p, -, -, h⟩, -⟩ := C72_after_set_free "u" 0.5 (by norm_num) 2 [] []
  obtain ⟨q, m, i, -, h1⟩ := h [1, 2, 3, 4] rfl
  obtain ⟨p', -, -, h'⟩ := C85_after_set_free "g" 0 0.5 le_rfl (by norm_num) [.setFree [1]]
  obtain ⟨q', a, r, -, h2⟩ := h' [0.3, -2] rfl
  obtain ⟨p'', -, -, h''⟩ := C77_after_set_free "d" 0.1 (by norm_num) 3 (by norm_num) [] []
  obtain ⟨q'', al, -, -, h3, h4, -⟩ := h'' [1, 2, 3] rfl
  exact ⟨⟨q, m, i, h1⟩, ⟨q', a, r, h2⟩, ⟨q'', al, h3, h4⟩,
    ⟨⟨rfl, rfl⟩, fun _ hi => forall_data_get (a := ⟨[2], [1, 2]⟩) (P := fun x => 0 < x) rfl (by norm_num) hi⟩,
    ⟨⟨rfl, rfl⟩, fun _ hi => forall_data_get (a := ⟨[1], [3]⟩) (P := fun x => 0 < x) rfl (by norm_num) hi⟩,
    ⟨⟨rfl, rfl⟩, fun _ hi => forall_data_get (a := ⟨[2], [5, 0]⟩) (P := fun x => 0 ≤ x) rfl (by norm_num) hi⟩,
    by norm_num⟩

/-- With the prior of shape 2 and rate 1 and a count of three over an exposure of two, the posterior has shape 5 and
rate 3. -/
example : IsPosterior (gammaMeasure 2 1) (fun x => x ^ (3 : ℝ) * Real.exp (-(2 * x))) (gammaMeasure 5 3) := by
  have := gamma_posterior (a := 2) (r := 1) (k := 3) (t := 2) (by norm_num) (by norm_num) (by norm_num) (by norm_num)
  norm_num at this ⊢
  exact this

end

end LRVB
