import Verif.Lemmas.RelEntropy
import Verif.Props.EvidenceBound

/-!
# C175: the evidence bound for every family and for several independent blocks
-/

namespace LRVB

open Arr ExpFam Families MeasureTheory ProbabilityTheory InformationTheory Matrix
open scoped ENNReal

noncomputable section

/-- Independent normal variables at the positions of an array, with the given means and precisions. -/
def normalArray (s : List ℕ) (m i : Arr) : Measure (Idx s → ℝ) :=
  Measure.pi fun k => normal (m.get k) (i.get k)

/-- Independent gamma variables at the positions of an array, with the given shapes and rates. -/
def gammaArray (s : List ℕ) (a r : Arr) : Measure (Idx s → ℝ) :=
  Measure.pi fun k => gammaMeasure (a.get k) (r.get k)

/-- The Dirichlet distribution with the parameters `alpha[0], ..., alpha[n]`, on all coordinates but the
first. -/
def dirichletVector (n : ℕ) (alpha : Arr) : Measure (Fin n → ℝ) :=
  dirichlet fun k : Fin (n + 1) => alpha.get [(k : ℕ)]

/-- The relative entropy of `q` with respect to `p` is the finite number `K`. -/
def RelEntropyIs {α : Type*} [MeasurableSpace α] (q p : Measure α) (K : ℝ) : Prop :=
  klDiv q p ≠ ∞ ∧ (klDiv q p).toReal = K

instance (m i : ℝ) : IsProbabilityMeasure (normal m i) := by
  unfold normal
  infer_instance

instance (s : List ℕ) (m i : Arr) : IsProbabilityMeasure (normalArray s m i) := by
  unfold normalArray normal
  infer_instance

theorem gammaArray_prob {s : List ℕ} {a r : Arr} (ha : IsPosArr a s) (hr : IsPosArr r s) :
    IsProbabilityMeasure (gammaArray s a r) := by
  have := fun k : Idx s => isProbabilityMeasure_gammaMeasure (ha.2 k.1 k.2) (hr.2 k.1 k.2)
  unfold gammaArray
  infer_instance

theorem dirichletVector_prob {n : ℕ} {alpha : Arr} (h : IsPosArr alpha [n + 1]) :
    IsProbabilityMeasure (dirichletVector n alpha) := by
  refine ⟨?_⟩
  rw [dirichletVector, dirichlet, withDensity_apply _ MeasurableSet.univ, Measure.restrict_univ]
  exact lintegral_dirichlet fun k => h.2 _ (List.Forall₂.cons k.2 List.Forall₂.nil)

theorem normal_cross (m m₀ : ℝ) {i i₀ : ℝ} (hi : 0 < i) (hi₀ : 0 < i₀) :
    Integrable (fun x => normalPdf m i x * Real.log (normalPdf m₀ i₀ x)) ∧
    ∫ x, normalPdf m i x * Real.log (normalPdf m₀ i₀ x) =
      -0.5 * (i₀ * ((m - m₀) ^ 2 + 1 / i)) + Real.log (normalPdf m₀ i₀ m₀) := by
  have e1 : ∀ x, Real.log (normalPdf m₀ i₀ x) = -0.5 * i₀ * (x - m₀) ^ 2 + Real.log (normalPdf m₀ i₀ m₀) := by
    intro x
    simp only [normalPdf]
    rw [log_gaussianPDFReal _ (varOf_ne_zero hi₀), log_gaussianPDFReal _ (varOf_ne_zero hi₀), varOf_coe hi₀]
    field_simp
    norm_num
    ring
  obtain ⟨q1, q2⟩ := integral_sub_sq (μ := normal m i) (memLp_id_gaussianReal 2) m₀
  have h1 : Integrable (fun x => Real.log (normalPdf m₀ i₀ x)) (normal m i) := by
    rw [funext e1]
    exact (q1.const_mul _).add (integrable_const _)
  have h2 : ∫ x, Real.log (normalPdf m₀ i₀ x) ∂normal m i =
      -0.5 * (i₀ * ((m - m₀) ^ 2 + 1 / i)) + Real.log (normalPdf m₀ i₀ m₀) := by
    rw [integral_congr_ae (.of_forall e1), integral_add (q1.const_mul _) (integrable_const _), integral_const_mul, q2,
      integral_const, probReal_univ, one_smul]
    rw [normal, integral_id_gaussianReal, variance_id_gaussianReal, varOf_coe hi]
    ring
  have hd : normal m i = volume.withDensity fun x => ENNReal.ofReal (normalPdf m i x) := by
    rw [normal, gaussianReal_of_var_ne_zero _ (varOf_ne_zero hi)]
    rfl
  have hm : Measurable fun x => ENNReal.ofReal (normalPdf m i x) := (measurable_gaussianPDFReal _ _).ennreal_ofReal
  have e : (fun x => (ENNReal.ofReal (normalPdf m i x)).toReal • Real.log (normalPdf m₀ i₀ x)) =
      fun x => normalPdf m i x * Real.log (normalPdf m₀ i₀ x) := by
    funext x
    rw [ENNReal.toReal_ofReal (show 0 ≤ normalPdf m i x from gaussianPDFReal_nonneg _ _ _), smul_eq_mul]
  rw [hd, integrable_withDensity_iff_integrable_smul' hm (by simp), e] at h1
  rw [hd, integral_withDensity_eq_integral_toReal_smul hm (by simp), e] at h2
  exact ⟨h1, h2⟩

theorem normal_hasKL (m m₀ : ℝ) {i i₀ : ℝ} (hi : 0 < i) (hi₀ : 0 < i₀) :
    HasKL (normal m i) (normal m₀ i₀) (-(-0.5 * (i₀ * ((m - m₀) ^ 2 + 1 / i)) +
      Real.log (normalPdf m₀ i₀ m₀) + diffEntropy (normalPdf m i))) := by
  have hd : ∀ (m : ℝ) {i : ℝ}, 0 < i → normal m i = volume.withDensity fun x => ENNReal.ofReal (normalPdf m i x) := by
    intro m i hi
    rw [normal, gaussianReal_of_var_ne_zero _ (varOf_ne_zero hi)]
    rfl
  obtain ⟨c1, c2⟩ := normal_cross m m₀ hi hi₀
  obtain ⟨s1, -⟩ := normal_cross m m hi hi
  have : IsProbabilityMeasure (volume.withDensity fun x => ENNReal.ofReal (normalPdf m₀ i₀ x)) := by
    rw [← hd m₀ hi₀, normal]
    infer_instance
  have h := HasKL.of_density (μ := volume) (q := normalPdf m i) (p := normalPdf m₀ i₀)
    (measurable_gaussianPDFReal m (varOf i))
    (measurable_gaussianPDFReal m₀ (varOf i₀)) (gaussianPDFReal_nonneg _ _) (gaussianPDFReal_nonneg _ _)
    (ae_of_all _ fun x _ => gaussianPDFReal_pos _ _ x (varOf_ne_zero hi₀)) c1 s1
  rw [hd m hi, hd m₀ hi₀, ← c2]
  exact h

theorem gamma_hasKL {a r a₀ r₀ : ℝ} (ha : 0 < a) (hr : 0 < r) (ha₀ : 0 < a₀) (hr₀ : 0 < r₀) :
    HasKL (gammaMeasure a r) (gammaMeasure a₀ r₀)
      (-((a₀ - 1) * (psi a - Real.log r) - r₀ * (a / r) + (a₀ * Real.log r₀ - Real.log (Real.Gamma a₀)) +
        diffEntropy (gammaPDFReal a r))) := by
  obtain ⟨c1, c2⟩ := gamma_cross ha hr ha₀ hr₀
  obtain ⟨s1, -⟩ := gamma_cross ha hr ha hr
  have hpos : ∀ᵐ x : ℝ, gammaPDFReal a r x ≠ 0 → 0 < gammaPDFReal a₀ r₀ x := by
    have h0 : ∀ᵐ x : ℝ, x ≠ 0 := by
      rw [ae_iff]
      simp
    filter_upwards [h0] with x hx hne
    rcases lt_or_gt_of_ne hx with h | h
    · simp [gammaPDFReal, not_le.2 h] at hne
    · exact gammaPDFReal_pos' ha₀ hr₀ h
  have hn : ∀ {a r : ℝ}, 0 < a → 0 < r → ∀ x, 0 ≤ gammaPDFReal a r x := by
    intro a r ha hr x
    rcases lt_or_ge x 0 with h | h
    · simp [gammaPDFReal, not_le.2 h]
    · have := Real.Gamma_pos_of_pos ha
      rw [gammaPDFReal, if_pos h]
      positivity
  have : IsProbabilityMeasure (volume.withDensity fun x => ENNReal.ofReal (gammaPDFReal a₀ r₀ x)) :=
    isProbabilityMeasure_gammaMeasure ha₀ hr₀
  have h := HasKL.of_density (μ := volume) (measurable_gammaPDFReal a r) (measurable_gammaPDFReal a₀ r₀) (hn ha hr)
    (hn ha₀ hr₀) hpos c1 s1
  rw [c2] at h
  have e : (a₀ - 1) * (psi a - Real.log r) - r₀ * (a / r) + (a₀ * Real.log r₀ - Real.log (Real.Gamma a₀)) +
        diffEntropy (gammaPDFReal a r) = a₀ * Real.log r₀ - Real.log (Real.Gamma a₀) +
        ((a₀ - 1) * (psi a - Real.log r) - r₀ * (a / r)) +
        -∫ x, gammaPDFReal a r x * Real.log (gammaPDFReal a r x) := by
    rw [diffEntropy]
    ring
  rw [e]
  exact h

/-- **C175** For normal variables: minus the sum of `uvn_prior` at the moments of `q`, completed by a number
that depends on the prior only, and `q.entropy()` is the relative entropy of the distribution that `q` holds
with respect to the prior. -/
theorem C175_uvn (s : List ℕ) (m₀ i₀ : Arr) (hm₀ : IsArr m₀ s) (hi₀ : IsPosArr i₀ s) :
    ∃ k : ℝ, ∀ (q : Param) (m i : Arr), HoldsNormals q s m i →
      ∃ e v r H, uvnE q = .ok e ∧ uvnVar q = .ok v ∧ uvnPrior m₀ i₀ e v = .ok r ∧ uvnEntropy q = .ok H ∧
        RelEntropyIs (normalArray s m i) (normalArray s m₀ i₀) (-(r.sumAll + k + H)) := by
  refine ⟨((indexProduct s).map fun idx => Real.log (normalPdf (m₀.get idx) (i₀.get idx) (m₀.get idx))).sum,
    fun q m i h => ?_⟩
  obtain ⟨u1, -, u2, -⟩ := C72_uvn_moments q s m i h
  have hp : ∀ idx, InShape idx s → (∫ x, x ∂normal (m.get idx) (i.get idx) = m.get idx) ∧
      Var[id; normal (m.get idx) (i.get idx)] = 1 / i.get idx := by
    intro idx hi
    rw [normal, integral_id_gaussianReal, variance_id_gaussianReal, varOf_coe (h.info_arr.2 idx hi)]
    exact ⟨rfl, rfl⟩
  rw [ofFn_congr fun idx hi => (hp idx hi).1] at u1
  rw [ofFn_congr fun idx hi => (hp idx hi).2] at u2
  have u3 : uvnPrior m₀ i₀ (ofFn s m.get) (ofFn s fun idx => 1 / i.get idx) = .ok (ofFn s fun idx =>
      -0.5 * (i₀.get idx * ((m.get idx - m₀.get idx) ^ 2 + 1 / i.get idx))) := by
    conv_lhs => rw [arr_eq hm₀, arr_eq hi₀.1]
    exact uvnPrior_ofFn _ _ _ _ _
  refine ⟨_, _, _, _, u1, u2, u3, C73_uvn_entropy q s m i h, ?_⟩
  rw [RelEntropyIs, ← hasKL_iff, sumAll_ofFn, ← List.sum_map_add, ← List.sum_map_add, ← sum_idx, ← Finset.sum_neg_distrib]
  exact HasKL.pi fun k => normal_hasKL _ _ (h.info_arr.2 k.1 k.2) (hi₀.2 k.1 k.2)

/-- **C175** For gamma variables. -/
theorem C175_gamma (s : List ℕ) (a₀ r₀ : Arr) (ha₀ : IsPosArr a₀ s) (hr₀ : IsPosArr r₀ s) :
    ∃ k : ℝ, ∀ (q : Param) (a r : Arr), HoldsGammas q s a r →
      ∃ e l v H, gammaE q = .ok e ∧ gammaELog q = .ok l ∧ gammaPrior a₀ r₀ e l = .ok v ∧
        gammaParEntropy q = .ok H ∧
        RelEntropyIs (gammaArray s a r) (gammaArray s a₀ r₀) (-(v.sumAll + k + H)) := by
  refine ⟨((indexProduct s).map fun idx =>
    (a₀.get idx * Real.log (r₀.get idx) - Real.log (Real.Gamma (a₀.get idx)))).sum, fun q a r h => ?_⟩
  obtain ⟨u1, u2, u3⟩ := C85_gamma_moments q s a r h
  have hp : ∀ idx, InShape idx s → 0 < a.get idx ∧ 0 < r.get idx ∧ 0 < a₀.get idx ∧ 0 < r₀.get idx :=
    fun idx hi => ⟨h.shape_arr.2 idx hi, h.rate_arr.2 idx hi, ha₀.2 idx hi, hr₀.2 idx hi⟩
  rw [ofFn_congr fun idx hi => (integral_gammaMeasure (hp idx hi).1 (hp idx hi).2.1 _).trans
    (gamma_mean (hp idx hi).1 (hp idx hi).2.1)] at u1
  rw [ofFn_congr fun idx hi => (integral_gammaMeasure (hp idx hi).1 (hp idx hi).2.1 _).trans
    (gamma_log_mean (hp idx hi).1 (hp idx hi).2.1)] at u2
  have u4 : gammaPrior a₀ r₀ (ofFn s fun idx => a.get idx / r.get idx)
      (ofFn s fun idx => psi (a.get idx) - Real.log (r.get idx)) = .ok (ofFn s fun idx =>
        (a₀.get idx - 1) * (psi (a.get idx) - Real.log (r.get idx)) - r₀.get idx * (a.get idx / r.get idx)) := by
    unfold gammaPrior minus mul
    conv_lhs => rw [arr_eq ha₀.1, arr_eq hr₀.1]
    rw [bin_scalar_right, py_ok_bind]
    rw [show (ofFn (ofFn s a₀.get).shape fun idx => (ofFn s a₀.get).get idx - 1) =
      ofFn s fun idx => a₀.get idx - 1 from
        ofFn_congr (s := s) fun idx hi => by rw [get_ofFn _ hi]]
    rw [bin_ofFn, py_ok_bind, bin_ofFn, py_ok_bind, bin_ofFn]
  refine ⟨_, _, _, _, u1, u2, u4, u3, ?_⟩
  have i1 := fun k : Idx s => isProbabilityMeasure_gammaMeasure (hp k.1 k.2).1 (hp k.1 k.2).2.1
  have i2 := fun k : Idx s => isProbabilityMeasure_gammaMeasure (hp k.1 k.2).2.2.1 (hp k.1 k.2).2.2.2
  have i3 := gammaArray_prob h.shape_arr h.rate_arr
  have i4 := gammaArray_prob ha₀ hr₀
  rw [RelEntropyIs, ← hasKL_iff, sumAll_ofFn, ← List.sum_map_add, ← List.sum_map_add, ← sum_idx, ← Finset.sum_neg_distrib]
  exact HasKL.pi fun k => gamma_hasKL (hp k.1 k.2).1 (hp k.1 k.2).2.1 (hp k.1 k.2).2.2.1 (hp k.1 k.2).2.2.2

/-- **C175** For exponential priors of gamma variables. -/
theorem C175_exponential (s : List ℕ) (b : Arr) (hb : IsPosArr b s) :
    ∃ k : ℝ, ∀ (q : Param) (a r : Arr), HoldsGammas q s a r →
      ∃ e v H, gammaE q = .ok e ∧ exponentialPrior b e = .ok v ∧ gammaParEntropy q = .ok H ∧
        RelEntropyIs (gammaArray s a r) (Measure.pi fun k : Idx s => expMeasure (b.get k)) (-(v.sumAll + k + H)) := by
  have h1 : IsPosArr (ofFn s fun _ => 1) s := ⟨ofFn_arr _ _, fun idx h => by rw [get_ofFn _ h]; norm_num⟩
  obtain ⟨k, hk⟩ := C175_gamma s (ofFn s fun _ => 1) b h1 hb
  refine ⟨k, fun q a r h => ?_⟩
  obtain ⟨e, l, v, H, u1, u2, u3, u4, u5⟩ := hk q a r h
  have he : IsArr e s := by
    rw [(C85_gamma_moments q s a r h).1] at u1
    cases u1
    exact ofFn_arr _ _
  have hl : IsArr l s := by
    rw [(C85_gamma_moments q s a r h).2.1] at u2
    cases u2
    exact ofFn_arr _ _
  have hv : exponentialPrior b e = .ok v := by
    rw [← u3]
    unfold gammaPrior exponentialPrior minus mul
    conv_lhs => rw [arr_eq hb.1, arr_eq he]
    conv_rhs => rw [arr_eq hb.1, arr_eq he, arr_eq hl]
    rw [map_ofFn, bin_ofFn, bin_scalar_right, py_ok_bind]
    rw [show (ofFn (ofFn s fun _ => (1 : ℝ)).shape fun idx => (ofFn s fun _ => (1 : ℝ)).get idx - 1) =
      ofFn s fun _ => 0 from ofFn_congr (s := s) fun idx hi => by rw [get_ofFn _ hi]; norm_num]
    rw [bin_ofFn, py_ok_bind, bin_ofFn, py_ok_bind, bin_ofFn]
    congr 1
    exact ofFn_congr fun idx _ => by ring
  have hm : gammaArray s (ofFn s fun _ => 1) b = Measure.pi fun k : Idx s => expMeasure (b.get k) := by
    unfold gammaArray
    congr 1
    funext k
    rw [get_ofFn _ k.2]
    rfl
  exact ⟨e, v, H, u1, hv, u4, hm ▸ u5⟩

/-- **C175** For Dirichlet variables. -/
theorem C175_dirichlet (n : ℕ) (α₀ : List ℝ) (hl : α₀.length = n + 1) (hα₀ : ∀ a ∈ α₀, 0 < a) :
    ∃ k : ℝ, ∀ (q : Param) (alpha : Arr), Holds q "alpha" alpha → IsPosArr alpha [n + 1] →
      ∃ l r H, dirichletELog q = .ok l ∧ dirichletPrior α₀ l.data = .ok r ∧
        dirichletParEntropy q = .ok H ∧
        RelEntropyIs (dirichletVector n alpha) (dirichletVector n (vec α₀)) (-(r + k + H.get [])) := by
  have hget : ∀ k, (vec α₀).get [k] = α₀.getD k 0 := by
    intro k
    simp [Arr.get, Arr.vec, flat]
  let β : Fin (n + 1) → ℝ := fun i => (vec α₀).get [(i : ℕ)]
  have hβ : ∀ i, 0 < β i := by
    intro i
    have hi : (i : ℕ) < α₀.length := by rw [hl]; exact i.2
    have : β i = α₀[(i : ℕ)] := by simp [β, hget, hi]
    rw [this]
    exact hα₀ _ (List.getElem_mem _)
  have hv : IsPosArr (vec α₀) [n + 1] := by
    refine ⟨⟨by simp [Arr.vec, WF], by simp [Arr.vec, hl]⟩, fun idx hi => ?_⟩
    cases hi with
    | cons hk hn =>
      cases hn
      exact hβ ⟨_, hk⟩
  refine ⟨dirichletLogC β, fun q alpha hq hp => ?_⟩
  obtain ⟨e, l, H, -, h2, h3, -, l1, -, hh⟩ := C95_dirichlet_moments n [] alpha hp
  obtain ⟨m1, m2, m3⟩ := C95_dirichlet_methods q [] alpha hq
  obtain ⟨-, -, -, hlog, -, hent⟩ := hh [] List.Forall₂.nil
  let α : Fin (n + 1) → ℝ := fun i => alpha.get [(i : ℕ)]
  have hα : ∀ i, 0 < α i := fun i => hp.2 _ (List.Forall₂.cons i.2 List.Forall₂.nil)
  have hr : dirichletPrior α₀ l.data = .ok (∑ i, (β i - 1) * (psi (α i) - psi (∑ j, α j))) := by
    have hlen : l.data.length = n + 1 := by
      have := l1.1
      rw [WF, l1.2] at this
      simpa using this
    unfold dirichletPrior dot1
    rw [if_neg (by omega), if_pos (by simp; omega)]
    congr 1
    have e1 : List.zipWith (· * ·) (α₀.map (· - 1)) l.data =
        List.ofFn fun k : Fin (n + 1) => (β k - 1) * (psi (α k) - psi (∑ j, α j)) := by
      refine List.ext_getElem (by simp [hl, hlen]) fun k k1 k2 => ?_
      have hk : k < n + 1 := by simpa using k2
      have e2 : l.get [k] = l.data[k] := by
        have : k < l.data.length := by omega
        simp [Arr.get, flat, l1.2, this]
      have e3 := (hlog ⟨k, hk⟩).2
      rw [(dirichlet_log hα ⟨k, hk⟩).2] at e3
      simp only at e3
      rw [List.getElem_zipWith, List.getElem_ofFn, ← e2, e3, List.getElem_map]
      have e4 : β ⟨k, hk⟩ = α₀[k]'(by omega) := by
        have : k < α₀.length := by omega
        simp [β, hget, this]
      rw [e4]
    rw [e1, List.sum_ofFn]
  refine ⟨l, _, H, m2.trans h2, hr, m3.trans h3, ?_⟩
  obtain ⟨c1, c2⟩ := dirichlet_cross hα hβ
  obtain ⟨s1, -⟩ := dirichlet_cross hα hα
  have i1 := dirichletVector_prob hp
  have i2 := dirichletVector_prob hv
  have : IsProbabilityMeasure (volume.withDensity fun x => ENNReal.ofReal (dirichletPdf β x)) := i2
  have h := HasKL.of_density (μ := volume) (measurable_dirichletPdf α) (measurable_dirichletPdf β)
    (dirichletPdf_nonneg hα) (dirichletPdf_nonneg hβ)
    ((dirichlet_ae_pos hα).mono fun x hx hz => (log_dirichletPdf hβ (hx hz)).1) c1 s1
  rw [RelEntropyIs, ← hasKL_iff, hent, add_comm _ (dirichletLogC β), ← c2]
  exact h

/-- **C175** For multivariate normal variables. -/
theorem C175_mvn (n : ℕ) (m₀ : List ℝ) (i₀ : Arr) (hm₀ : m₀.length = n) (hi₀ : IsMat i₀ n n)
    (hpd₀ : (asMatrix n i₀).PosDef) :
    ∃ k : ℝ, ∀ (q : Param) (m i : Arr), HoldsMvn q n m i → (asMatrix n i).PosDef →
      ∃ e C r H, mvnE q = .ok e ∧ mvnCov q = .ok C ∧ mvnPrior m₀ i₀ e.data C = .ok r ∧ mvnEntropy q = .ok H ∧
        RelEntropyIs (mvn n m i) (mvn n (vec m₀) i₀) (-(r + k + H)) := by
  obtain ⟨k, hk⟩ := C163_mvn n m₀ i₀ hm₀ hi₀ hpd₀
  refine ⟨k, fun q m i h hpd => ?_⟩
  obtain ⟨e, C, r, H, u1, u2, u3, u4, u5, -⟩ := hk (fun _ => 0) measurable_const (integrable_const _) q m i h hpd
    (integrable_const _)
  refine ⟨e, C, r, H, u1, u2, u3, u4, ?_⟩
  have hH := C92_entropy q n m i h hpd
  rw [u4] at hH
  obtain ⟨x1, x2⟩ := mvn_cross (m := m) (m₀ := vec m₀) hpd hpd₀
  obtain ⟨s1, -⟩ := mvn_cross (m := m) (m₀ := m) hpd hpd
  have hd := C92_density n m i hpd
  have hd₀ := C92_density n (vec m₀) i₀ hpd₀
  have : IsProbabilityMeasure (volume.withDensity fun x => ENNReal.ofReal (mvnPdf n (vec m₀) i₀ x)) := by
    rw [← hd₀]
    infer_instance
  have hkl := HasKL.of_density (μ := volume) (measurable_mvnPdf n m i) (measurable_mvnPdf n (vec m₀) i₀)
    (fun x => (mvnPdf_pos hpd x).le) (fun x => (mvnPdf_pos hpd₀ x).le) (ae_of_all _ fun x _ => mvnPdf_pos hpd₀ x) x1 s1
  rw [x2, u5] at hkl
  rw [RelEntropyIs, ← hasKL_iff, hd, hd₀, Except.ok.inj hH]
  exact hkl

/-- **C175** Any number of independent blocks: when each block has the relative entropy `-V i`, the expectation
of any log likelihood of all blocks plus the sum of the `V i` is at most the log of the evidence, and equals it
exactly when the product of the blocks is the posterior. -/
theorem C175_blocks {ι : Type*} [Fintype ι] {Ω : ι → Type*} [∀ i, MeasurableSpace (Ω i)] (q p : ∀ i, Measure (Ω i))
    [∀ i, IsProbabilityMeasure (q i)] [∀ i, IsProbabilityMeasure (p i)] (V : ι → ℝ)
    (h : ∀ i, RelEntropyIs (q i) (p i) (-V i)) (f : (∀ i, Ω i) → ℝ)
    (hexp : Integrable (fun x => Real.exp (f x)) (Measure.pi p)) (hf : Integrable f (Measure.pi q)) :
    ∫ x, f x ∂Measure.pi q + ∑ i, V i ≤ Real.log (∫ x, Real.exp (f x) ∂Measure.pi p) ∧
    (∫ x, f x ∂Measure.pi q + ∑ i, V i = Real.log (∫ x, Real.exp (f x) ∂Measure.pi p) ↔
      (Measure.pi p).withDensity (fun x => ENNReal.ofReal (Real.exp (f x))) =
        ENNReal.ofReal (∫ x, Real.exp (f x) ∂Measure.pi p) • Measure.pi q) := by
  have hk := (HasKL.pi fun i => hasKL_iff.2 (h i)).evidence hexp hf
  rwa [Finset.sum_neg_distrib, sub_neg_eq_add] at hk

/-- **C175** A model with a multivariate normal, an array of normals, an array of gammas and a Dirichlet
variable, all independent under the prior and under `q`: the expectation of any log likelihood, plus the four
log priors at the moments of the four parameters, plus the four entropies, is at most the log of the evidence
minus a number that depends on the prior only, and equals it exactly when `q` is the posterior. -/
theorem C175_model (d : ℕ) (m₁ : List ℝ) (i₁ : Arr) (hm₁ : m₁.length = d) (hi₁ : IsMat i₁ d d)
    (hpd₁ : (asMatrix d i₁).PosDef) (s : List ℕ) (m₂ i₂ : Arr) (hm₂ : IsArr m₂ s) (hi₂ : IsPosArr i₂ s)
    (t : List ℕ) (a₃ r₃ : Arr) (ha₃ : IsPosArr a₃ t) (hr₃ : IsPosArr r₃ t)
    (n : ℕ) (α₄ : List ℝ) (hl₄ : α₄.length = n + 1) (hα₄ : ∀ a ∈ α₄, 0 < a) :
    ∃ k : ℝ, ∀ (f : EuclideanSpace ℝ (Fin d) × (Idx s → ℝ) × (Idx t → ℝ) × (Fin n → ℝ) → ℝ)
      (P : Measure (EuclideanSpace ℝ (Fin d) × (Idx s → ℝ) × (Idx t → ℝ) × (Fin n → ℝ))),
      P = (mvn d (vec m₁) i₁).prod ((normalArray s m₂ i₂).prod
        ((gammaArray t a₃ r₃).prod (dirichletVector n (vec α₄)))) →
      Integrable (fun x => Real.exp (f x)) P →
      ∀ (q₁ q₂ q₃ q₄ : Param) (m i m' i' a r alpha : Arr), HoldsMvn q₁ d m i → (asMatrix d i).PosDef →
      HoldsNormals q₂ s m' i' → HoldsGammas q₃ t a r → Holds q₄ "alpha" alpha → IsPosArr alpha [n + 1] →
      ∀ Q, Q = (mvn d m i).prod ((normalArray s m' i').prod ((gammaArray t a r).prod (dirichletVector n alpha))) →
      Integrable f Q →
      ∃ e₁ C₁ v₁ H₁ e₂ C₂ v₂ H₂ e₃ l₃ v₃ H₃ l₄ v₄ H₄,
        (mvnE q₁ = .ok e₁ ∧ mvnCov q₁ = .ok C₁ ∧ mvnPrior m₁ i₁ e₁.data C₁ = .ok v₁ ∧ mvnEntropy q₁ = .ok H₁) ∧
        (uvnE q₂ = .ok e₂ ∧ uvnVar q₂ = .ok C₂ ∧ uvnPrior m₂ i₂ e₂ C₂ = .ok v₂ ∧ uvnEntropy q₂ = .ok H₂) ∧
        (gammaE q₃ = .ok e₃ ∧ gammaELog q₃ = .ok l₃ ∧ gammaPrior a₃ r₃ e₃ l₃ = .ok v₃ ∧
          gammaParEntropy q₃ = .ok H₃) ∧
        (dirichletELog q₄ = .ok l₄ ∧ dirichletPrior α₄ l₄.data = .ok v₄ ∧ dirichletParEntropy q₄ = .ok H₄) ∧
        ∫ x, f x ∂Q + (v₁ + v₂.sumAll + v₃.sumAll + v₄) + (H₁ + H₂ + H₃ + H₄.get []) ≤
          Real.log (∫ x, Real.exp (f x) ∂P) - k ∧
        (∫ x, f x ∂Q + (v₁ + v₂.sumAll + v₃.sumAll + v₄) + (H₁ + H₂ + H₃ + H₄.get []) =
          Real.log (∫ x, Real.exp (f x) ∂P) - k ↔
          P.withDensity (fun x => ENNReal.ofReal (Real.exp (f x))) =
            ENNReal.ofReal (∫ x, Real.exp (f x) ∂P) • Q) := by
  obtain ⟨k₁, h₁⟩ := C175_mvn d m₁ i₁ hm₁ hi₁ hpd₁
  obtain ⟨k₂, h₂⟩ := C175_uvn s m₂ i₂ hm₂ hi₂
  obtain ⟨k₃, h₃⟩ := C175_gamma t a₃ r₃ ha₃ hr₃
  obtain ⟨k₄, h₄⟩ := C175_dirichlet n α₄ hl₄ hα₄
  refine ⟨k₁ + k₂ + k₃ + k₄, ?_⟩
  rintro f P rfl hexp q₁ q₂ q₃ q₄ m i m' i' a r alpha g₁ gpd g₂ g₃ g₄ gp Q rfl hf
  obtain ⟨e₁, C₁, v₁, H₁, x1, x2, x3, x4, x5⟩ := h₁ q₁ m i g₁ gpd
  obtain ⟨e₂, C₂, v₂, H₂, y1, y2, y3, y4, y5⟩ := h₂ q₂ m' i' g₂
  obtain ⟨e₃, l₃, v₃, H₃, z1, z2, z3, z4, z5⟩ := h₃ q₃ a r g₃
  obtain ⟨l₄, v₄, H₄, w1, w2, w3, w4⟩ := h₄ q₄ alpha g₄ gp
  have hv : IsPosArr (vec α₄) [n + 1] := by
    refine ⟨⟨by simp [Arr.vec, WF], by simp [Arr.vec, hl₄]⟩, fun idx hi => ?_⟩
    cases hi with
    | cons hk hn =>
      cases hn
      rename_i j
      have hj : j < α₄.length := by omega
      have : (vec α₄).get [j] = α₄[j] := by simp [Arr.get, Arr.vec, flat, hj]
      rw [this]
      exact hα₄ _ (List.getElem_mem _)
  have i3 := gammaArray_prob g₃.shape_arr g₃.rate_arr
  have i4 := gammaArray_prob ha₃ hr₃
  have i5 := dirichletVector_prob gp
  have i6 := dirichletVector_prob hv
  have hk := ((hasKL_iff.2 x5).prod ((hasKL_iff.2 y5).prod ((hasKL_iff.2 z5).prod (hasKL_iff.2 w4)))).evidence hexp hf
  refine ⟨e₁, C₁, v₁, H₁, e₂, C₂, v₂, H₂, e₃, l₃, v₃, H₃, l₄, v₄, H₄, ⟨x1, x2, x3, x4⟩, ⟨y1, y2, y3, y4⟩,
    ⟨z1, z2, z3, z4⟩, ⟨w1, w2, w3⟩, by linarith [hk.1], ?_⟩
  rw [← hk.2]
  constructor <;> intro hh <;> linarith

/-- Parameters of all four kinds after `set_free`, of one shape each. -/
example : ∃ q₁ m i q₂ m' i' q₃ a r q₄ alpha, HoldsMvn q₁ 1 m i ∧ (asMatrix 1 i).PosDef ∧
    HoldsNormals q₂ [2, 3] m' i' ∧ HoldsGammas q₃ [1] a r ∧ Holds q₄ "alpha" alpha ∧ IsPosArr alpha [3] := by
  obtain ⟨p₁, -, -, h₁⟩ := C84_after_set_free "b" 1 0.5 (by norm_num) []
  obtain ⟨q₁, m, i, -, x1, x2⟩ := h₁ [1, 2] rfl
  obtain ⟨p₂, -, -, h₂⟩ := (C72_after_set_free "u" 0.1 (by norm_num) 1 [2, 3] [.setFree [1]]).2.2
  obtain ⟨q₂, m', i', -, y1⟩ := h₂ (List.replicate 12 0.5) (by simp)
  obtain ⟨p₃, -, -, h₃⟩ := C85_after_set_free "g" 0.1 0.1 (by norm_num) (by norm_num) [.setFree [1]]
  obtain ⟨q₃, a, r, -, z1⟩ := h₃ [0.5, 0.5] rfl
  obtain ⟨p₄, -, -, h₄⟩ := C77_after_set_free "d" 0.1 (by norm_num) 3 (by norm_num) [] []
  obtain ⟨q₄, alpha, -, -, w1, w2, -⟩ := h₄ (List.replicate 3 0.5) (by simp)
  exact ⟨q₁, m, i, q₂, m', i', q₃, a, r, q₄, alpha, x1, x2, y1, z1, w1, w2⟩

/-- The bound is attained for a log likelihood that is constant exactly at the prior. -/
example (c : ℝ) (s : List ℕ) (m₀ i₀ : Arr) (hm₀ : IsArr m₀ s) (hi₀ : IsPosArr i₀ s) (q : Param)
    (h : HoldsNormals q s m₀ i₀) : ∃ V : Unit → ℝ, (∀ _ : Unit, RelEntropyIs (normalArray s m₀ i₀)
      (normalArray s m₀ i₀) (-V ())) ∧ ∫ _, c ∂(Measure.pi fun _ : Unit => normalArray s m₀ i₀) + ∑ i, V i =
      Real.log (∫ _, Real.exp c ∂(Measure.pi fun _ : Unit => normalArray s m₀ i₀)) := by
  obtain ⟨k, hk⟩ := C175_uvn s m₀ i₀ hm₀ hi₀
  obtain ⟨e, v, r, H, -, -, -, -, hv⟩ := hk q m₀ i₀ h
  refine ⟨fun _ => r.sumAll + k + H, fun _ => hv, ?_⟩
  refine (C175_blocks (fun _ : Unit => normalArray s m₀ i₀) (fun _ => normalArray s m₀ i₀) _ (fun _ => hv)
    (fun _ => c) (integrable_const _) (integrable_const _)).2.2 ?_
  simp [withDensity_const]

end

end LRVB
