import Verif.Lemmas.DirichletMoments
import Verif.Lemmas.GammaDist
import Mathlib.MeasureTheory.Measure.OpenPos

/-!
# Gibbs' inequality, and what follows for gamma and Dirichlet densities
-/

namespace LRVB

open MeasureTheory ProbabilityTheory Set

noncomputable section

/-- `q log p - q log q ≤ p - q`, with equality only for `p = q`. -/
theorem gibbs_point {p q : ℝ} (hp : 0 ≤ p) (hq : 0 ≤ q) (h : q ≠ 0 → 0 < p) :
    0 ≤ (p - q) - (q * Real.log p - q * Real.log q) ∧
      ((p - q) - (q * Real.log p - q * Real.log q) = 0 → p = q) := by
  by_cases hq0 : q = 0
  · subst hq0
    simp only [sub_zero, zero_mul]
    exact ⟨hp, id⟩
  · have h1 := h hq0
    have h2 : 0 < q := lt_of_le_of_ne hq (Ne.symm hq0)
    have e : q * Real.log p - q * Real.log q = q * Real.log (p / q) := by
      rw [Real.log_div h1.ne' hq0]; ring
    have e2 : p - q = q * (p / q - 1) := by field_simp
    have h3 := Real.log_le_sub_one_of_pos (div_pos h1 h2)
    rw [e, e2]
    refine ⟨by nlinarith, fun hz => ?_⟩
    by_contra hne
    have h4 := Real.log_lt_sub_one_of_pos (div_pos h1 h2) (fun hc => hne ((div_eq_one_iff_eq hq0).1 hc))
    nlinarith

/-- Gibbs' inequality. -/
theorem gibbs {α : Type*} [MeasurableSpace α] {μ : Measure α} {p q : α → ℝ} (hp : ∀ᵐ x ∂μ, 0 ≤ p x)
    (hq : ∀ᵐ x ∂μ, 0 ≤ q x) (hpos : ∀ᵐ x ∂μ, q x ≠ 0 → 0 < p x) (ip : Integrable p μ)
    (iq : Integrable q μ) (hint : ∫ x, p x ∂μ = ∫ x, q x ∂μ)
    (i1 : Integrable (fun x => q x * Real.log (p x)) μ) (i2 : Integrable (fun x => q x * Real.log (q x)) μ) :
    ∫ x, q x * Real.log (p x) ∂μ ≤ ∫ x, q x * Real.log (q x) ∂μ ∧
      (∫ x, q x * Real.log (p x) ∂μ = ∫ x, q x * Real.log (q x) ∂μ → p =ᵐ[μ] q) := by
  have hn : ∀ᵐ x ∂μ, 0 ≤ (p x - q x) - (q x * Real.log (p x) - q x * Real.log (q x)) := by
    filter_upwards [hp, hq, hpos] with x a b c using (gibbs_point a b c).1
  have hi := (ip.sub iq).sub (i1.sub i2)
  have e : ∫ x, (p x - q x) - (q x * Real.log (p x) - q x * Real.log (q x)) ∂μ =
      ∫ x, q x * Real.log (q x) ∂μ - ∫ x, q x * Real.log (p x) ∂μ := by
    have e1 := integral_sub (ip.sub iq) (i1.sub i2)
    have e2 := integral_sub ip iq
    have e3 := integral_sub i1 i2
    simp only [Pi.sub_apply] at e1
    rw [e1, e2, e3, hint]
    ring
  have h0 := integral_nonneg_of_ae hn
  refine ⟨by linarith, fun heq => ?_⟩
  have hz := (integral_eq_zero_iff_of_nonneg_ae hn hi).1 (by rw [e, heq, sub_self])
  filter_upwards [hp, hq, hpos, hz] with x a b c d using (gibbs_point a b c).2 d

/-- The expected log density of one gamma distribution under another. -/
theorem gamma_cross {a r α β : ℝ} (ha : 0 < a) (hr : 0 < r) (hα : 0 < α) (hβ : 0 < β) :
    Integrable (fun x => gammaPDFReal a r x * Real.log (gammaPDFReal α β x)) ∧
    ∫ x, gammaPDFReal a r x * Real.log (gammaPDFReal α β x) =
      (α * Real.log β - Real.log (Real.Gamma α)) + ((α - 1) * (psi a - Real.log r) - β * (a / r)) := by
  have e : (fun x => gammaPDFReal a r x * Real.log (gammaPDFReal α β x)) =ᵐ[volume] fun x =>
      (α * Real.log β - Real.log (Real.Gamma α)) * gammaPDFReal a r x +
        (α - 1) * (gammaPDFReal a r x * Real.log x) - β * (gammaPDFReal a r x * x) := by
    have h0 : ∀ᵐ x : ℝ, x ≠ 0 := by
      rw [ae_iff]
      simp
    filter_upwards [h0] with x hx
    rcases lt_or_gt_of_ne hx with h | h
    · simp [gammaPDFReal, not_le.2 h]
    · rw [log_gammaPDFReal hα hβ h]
      ring
  have i1 := (integrable_gamma_one ha hr).const_mul (α * Real.log β - Real.log (Real.Gamma α))
  have i2 := (integrable_gamma_log ha hr).const_mul (α - 1)
  have i3 := (integrable_gamma_id ha hr).const_mul β
  have i12 : Integrable fun x => (α * Real.log β - Real.log (Real.Gamma α)) * gammaPDFReal a r x +
      (α - 1) * (gammaPDFReal a r x * Real.log x) := i1.add i2
  refine ⟨(i12.sub i3).congr e.symm, ?_⟩
  rw [integral_congr_ae e, integral_sub i12 i3, integral_add i1 i2, integral_const_mul,
    integral_const_mul, integral_const_mul, integral_gammaPDFReal ha hr, gamma_log_mean ha hr,
    gamma_mean ha hr]
  ring

theorem gammaPDFReal_pos' {a r x : ℝ} (ha : 0 < a) (hr : 0 < r) (hx : 0 < x) : 0 < gammaPDFReal a r x := by
  have hG := Real.Gamma_pos_of_pos ha
  have h1 := Real.rpow_pos_of_pos hr a
  have h2 := Real.rpow_pos_of_pos hx (a - 1)
  rw [gammaPDFReal, if_pos hx.le]
  positivity

/-- Gamma densities that agree almost everywhere have the same parameters. -/
theorem gamma_params_eq {a r α β : ℝ} (ha : 0 < a) (hr : 0 < r) (hα : 0 < α) (hβ : 0 < β)
    (h : gammaPDFReal α β =ᵐ[volume] gammaPDFReal a r) : a = α ∧ r = β := by
  have hc : ∀ a r : ℝ, ContinuousOn (gammaPDFReal a r) (Ioi 0) := by
    intro a r
    have h1 : ContinuousOn (fun x : ℝ => r ^ a / Real.Gamma a * x ^ (a - 1) * Real.exp (-(r * x))) (Ioi 0) := by
      refine ContinuousOn.mul (continuousOn_const.mul ?_) (by fun_prop)
      exact fun x hx => (Real.continuousAt_rpow_const x (a - 1) (.inl (ne_of_gt hx))).continuousWithinAt
    exact h1.congr fun x hx => by rw [gammaPDFReal, if_pos (le_of_lt hx)]
  have heq := Measure.eqOn_open_of_ae_eq (ae_restrict_of_ae h) isOpen_Ioi (hc α β) (hc a r)
  have hlog : ∀ x : ℝ, 0 < x → α * Real.log β - Real.log (Real.Gamma α) + (α - 1) * Real.log x - β * x =
      a * Real.log r - Real.log (Real.Gamma a) + (a - 1) * Real.log x - r * x := by
    intro x hx
    rw [← log_gammaPDFReal hα hβ hx, ← log_gammaPDFReal ha hr hx, heq hx]
  have h1 := hlog 1 one_pos
  have h2 := hlog 2 two_pos
  have h4 := hlog 4 (by norm_num)
  have l4 : Real.log 4 = 2 * Real.log 2 := by
    rw [show (4 : ℝ) = 2 ^ 2 by norm_num, Real.log_pow]; norm_num
  rw [Real.log_one] at h1
  rw [l4] at h4
  have hl : 0 < Real.log 2 := Real.log_pos (by norm_num)
  have hr' : r = β := by linarith
  refine ⟨?_, hr'⟩
  subst hr'
  have : (a - α) * Real.log 2 = 0 := by linarith
  rcases mul_eq_zero.1 this with h | h <;> linarith

/-- The gap is largest, zero, for equal gamma distributions only. -/
theorem gamma_gibbs {a r α β : ℝ} (ha : 0 < a) (hr : 0 < r) (hα : 0 < α) (hβ : 0 < β) :
    (α - 1) * (psi a - Real.log r) - β * (a / r) +
        (a - Real.log r + Real.log (Real.Gamma a) + (1 - a) * psi a) ≤
      -(α * Real.log β - Real.log (Real.Gamma α)) ∧
    ((α - 1) * (psi a - Real.log r) - β * (a / r) +
        (a - Real.log r + Real.log (Real.Gamma a) + (1 - a) * psi a) =
      -(α * Real.log β - Real.log (Real.Gamma α)) ↔ a = α ∧ r = β) := by
  have hpos : ∀ᵐ x : ℝ, gammaPDFReal a r x ≠ 0 → 0 < gammaPDFReal α β x := by
    have h0 : ∀ᵐ x : ℝ, x ≠ 0 := by
      rw [ae_iff]
      simp
    filter_upwards [h0] with x hx hne
    rcases lt_or_gt_of_ne hx with h | h
    · exact absurd (by simp [gammaPDFReal, not_le.2 h]) hne
    · exact gammaPDFReal_pos' hα hβ h
  obtain ⟨c1, c2⟩ := gamma_cross ha hr hα hβ
  obtain ⟨s1, s2⟩ := gamma_cross ha hr ha hr
  obtain ⟨g1, g2⟩ := gibbs (ae_of_all _ fun x => gammaPDFReal_nonneg hα hβ x)
    (ae_of_all _ fun x => gammaPDFReal_nonneg ha hr x) hpos (integrable_gamma_one hα hβ)
    (integrable_gamma_one ha hr) (by rw [integral_gammaPDFReal hα hβ, integral_gammaPDFReal ha hr]) c1 s1
  have he := entropy_gamma ha hr
  rw [c2] at g1 g2
  refine ⟨by linarith, fun h => gamma_params_eq ha hr hα hβ (g2 (by linarith)), ?_⟩
  rintro ⟨rfl, rfl⟩
  rw [s2] at he
  linarith

/-! ### Dirichlet densities -/

variable {m : ℕ} {α β : Fin (m + 1) → ℝ}

/-- The logarithm of the normalizing constant. -/
def dirichletLogC (α : Fin (m + 1) → ℝ) : ℝ :=
  Real.log (Real.Gamma (∑ i, α i)) - ∑ i, Real.log (Real.Gamma (α i))

theorem log_dirichletPdf (hα : ∀ i, 0 < α i) {x : Fin m → ℝ} (hx : ∀ i, 0 < simplexPoint x i) :
    0 < dirichletPdf α x ∧
    Real.log (dirichletPdf α x) = dirichletLogC α + ∑ i, (α i - 1) * Real.log (simplexPoint x i) := by
  have hG : ∀ i, 0 < Real.Gamma (α i) := fun i => Real.Gamma_pos_of_pos (hα i)
  have h0 : 0 < Real.Gamma (∑ i, α i) := Real.Gamma_pos_of_pos (sum_alpha_pos hα)
  have hP : 0 < ∏ i, Real.Gamma (α i) := Finset.prod_pos fun i _ => hG i
  have hpw : ∀ i, 0 < simplexPoint x i ^ (α i - 1) := fun i => Real.rpow_pos_of_pos (hx i) _
  have hpr : 0 < ∏ i, simplexPoint x i ^ (α i - 1) := Finset.prod_pos fun i _ => hpw i
  unfold dirichletPdf dirichletLogC
  rw [if_pos fun i => (hx i).le]
  refine ⟨by positivity, ?_⟩
  rw [Real.log_mul (div_ne_zero h0.ne' hP.ne') hpr.ne', Real.log_div h0.ne' hP.ne',
    Real.log_prod fun i _ => (hG i).ne', Real.log_prod fun i _ => (hpw i).ne']
  congr 1
  exact Finset.sum_congr rfl fun i _ => Real.log_rpow (hx i) _

theorem dirichlet_ae_pos (hα : ∀ i, 0 < α i) :
    ∀ᵐ x : Fin m → ℝ, dirichletPdf α x ≠ 0 → ∀ i, 0 < simplexPoint x i := by
  have hpos : ∀ᵐ x ∂dirichlet α, ∀ i, 0 < simplexPoint x i := by
    have hN : Measurable fun g : Fin (m + 1) → ℝ => fun i => g i / ∑ j, g j :=
      measurable_pi_lambda _ fun i => by fun_prop
    have hs : MeasurableSet {v : Fin (m + 1) → ℝ | ∀ i, 0 < v i} := by
      rw [show {v : Fin (m + 1) → ℝ | ∀ i, 0 < v i} = ⋂ i, {v | 0 < v i} by ext; simp]
      exact MeasurableSet.iInter fun i => measurableSet_lt measurable_const (measurable_pi_apply i)
    have h1 : ∀ᵐ v ∂(gammas α).map (fun g i => g i / ∑ j, g j), ∀ i, 0 < v i := by
      rw [ae_map_iff hN.aemeasurable hs]
      filter_upwards [gammas_ae_pos hα] with g hg i
      exact div_pos (hg i) (Finset.sum_pos (fun i _ => hg i) Finset.univ_nonempty)
    rw [map_normalized hα] at h1
    exact ae_of_ae_map measurable_simplexPoint.aemeasurable h1
  rw [dirichlet, ae_withDensity_iff (measurable_dirichletPdf α).ennreal_ofReal] at hpos
  filter_upwards [hpos] with x hx hz
  refine hx ?_
  rw [Ne, ENNReal.ofReal_eq_zero, not_le]
  exact lt_of_le_of_ne (dirichletPdf_nonneg hα x) (Ne.symm hz)

theorem integrable_dirichletPdf (hα : ∀ i, 0 < α i) : Integrable (dirichletPdf α) := by
  have := gammas_prob hα
  simpa using (integral_normalized hα (f := fun _ => 1) measurable_const (integrable_const _)).1

/-- The expected log density of one Dirichlet distribution under another. -/
theorem dirichlet_cross (hα : ∀ i, 0 < α i) (hβ : ∀ i, 0 < β i) :
    Integrable (fun x => dirichletPdf α x * Real.log (dirichletPdf β x)) ∧
    ∫ x, dirichletPdf α x * Real.log (dirichletPdf β x) =
      dirichletLogC β + ∑ i, (β i - 1) * (psi (α i) - psi (∑ j, α j)) := by
  have hae : (fun x => dirichletPdf α x * Real.log (dirichletPdf β x)) =ᵐ[volume] fun x : Fin m → ℝ =>
      dirichletPdf α x * dirichletLogC β +
        ∑ i, (β i - 1) * (dirichletPdf α x * Real.log (simplexPoint x i)) := by
    filter_upwards [dirichlet_ae_pos hα] with x hx
    by_cases hz : dirichletPdf α x = 0
    · simp [hz]
    · rw [(log_dirichletPdf hβ (hx hz)).2, mul_add, Finset.mul_sum]
      congr 1
      exact Finset.sum_congr rfl fun i _ => by ring
  have hi1 := (integrable_dirichletPdf hα).mul_const (dirichletLogC β)
  have hi2 : ∀ i, Integrable (fun x : Fin m → ℝ =>
      (β i - 1) * (dirichletPdf α x * Real.log (simplexPoint x i))) := fun i =>
    (dirichlet_log hα i).1.const_mul _
  have hi3 := integrable_finset_sum Finset.univ fun i _ => hi2 i
  refine ⟨(hi1.add hi3).congr hae.symm, ?_⟩
  rw [integral_congr_ae hae, integral_add hi1 hi3, integral_mul_const, integral_dirichletPdf hα,
    integral_finset_sum _ fun i _ => hi2 i]
  simp only [integral_const_mul, (dirichlet_log hα _).2, one_mul]

theorem continuous_simplexPoint (i : Fin (m + 1)) : Continuous fun x : Fin m → ℝ => simplexPoint x i := by
  refine Fin.cases ?_ (fun j => ?_) i
  · simp only [simplexPoint, Fin.cons_zero]
    fun_prop
  · simp only [simplexPoint, Fin.cons_succ]
    fun_prop

/-- Dirichlet densities with two components or more that agree almost everywhere have the same
parameters. -/
theorem dirichlet_params_eq (hm : 0 < m) (hα : ∀ i, 0 < α i) (hβ : ∀ i, 0 < β i)
    (h : dirichletPdf β =ᵐ[volume] dirichletPdf α) : α = β := by
  let U : Set (Fin m → ℝ) := {x | ∀ i, 0 < simplexPoint x i}
  have hU : IsOpen U := by
    have : U = ⋂ i, {x | 0 < simplexPoint x i} := by ext; simp [U]
    rw [this]
    exact isOpen_iInter_of_finite fun i => isOpen_lt continuous_const (continuous_simplexPoint i)
  have hc : ∀ γ : Fin (m + 1) → ℝ, ContinuousOn (dirichletPdf γ) U := by
    intro γ
    have h1 : ContinuousOn (fun x : Fin m → ℝ => Real.Gamma (∑ i, γ i) / (∏ i, Real.Gamma (γ i)) *
        ∏ i, simplexPoint x i ^ (γ i - 1)) U := by
      refine continuousOn_const.mul (continuousOn_finset_prod _ fun i _ => ?_)
      exact (continuous_simplexPoint i).continuousOn.rpow_const fun x hx => .inl (hx i).ne'
    refine h1.congr fun x hx => ?_
    rw [dirichletPdf, if_pos fun i => (hx i).le]
  have heq := Measure.eqOn_open_of_ae_eq (ae_restrict_of_ae h) hU (hc β) (hc α)
  have hlog : ∀ x ∈ U, ∑ i, (α i - β i) * Real.log (simplexPoint x i) = dirichletLogC β - dirichletLogC α := by
    intro x hx
    have h1 := (log_dirichletPdf hα hx).2
    have h2 := (log_dirichletPdf hβ hx).2
    rw [heq hx] at h2
    have h3 : ∑ i, (α i - β i) * Real.log (simplexPoint x i) =
        ∑ i, (α i - 1) * Real.log (simplexPoint x i) - ∑ i, (β i - 1) * Real.log (simplexPoint x i) := by
      rw [← Finset.sum_sub_distrib]
      exact Finset.sum_congr rfl fun i _ => by ring
    rw [h3]
    linarith
  -- move weight between component zero and component `j + 1`
  let c : ℝ := 2 / (m + 1)
  have hc0 : 0 < c := by positivity
  have key : ∀ j : Fin m, α 0 - β 0 = 0 ∧ α j.succ - β j.succ = 0 := by
    intro j
    let X : ℝ → Fin m → ℝ := fun t => Function.update (fun _ => 1 / ((m : ℝ) + 1)) j (c * t)
    have hsum : ∀ t, ∑ i, X t i = c * t + ((m : ℝ) - 1) / (m + 1) := by
      intro t
      simp only [X]
      rw [Finset.sum_update_of_mem (Finset.mem_univ j)]
      simp only [Finset.sum_const, Finset.card_sdiff, Finset.card_univ, Fintype.card_fin]
      rw [nsmul_eq_mul]
      have : ((m - ({j} ∩ Finset.univ : Finset (Fin m)).card : ℕ) : ℝ) = (m : ℝ) - 1 := by
        rw [Finset.inter_univ, Finset.card_singleton, Nat.cast_sub (by omega), Nat.cast_one]
      rw [this, mul_one_div]
    have hS0 : ∀ t, simplexPoint (X t) 0 = c * (1 - t) := by
      intro t
      simp only [simplexPoint, Fin.cons_zero, hsum, c]
      field_simp
      ring
    have hSj : ∀ t, simplexPoint (X t) j.succ = c * t := by
      intro t
      simp [simplexPoint, X]
    have hSk : ∀ t (k : Fin m), k ≠ j → simplexPoint (X t) k.succ = 1 / ((m : ℝ) + 1) := by
      intro t k hk
      simp only [simplexPoint, Fin.cons_succ, X, Function.update_of_ne hk]
    have hin : ∀ t, 0 < t → t < 1 → X t ∈ U := by
      intro t h0 h1 i
      refine Fin.cases ?_ (fun k => ?_) i
      · rw [hS0]
        exact mul_pos hc0 (by linarith)
      · by_cases hk : k = j
        · subst hk
          rw [hSj]
          positivity
        · rw [hSk t k hk]
          positivity
    obtain ⟨K, hK⟩ : ∃ K, ∀ t, 0 < t → t < 1 →
        (α 0 - β 0) * Real.log (1 - t) + (α j.succ - β j.succ) * Real.log t = K := by
      refine ⟨dirichletLogC β - dirichletLogC α - (α 0 - β 0) * Real.log c -
        (α j.succ - β j.succ) * Real.log c - ∑ k ∈ Finset.univ.erase j,
          (α k.succ - β k.succ) * Real.log (1 / ((m : ℝ) + 1)), fun t h0 h1 => ?_⟩
      have h2 := hlog _ (hin t h0 h1)
      rw [Fin.sum_univ_succ, hS0, ← Finset.add_sum_erase _ _ (Finset.mem_univ j), hSj,
        Real.log_mul hc0.ne' (by linarith), Real.log_mul hc0.ne' h0.ne'] at h2
      rw [Finset.sum_congr rfl fun k (hk : k ∈ Finset.univ.erase j) => by
        rw [hSk t k (Finset.ne_of_mem_erase hk)]] at h2
      linarith
    have k1 := hK (1 / 3) (by norm_num) (by norm_num)
    have k2 := hK (2 / 3) (by norm_num) (by norm_num)
    have k3 := hK (1 / 2) (by norm_num) (by norm_num)
    rw [show (1 : ℝ) - 1 / 3 = 2 / 3 by norm_num] at k1
    rw [show (1 : ℝ) - 2 / 3 = 1 / 3 by norm_num] at k2
    rw [show (1 : ℝ) - 1 / 2 = 1 / 2 by norm_num] at k3
    have l1 : Real.log (1 / 3) < Real.log (2 / 3) := Real.log_lt_log (by norm_num) (by norm_num)
    have l2 : Real.log (1 / 3) + Real.log (2 / 3) < 2 * Real.log (1 / 2) := by
      rw [← Real.log_mul (by norm_num) (by norm_num),
        show 2 * Real.log (1 / 2) = Real.log ((1 / 2) ^ 2) by rw [Real.log_pow]; norm_num]
      exact Real.log_lt_log (by norm_num) (by norm_num)
    have d1 : α 0 - β 0 = α j.succ - β j.succ := by
      have : (α 0 - β 0 - (α j.succ - β j.succ)) * (Real.log (2 / 3) - Real.log (1 / 3)) = 0 := by
        linarith
      rcases mul_eq_zero.1 this with h | h <;> linarith
    have d2 : (α j.succ - β j.succ) * (2 * Real.log (1 / 2) - (Real.log (1 / 3) + Real.log (2 / 3))) = 0 := by
      rw [d1] at k1 k3
      linarith
    have d3 : α j.succ - β j.succ = 0 := by
      rcases mul_eq_zero.1 d2 with h | h
      · exact h
      · linarith
    exact ⟨d1.trans d3, d3⟩
  funext i
  refine Fin.cases ?_ (fun k => ?_) i
  · linarith [(key ⟨0, hm⟩).1]
  · linarith [(key k).2]

/-- The gap is largest, zero, for equal Dirichlet distributions only. -/
theorem dirichlet_gibbs (hα : ∀ i, 0 < α i) (hβ : ∀ i, 0 < β i) :
    ∑ i, (β i - 1) * (psi (α i) - psi (∑ j, α j)) -
        ∫ x, dirichletPdf α x * Real.log (dirichletPdf α x) ≤ -dirichletLogC β ∧
    (0 < m → (∑ i, (β i - 1) * (psi (α i) - psi (∑ j, α j)) -
        ∫ x, dirichletPdf α x * Real.log (dirichletPdf α x) = -dirichletLogC β ↔ α = β)) := by
  obtain ⟨c1, c2⟩ := dirichlet_cross hα hβ
  obtain ⟨s1, s2⟩ := dirichlet_cross hα hα
  obtain ⟨g1, g2⟩ := gibbs (ae_of_all _ fun x => dirichletPdf_nonneg hβ x)
    (ae_of_all _ fun x => dirichletPdf_nonneg hα x)
    ((dirichlet_ae_pos hα).mono fun x hx hz => (log_dirichletPdf hβ (hx hz)).1)
    (integrable_dirichletPdf hβ) (integrable_dirichletPdf hα)
    (by rw [integral_dirichletPdf hβ, integral_dirichletPdf hα]) c1 s1
  rw [c2] at g1 g2
  refine ⟨by linarith, fun hm => ⟨fun h => dirichlet_params_eq hm hα hβ (g2 (by linarith)), ?_⟩⟩
  rintro rfl
  rw [s2]
  ring

end

end LRVB
