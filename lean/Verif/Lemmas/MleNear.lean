import Verif.Lemmas.MleHess

/-!
# The maximum likelihood fit depends continuously on the weights
-/

namespace LRVB

namespace Mle

open Matrix Filter Topology

noncomputable section

variable {ι κ : Type*} [Fintype ι] [DecidableEq ι] [Fintype κ] [DecidableEq κ]

theorem continuousAt_inv {T : Type*} [TopologicalSpace T] {M : T → Matrix ι ι ℝ} {t : T} (h : ContinuousAt M t)
    (hd : (M t).det ≠ 0) : ContinuousAt (fun s => (M s)⁻¹) t := by
  have : (fun s => (M s)⁻¹) = fun s => ((M s).det)⁻¹ • (M s).adjugate := by
    funext s
    rw [Matrix.inv_def, Ring.inverse_eq_inv']
  rw [this]
  have h1 : ContinuousAt (fun s => (M s).det) t := (continuous_id.matrix_det).continuousAt.comp h
  have h2 : ContinuousAt (fun s => (M s).adjugate) t := (continuous_id.matrix_adjugate).continuousAt.comp h
  exact (h1.inv₀ hd).smul h2

theorem continuousAt_mul {T ρ : Type*} [TopologicalSpace T] {M : T → Matrix ρ κ ℝ} {M' : T → Matrix κ ι ℝ} {t : T}
    (h : ContinuousAt M t) (h' : ContinuousAt M' t) : ContinuousAt (fun s => M s * M' s) t :=
  ((continuous_fst.matrix_mul continuous_snd :
    Continuous fun q : Matrix ρ κ ℝ × Matrix κ ι ℝ => q.1 * q.2).continuousAt (x := (M t, M' t))).comp
      (f := fun s => (M s, M' s)) (h.prodMk h')

variable (x y : Matrix κ ι ℝ)

/-- Near the weights of a fit, there is a fit near this fit. -/
theorem exists_near {w : κ → ℝ} {β L : Matrix ι ι ℝ} (hw : 0 < ∑ n, w n) (hg : (gram w x).PosDef) (hL : L.PosDef)
    (h1 : score w x y β = 0) (h2 : scatter w x y β = (∑ n, w n) • L⁻¹) {ε : ℝ} (hε : 0 < ε) :
    ∃ δ > 0, ∀ w' : κ → ℝ, (∀ n, |w' n - w n| < δ) → ∃ β' L' : Matrix ι ι ℝ,
      (∀ i j, |β' i j - β i j| < ε) ∧ (∀ i j, |L' i j - L i j| < ε) ∧ L'ᵀ = L' ∧
      score w' x y β' = 0 ∧ scatter w' x y β' = (∑ n, w' n) • L'⁻¹ := by
  set B : (κ → ℝ) → Matrix ι ι ℝ := fun w' => (gram w' x)⁻¹ * (xᵀ * diagonal w' * y) with hB
  set S : (κ → ℝ) → Matrix ι ι ℝ := fun w' => scatter w' x y (B w') with hS
  set Λ : (κ → ℝ) → Matrix ι ι ℝ := fun w' => (∑ n, w' n) • (S w')⁻¹ with hΛ
  have hdiag : Continuous fun w' : κ → ℝ => diagonal w' := continuous_id.matrix_diagonal
  have cgram : Continuous fun w' : κ → ℝ => gram w' x := by
    unfold gram
    exact (continuous_const.matrix_mul hdiag).matrix_mul continuous_const
  have hgd : (gram w x).det ≠ 0 := hg.det_pos.ne'
  have cB : ContinuousAt B w :=
    continuousAt_mul (continuousAt_inv cgram.continuousAt hgd)
      ((continuous_const.matrix_mul hdiag).matrix_mul continuous_const).continuousAt
  have cS : ContinuousAt S w := by
    have hr : ContinuousAt (fun w' => resid x y (B w')) w := by
      unfold resid
      exact continuousAt_const.sub (continuousAt_mul continuousAt_const cB)
    have ht : ContinuousAt (fun w' => (resid x y (B w'))ᵀ) w := (continuous_id.matrix_transpose).continuousAt.comp hr
    exact continuousAt_mul (continuousAt_mul ht hdiag.continuousAt) hr
  have csum : Continuous fun w' : κ → ℝ => ∑ n, w' n := by fun_prop
  have sc : ∀ w', (gram w' x).det ≠ 0 → score w' x y (B w') = 0 := by
    intro w' h
    have : score w' x y (B w') = xᵀ * diagonal w' * y - gram w' x * B w' := by
      unfold score gram resid
      rw [Matrix.mul_sub, Matrix.mul_assoc _ x]
    rw [this, hB]
    simp only
    rw [Matrix.mul_nonsing_inv_cancel_left _ _ (isUnit_iff_ne_zero.2 h), sub_self]
  have hBw : B w = β := by
    have : score w x y β = xᵀ * diagonal w * y - gram w x * β := by
      unfold score gram resid
      rw [Matrix.mul_sub, Matrix.mul_assoc _ x]
    rw [h1] at this
    rw [hB]
    simp only
    rw [sub_eq_zero.1 this.symm, Matrix.nonsing_inv_mul_cancel_left _ _ (isUnit_iff_ne_zero.2 hgd)]
  have hLd : L.det ≠ 0 := hL.det_pos.ne'
  have hSw : S w = (∑ n, w n) • L⁻¹ := by rw [hS]; simp only; rw [hBw, h2]
  have hSd : (S w).det ≠ 0 := by
    rw [hSw, Matrix.det_smul, Matrix.det_nonsing_inv, Ring.inverse_eq_inv']
    exact mul_ne_zero (pow_ne_zero _ hw.ne') (inv_ne_zero hLd)
  have hΛw : Λ w = L := by
    have : (S w)⁻¹ = (∑ n, w n)⁻¹ • L := by
      refine Matrix.inv_eq_left_inv ?_
      rw [hSw, Matrix.smul_mul, Matrix.mul_smul, smul_smul, inv_mul_cancel₀ hw.ne', one_smul,
        Matrix.mul_nonsing_inv _ (isUnit_iff_ne_zero.2 hLd)]
    rw [hΛ]
    simp only
    rw [this, smul_smul, mul_inv_cancel₀ hw.ne', one_smul]
  have cΛ : ContinuousAt Λ w := csum.continuousAt.smul (continuousAt_inv cS hSd)
  have ent : ∀ {M : (κ → ℝ) → Matrix ι ι ℝ}, ContinuousAt M w → ∀ i j, ∀ᶠ w' in 𝓝 w, |M w' i j - M w i j| < ε := by
    intro M hM i j
    have : ContinuousAt (fun w' => M w' i j) w := (continuous_id.matrix_elem i j).continuousAt.comp hM
    have := Metric.continuousAt_iff'.1 this ε hε
    simpa [Real.dist_eq] using this
  have ev : ∀ᶠ w' in 𝓝 w, (∀ i j, |B w' i j - B w i j| < ε) ∧ (∀ i j, |Λ w' i j - Λ w i j| < ε) ∧
      (gram w' x).det ≠ 0 ∧ (S w').det ≠ 0 ∧ (∑ n, w' n) ≠ 0 := by
    refine (eventually_all.2 fun i => eventually_all.2 fun j => ent cB i j).and
      ((eventually_all.2 fun i => eventually_all.2 fun j => ent cΛ i j).and ?_)
    refine (cgram.matrix_det.continuousAt.eventually_ne hgd).and (.and ?_ (csum.continuousAt.eventually_ne hw.ne'))
    exact ((continuous_id.matrix_det).continuousAt.comp cS).eventually_ne hSd
  obtain ⟨δ, hδ, hball⟩ := Metric.eventually_nhds_iff.1 ev
  refine ⟨δ, hδ, fun w' hw' => ?_⟩
  obtain ⟨a1, a2, a3, a4, a5⟩ := hball (y := w') ((dist_pi_lt_iff hδ).2 fun n => by
    rw [Real.dist_eq]; exact hw' n)
  rw [hBw] at a1
  rw [hΛw] at a2
  refine ⟨B w', Λ w', a1, a2, ?_, sc w' a3, ?_⟩
  · rw [hΛ]
    simp only
    rw [Matrix.transpose_smul, Matrix.transpose_nonsing_inv, hS]
    simp only
    rw [scatter_symm]
  · have : (Λ w')⁻¹ = (∑ n, w' n)⁻¹ • S w' := by
      refine Matrix.inv_eq_left_inv ?_
      rw [hΛ]
      simp only
      rw [Matrix.smul_mul, Matrix.mul_smul, smul_smul, inv_mul_cancel₀ a5, one_smul,
        Matrix.mul_nonsing_inv _ (isUnit_iff_ne_zero.2 a4)]
    rw [this, smul_smul, mul_inv_cancel₀ a5, one_smul]

end

end Mle

end LRVB
