import Verif.Lemmas.Mle
import Mathlib.Topology.Instances.Matrix
import Mathlib.Analysis.Calculus.Deriv.Prod
import Mathlib.Analysis.Calculus.FDeriv.Prod
import Mathlib.Analysis.Calculus.ContDiff.Operations

/-!
# Second derivatives of the weighted log likelihood at a fit, and leave-one-out fits
-/

namespace LRVB

namespace Mle

open Matrix Filter

noncomputable section

set_option linter.unusedSectionVars false

variable {ι κ ρ : Type*} [Fintype ι] [DecidableEq ι] [Fintype κ] [DecidableEq κ] [Fintype ρ]

/-! ### Derivatives of curves of matrices, entry by entry -/

/-- Every entry has a derivative at 0. -/
def HasDerivM (M : ℝ → Matrix κ ι ℝ) (M' : Matrix κ ι ℝ) : Prop :=
  ∀ i j, HasDerivAt (fun t => M t i j) (M' i j) 0

theorem HasDerivM.mul {M : ℝ → Matrix κ ι ℝ} {N : ℝ → Matrix ι ρ ℝ} {M' : Matrix κ ι ℝ} {N' : Matrix ι ρ ℝ}
    (h : HasDerivM M M') (h' : HasDerivM N N') :
    HasDerivM (fun t => M t * N t) (M' * N 0 + M 0 * N') := by
  intro i j
  simp only [Matrix.mul_apply, Matrix.add_apply, ← Finset.sum_add_distrib]
  exact HasDerivAt.fun_sum fun k _ => (h i k).mul (h' k j)

theorem HasDerivM.const_mul (K : Matrix ρ κ ℝ) {M : ℝ → Matrix κ ι ℝ} {M' : Matrix κ ι ℝ} (h : HasDerivM M M') :
    HasDerivM (fun t => K * M t) (K * M') := by
  intro i j
  simp only [Matrix.mul_apply]
  exact HasDerivAt.fun_sum fun k _ => (h k j).const_mul _

theorem HasDerivM.mul_const {M : ℝ → Matrix κ ι ℝ} {M' : Matrix κ ι ℝ} (h : HasDerivM M M') (K : Matrix ι ρ ℝ) :
    HasDerivM (fun t => M t * K) (M' * K) := by
  intro i j
  simp only [Matrix.mul_apply]
  exact HasDerivAt.fun_sum fun k _ => (h i k).mul_const _

theorem HasDerivM.transpose {M : ℝ → Matrix κ ι ℝ} {M' : Matrix κ ι ℝ} (h : HasDerivM M M') :
    HasDerivM (fun t => (M t)ᵀ) M'ᵀ := fun i j => h j i

theorem HasDerivM.const_sub (K : Matrix κ ι ℝ) {M : ℝ → Matrix κ ι ℝ} {M' : Matrix κ ι ℝ} (h : HasDerivM M M') :
    HasDerivM (fun t => K - M t) (-M') := fun i j => (h i j).const_sub (K i j)

theorem HasDerivM.sub_const {M : ℝ → Matrix κ ι ℝ} {M' : Matrix κ ι ℝ} (h : HasDerivM M M') (K : Matrix κ ι ℝ) :
    HasDerivM (fun t => M t - K) M' := fun i j => (h i j).sub_const (K i j)

theorem HasDerivM.trace {M : ℝ → Matrix ι ι ℝ} {M' : Matrix ι ι ℝ} (h : HasDerivM M M') :
    HasDerivAt (fun t => (M t).trace) M'.trace 0 := HasDerivAt.fun_sum fun i _ => h i i

/-- A product with a factor that vanishes at 0: the other one need only be continuous. -/
theorem hasDerivAt_mul_of_zero {f g : ℝ → ℝ} {g' : ℝ} (hf : ContinuousAt f 0) (hg : HasDerivAt g g' 0) (h0 : g 0 = 0) :
    HasDerivAt (fun t => f t * g t) (f 0 * g') 0 := by
  rw [hasDerivAt_iff_tendsto_slope] at *
  have h1 := (hf.tendsto.mono_left (nhdsWithin_le_nhds (s := {0}ᶜ))).mul hg
  refine h1.congr fun t => ?_
  simp only [slope_def_field, h0]
  ring

theorem hasDerivM_mul_of_zero {F : ℝ → Matrix κ ι ℝ} {G : ℝ → Matrix ι ρ ℝ} {G' : Matrix ι ρ ℝ}
    (hF : ContinuousAt F 0) (hG : HasDerivM G G') (h0 : G 0 = 0) : HasDerivM (fun t => F t * G t) (F 0 * G') := by
  intro i j
  simp only [Matrix.mul_apply]
  refine HasDerivAt.fun_sum fun k _ => hasDerivAt_mul_of_zero ?_ (hG k j) (by rw [h0]; rfl)
  exact (continuous_apply_apply i k).continuousAt.comp hF

/-! ### The log determinant along a curve -/

theorem det_contDiff : ContDiff ℝ 2 fun M : ι → ι → ℝ => (Matrix.of M).det := by
  simp only [Matrix.det_apply]
  refine ContDiff.sum fun σ _ => ContDiff.const_smul _ (contDiff_prod fun i _ => ?_)
  exact contDiff_apply_apply ℝ ℝ _ _

theorem HasDerivM.log_det {M : ℝ → Matrix ι ι ℝ} {M' : Matrix ι ι ℝ} (h : HasDerivM M M') (hp : (M 0).PosDef) :
    HasDerivAt (fun t => Real.log (M t).det) ((M 0)⁻¹ * M').trace 0 := by
  set g : (ι → ι → ℝ) → ℝ := fun M => Real.log (Matrix.of M).det with hg
  have hd : DifferentiableAt ℝ g (M 0) :=
    ((det_contDiff.differentiable (by norm_num)) _).log hp.det_pos.ne'
  have hM : HasDerivAt (fun t i j => M t i j) (fun i j => M' i j) 0 :=
    hasDerivAt_pi.2 fun i => hasDerivAt_pi.2 fun j => h i j
  have h1 := hd.hasFDerivAt.comp_hasDerivAt (0 : ℝ) hM
  have hl : HasDerivAt (fun (t : ℝ) i j => M 0 i j + t * M' i j) (fun i j => M' i j) 0 := by
    refine hasDerivAt_pi.2 fun i => hasDerivAt_pi.2 fun j => ?_
    simpa using ((hasDerivAt_id (0 : ℝ)).mul_const (M' i j)).const_add (M 0 i j)
  have hd' : HasFDerivAt g (fderiv ℝ g (M 0)) (fun i j => M 0 i j + (0 : ℝ) * M' i j) := by
    simpa using hd.hasFDerivAt
  have h2 := hd'.comp_hasDerivAt (0 : ℝ) hl
  have h3 := h2.unique (hasDerivAt_log_det hp M')
  rw [h3] at h1
  exact h1

/-! ### First derivative -/

variable (w : κ → ℝ) (x : Matrix κ ι ℝ) (y : Matrix κ ι ℝ)

/-- The derivative of `nll` at `(β, L)` in direction `(D, E)`. -/
def dnll (β L D E : Matrix ι ι ℝ) : ℝ :=
  -(L * Dᵀ * score w x y β).trace + 0.5 * (E * scatter w x y β).trace - 0.5 * (∑ n, w n) * (L⁻¹ * E).trace

theorem HasDerivM.score {B : ℝ → Matrix ι ι ℝ} {D : Matrix ι ι ℝ} (h : HasDerivM B D) :
    HasDerivM (fun t => score w x y (B t)) (-(gram w x * D)) := by
  have h1 := ((h.const_mul x).const_sub y).const_mul (xᵀ * diagonal w)
  have : xᵀ * diagonal w * -(x * D) = -(gram w x * D) := by
    unfold gram
    rw [Matrix.mul_neg, Matrix.mul_assoc _ x D]
  rwa [this] at h1

theorem HasDerivM.scatter {B : ℝ → Matrix ι ι ℝ} {D : Matrix ι ι ℝ} (h : HasDerivM B D) :
    HasDerivM (fun t => scatter w x y (B t))
      (-((Mle.score w x y (B 0))ᵀ * D + Dᵀ * Mle.score w x y (B 0))) := by
  have hr : HasDerivM (fun t => resid x y (B t)) (-(x * D)) := (h.const_mul x).const_sub y
  have h1 := (hr.transpose.mul_const (diagonal w)).mul hr
  refine fun i j => (h1 i j).congr_deriv ?_
  refine congrFun (congrFun ?_ i) j
  unfold Mle.score
  simp only [Matrix.transpose_neg, Matrix.transpose_mul, Matrix.neg_mul, Matrix.mul_neg, Matrix.diagonal_transpose,
    Matrix.transpose_transpose, Matrix.mul_assoc]
  abel

theorem HasDerivM.nll {B L : ℝ → Matrix ι ι ℝ} {D E : Matrix ι ι ℝ} (hB : HasDerivM B D) (hL : HasDerivM L E)
    (hp : (L 0).PosDef) : HasDerivAt (fun t => nll w x y (B t) (L t)) (dnll w x y (B 0) (L 0) D E) 0 := by
  have h1 := (hL.mul (hB.scatter w x y)).trace.const_mul 0.5
  have h2 := (hL.log_det hp).const_mul (0.5 * ∑ n, w n)
  refine (h1.sub h2).congr_deriv ?_
  unfold dnll
  rw [Matrix.trace_add, Matrix.mul_neg, Matrix.trace_neg, trace_cross _ _ _ (symm_of_posDef hp), Matrix.mul_assoc (L 0)]
  ring

/-! ### Second derivatives at a fit -/

/-- The Hessian at a fit. -/
def hnll (L D E D' E' : Matrix ι ι ℝ) : ℝ :=
  (L * Dᵀ * (gram w x * D')).trace + 0.5 * ((∑ n, w n) * (E * L⁻¹ * (E' * L⁻¹)).trace)

theorem hasDerivAt_dnll {B L D E : ℝ → Matrix ι ι ℝ} {D' E' : Matrix ι ι ℝ} (hB : HasDerivM B D') (hL : HasDerivM L E')
    (hp : ∀ t, (L t).PosDef) (hD : ContinuousAt D 0) (hE : ContinuousAt E 0) (hLc : ContinuousAt L 0)
    (h1 : score w x y (B 0) = 0) (h2 : scatter w x y (B 0) = (∑ n, w n) • (L 0)⁻¹) :
    HasDerivAt (fun t => dnll w x y (B t) (L t) (D t) (E t)) (hnll w x (L 0) (D 0) (E 0) D' E') 0 := by
  set W := ∑ n, w n with hW
  have hu : ∀ t, IsUnit (L t).det := fun t => isUnit_iff_ne_zero.2 (hp t).det_pos.ne'
  have e : (fun t => dnll w x y (B t) (L t) (D t) (E t)) = fun t =>
      -(L t * (D t)ᵀ * score w x y (B t)).trace +
        0.5 * (E t * (L t)⁻¹ * (L t * scatter w x y (B t) - W • (1 : Matrix ι ι ℝ))).trace := by
    funext t
    unfold dnll
    rw [Matrix.mul_sub, Matrix.trace_sub, ← Matrix.mul_assoc, Matrix.mul_assoc (E t), nonsing_inv_mul _ (hu t),
      Matrix.mul_one, Matrix.mul_smul, Matrix.trace_smul, Matrix.mul_one, Matrix.trace_mul_comm (L t)⁻¹ (E t), smul_eq_mul]
    ring
  rw [e]
  have hinv : ContinuousAt (fun t => (L t)⁻¹) 0 := by
    have : (fun t => (L t)⁻¹) = fun t => ((L t).det)⁻¹ • (L t).adjugate := by
      funext t
      rw [Matrix.inv_def, Ring.inverse_eq_inv']
    rw [this]
    have c1 : ContinuousAt (fun t => (L t).det) 0 := (continuous_id.matrix_det).continuousAt.comp hLc
    have c2 : ContinuousAt (fun t => (L t).adjugate) 0 := (continuous_id.matrix_adjugate).continuousAt.comp hLc
    exact (c1.inv₀ (hp 0).det_pos.ne').smul c2
  have hmul : ∀ {F G : ℝ → Matrix ι ι ℝ}, ContinuousAt F 0 → ContinuousAt G 0 → ContinuousAt (fun t => F t * G t) 0 := by
    intro F G hF hG
    have : Continuous fun q : Matrix ι ι ℝ × Matrix ι ι ℝ => q.1 * q.2 := continuous_fst.matrix_mul continuous_snd
    exact this.continuousAt.comp (hF.prodMk hG)
  have hDt : ContinuousAt (fun t => (D t)ᵀ) 0 := (continuous_id.matrix_transpose).continuousAt.comp hD
  have hs := hB.score w x y
  have a1 := (hasDerivM_mul_of_zero (hmul hLc hDt) hs h1).trace
  have hS0 : HasDerivM (fun t => scatter w x y (B t)) 0 := by
    have := hB.scatter w x y
    rw [h1] at this
    simpa using this
  have hR := (hL.mul hS0).sub_const (W • (1 : Matrix ι ι ℝ))
  have hR0 : L 0 * scatter w x y (B 0) - W • (1 : Matrix ι ι ℝ) = 0 := by
    rw [h2, Matrix.mul_smul, mul_nonsing_inv _ (hu 0), sub_self]
  have a2 := (hasDerivM_mul_of_zero (hmul hE hinv) hR hR0).trace
  refine (a1.neg.add (a2.const_mul 0.5)).congr_deriv ?_
  unfold hnll
  rw [Matrix.mul_zero, add_zero, h2, Matrix.mul_smul, Matrix.mul_smul, Matrix.trace_smul, Matrix.mul_neg,
    Matrix.trace_neg, neg_neg, smul_eq_mul]

theorem hnll_symm {L : Matrix ι ι ℝ} (hL : Lᵀ = L) (D E D' E' : Matrix ι ι ℝ) :
    hnll w x L D E D' E' = hnll w x L D' E' D E := by
  unfold hnll
  congr 1
  · rw [← Matrix.trace_transpose]
    simp only [Matrix.transpose_mul, Matrix.transpose_transpose, hL, gram_symm]
    rw [Matrix.trace_mul_comm, Matrix.trace_mul_comm (L * D'ᵀ), Matrix.trace_mul_comm (gram w x * D)]
    simp only [Matrix.mul_assoc]
    rw [Matrix.trace_mul_comm]
    simp only [Matrix.mul_assoc]
  · rw [Matrix.trace_mul_comm]

theorem hnll_pos {L : Matrix ι ι ℝ} (hL : L.PosDef) (hw : 0 < ∑ n, w n) (hg : (gram w x).PosDef)
    {D E : Matrix ι ι ℝ} (hE : Eᵀ = E) (h : D ≠ 0 ∨ E ≠ 0) : 0 < hnll w x L D E D E := by
  have hui : IsUnit L.det := isUnit_iff_ne_zero.2 hL.det_pos.ne'
  obtain ⟨C, hC, hCL⟩ := exists_factor hL
  obtain ⟨G, hG, hGA⟩ := exists_factor hg
  obtain ⟨K, hK, hKL⟩ := exists_factor hL.inv
  have e1 : (L * Dᵀ * (gram w x * D)).trace = ((G * D * Cᵀ)ᵀ * (G * D * Cᵀ)).trace := by
    rw [hCL, hGA]
    simp only [Matrix.transpose_mul, Matrix.transpose_transpose, Matrix.mul_assoc]
    rw [Matrix.trace_mul_comm Cᵀ]
    simp only [Matrix.mul_assoc]
  have e2 : (E * L⁻¹ * (E * L⁻¹)).trace = ((K * E * Kᵀ)ᵀ * (K * E * Kᵀ)).trace := by
    rw [hKL]
    simp only [Matrix.transpose_mul, Matrix.transpose_transpose, Matrix.mul_assoc, hE]
    rw [Matrix.trace_mul_comm K]
    simp only [Matrix.mul_assoc]
  unfold hnll
  rw [e1, e2]
  have n1 := trace_transpose_mul_self_nonneg (G * D * Cᵀ)
  have n2 := trace_transpose_mul_self_nonneg (K * E * Kᵀ)
  have hCt : IsUnit (Cᵀ).det := by rwa [det_transpose]
  have hKt : IsUnit (Kᵀ).det := by rwa [det_transpose]
  rcases h with h | h
  · have : 0 < ((G * D * Cᵀ)ᵀ * (G * D * Cᵀ)).trace := by
      refine lt_of_le_of_ne n1 fun h0 => h ?_
      have h1 := trace_transpose_mul_self_eq_zero h0.symm
      have h2 := congrArg (fun Z => G⁻¹ * (Z * (Cᵀ)⁻¹)) h1
      simpa [Matrix.mul_assoc, mul_nonsing_inv _ hCt, nonsing_inv_mul_cancel_left _ _ hG] using h2
    have := mul_nonneg hw.le n2
    linarith
  · have : 0 < ((K * E * Kᵀ)ᵀ * (K * E * Kᵀ)).trace := by
      refine lt_of_le_of_ne n2 fun h0 => h ?_
      have h1 := trace_transpose_mul_self_eq_zero h0.symm
      have h2 := congrArg (fun Z => K⁻¹ * (Z * (Kᵀ)⁻¹)) h1
      simpa [Matrix.mul_assoc, mul_nonsing_inv _ hKt, nonsing_inv_mul_cancel_left _ _ hK] using h2
    have := mul_pos hw this
    linarith

/-! ### The weights -/

theorem score_add (w' : κ → ℝ) (β : Matrix ι ι ℝ) : score (w + w') x y β = score w x y β + score w' x y β := by
  unfold score
  have : diagonal (w + w') = diagonal w + diagonal w' := by rw [Matrix.diagonal_add]; rfl
  rw [this, Matrix.mul_add, Matrix.add_mul]

theorem score_smul (t : ℝ) (β : Matrix ι ι ℝ) : score (t • w) x y β = t • score w x y β := by
  unfold score
  rw [Matrix.diagonal_smul, Matrix.mul_smul, Matrix.smul_mul]

theorem scatter_add_weights (w' : κ → ℝ) (β : Matrix ι ι ℝ) :
    scatter (w + w') x y β = scatter w x y β + scatter w' x y β := by
  unfold scatter
  have : diagonal (w + w') = diagonal w + diagonal w' := by rw [Matrix.diagonal_add]; rfl
  rw [this, Matrix.mul_add, Matrix.add_mul]

theorem scatter_smul (t : ℝ) (β : Matrix ι ι ℝ) : scatter (t • w) x y β = t • scatter w x y β := by
  unfold scatter
  rw [Matrix.diagonal_smul, Matrix.mul_smul, Matrix.smul_mul]

theorem dnll_affine (w' : κ → ℝ) (t : ℝ) (β L D E : Matrix ι ι ℝ) :
    dnll (w + t • w') x y β L D E = dnll w x y β L D E + t * dnll w' x y β L D E := by
  unfold dnll
  rw [score_add, scatter_add_weights, score_smul, scatter_smul]
  simp only [Matrix.mul_add, Matrix.mul_smul, Matrix.trace_add, Matrix.trace_smul, smul_eq_mul, Pi.add_apply,
    Pi.smul_apply, Finset.sum_add_distrib, ← Finset.mul_sum]
  ring

/-- The response of the fit to the weights: the direction in which coefficients and precision move. -/
theorem response (w' : κ → ℝ) {β L : Matrix ι ι ℝ} (hL : L.PosDef) (hw : 0 < ∑ n, w n) (hg : (gram w x).PosDef)
    (D E : Matrix ι ι ℝ) :
    hnll w x L D E ((gram w x)⁻¹ * score w' x y β)
      ((∑ n, w n)⁻¹ • ((∑ n, w' n) • L - L * scatter w' x y β * L)) = -dnll w' x y β L D E := by
  have hu : IsUnit L.det := isUnit_iff_ne_zero.2 hL.det_pos.ne'
  have hgu : IsUnit (gram w x).det := isUnit_iff_ne_zero.2 hg.det_pos.ne'
  have e : E * L⁻¹ * (((∑ n, w n)⁻¹ • ((∑ n, w' n) • L - L * scatter w' x y β * L)) * L⁻¹) =
      (∑ n, w n)⁻¹ • ((∑ n, w' n) • (E * L⁻¹) - E * scatter w' x y β) := by
    rw [Matrix.smul_mul, Matrix.mul_smul, Matrix.sub_mul, Matrix.smul_mul, mul_nonsing_inv _ hu,
      Matrix.mul_assoc (L * scatter w' x y β), mul_nonsing_inv _ hu, Matrix.mul_one, Matrix.mul_sub, Matrix.mul_smul,
      Matrix.mul_one, Matrix.mul_assoc E, nonsing_inv_mul_cancel_left _ _ hu]
  unfold hnll dnll
  rw [e, mul_nonsing_inv_cancel_left _ _ hgu, Matrix.trace_smul, smul_eq_mul, mul_inv_cancel_left₀ hw.ne',
    Matrix.trace_sub, Matrix.trace_smul, smul_eq_mul, Matrix.trace_mul_comm L⁻¹ E]
  ring

theorem score_single (n : κ) (β : Matrix ι ι ℝ) (i j : ι) :
    score (Pi.single n 1) x y β i j = x n i * resid x y β n j := by
  unfold score
  rw [Matrix.mul_apply, Finset.sum_eq_single n]
  · simp [Matrix.mul_diagonal]
  · intro b _ hb
    simp [Matrix.mul_diagonal, hb]
  · simp

/-- **Leave-one-out.** The fits before and after the weight of observation `n` changes by `t`. -/
theorem leave_one_out (n : κ) (t : ℝ) {β β' : Matrix ι ι ℝ} (hg : (gram w x).PosDef) (h : score w x y β = 0)
    (h' : score (w + t • Pi.single n 1) x y β' = 0) (i j : ι) :
    (1 + t * ∑ a, ∑ b, x n a * (gram w x)⁻¹ a b * x n b) * (β' i j - β i j) =
      t * ∑ a, (gram w x)⁻¹ i a * x n a * resid x y β n j := by
  have hgu : IsUnit (gram w x).det := isUnit_iff_ne_zero.2 hg.det_pos.ne'
  obtain ⟨D, rfl⟩ : ∃ D, β' = β + D := ⟨β' - β, by abel⟩
  set q : ι → ℝ := fun j => ∑ a, x n a * D a j with hq
  have hr : ∀ j, resid x y (β + D) n j = resid x y β n j - q j := by
    intro j
    unfold resid
    simp only [Matrix.mul_add, Matrix.sub_apply, Matrix.add_apply, hq, Matrix.mul_apply]
    ring
  have e1 : gram w x * D = t • score (Pi.single n 1) x y (β + D) := by
    rw [score_add, score_smul] at h'
    have : score w x y (β + D) = score w x y β - gram w x * D := by
      unfold score gram resid
      rw [Matrix.mul_add]
      simp only [Matrix.mul_sub, Matrix.mul_add, Matrix.mul_assoc]
      abel
    rw [this, h, zero_sub] at h'
    exact (neg_add_eq_zero.1 h')
  have e2 : D = t • ((gram w x)⁻¹ * score (Pi.single n 1) x y (β + D)) := by
    have := congrArg ((gram w x)⁻¹ * ·) e1
    simpa [nonsing_inv_mul_cancel_left _ _ hgu] using this
  set hh := ∑ a, ∑ b, x n a * (gram w x)⁻¹ a b * x n b with hhh
  set g : ι → ℝ := fun i => ∑ a, (gram w x)⁻¹ i a * x n a with hgd
  have e3 : ∀ i j, D i j = t * (g i * (resid x y β n j - q j)) := by
    intro i j
    conv_lhs => rw [e2]
    rw [Matrix.smul_apply, smul_eq_mul, Matrix.mul_apply, hgd, Finset.sum_mul]
    congr 1
    refine Finset.sum_congr rfl fun a _ => ?_
    rw [score_single, hr]
    ring
  have e4 : q j = t * (hh * (resid x y β n j - q j)) := by
    conv_lhs => rw [hq]
    simp only [e3]
    rw [hhh, Finset.sum_mul, Finset.mul_sum]
    refine Finset.sum_congr rfl fun a _ => ?_
    rw [hgd]
    simp only [Finset.sum_mul, Finset.mul_sum]
    refine Finset.sum_congr rfl fun b _ => ?_
    ring
  have e5 : (1 + t * hh) * (resid x y β n j - q j) = resid x y β n j := by linarith
  have e6 : (β + D) i j - β i j = t * (g i * (resid x y β n j - q j)) := by
    rw [Matrix.add_apply, add_sub_cancel_left, e3]
  rw [e6, ← Finset.sum_mul]
  calc (1 + t * hh) * (t * (g i * (resid x y β n j - q j))) = t * (g i * ((1 + t * hh) * (resid x y β n j - q j))) := by ring
    _ = _ := by rw [e5]

end

end Mle

end LRVB
