import Mathlib.Analysis.Matrix.Order
import Mathlib.Analysis.SpecialFunctions.Log.Deriv
import Mathlib.LinearAlgebra.Matrix.Charpoly.Coeff
import Mathlib.Analysis.Calculus.LocalExtr.Basic
import Mathlib.Analysis.Calculus.Deriv.Polynomial

/-!
# Weighted maximum likelihood for multivariate regression

Facts about the function `½ tr(Λ S(β)) - ½ (∑ w) log det Λ`, where `S(β)` is the weighted sum of the outer
products of the residuals `y - xβ`.
-/

namespace LRVB

namespace Mle

open Matrix

noncomputable section

set_option linter.unusedSectionVars false

variable {ι κ : Type*} [Fintype ι] [DecidableEq ι] [Fintype κ] [DecidableEq κ]

/-- A positive definite matrix is `Cᵀ C` with `C` invertible. -/
theorem exists_factor {M : Matrix ι ι ℝ} (h : M.PosDef) : ∃ C : Matrix ι ι ℝ, IsUnit C.det ∧ M = Cᵀ * C := by
  open scoped MatrixOrder in
  obtain ⟨C, hC, rfl⟩ := CStarAlgebra.isStrictlyPositive_iff_eq_star_mul_self.mp h.isStrictlyPositive
  exact ⟨C, (Matrix.isUnit_iff_isUnit_det C).1 hC, by
    rw [star_eq_conjTranspose, conjTranspose_eq_transpose_of_trivial]⟩

theorem trace_transpose_mul_self_eq_zero {A : Matrix κ ι ℝ} (h : (Aᵀ * A).trace = 0) : A = 0 := by
  rw [← conjTranspose_eq_transpose_of_trivial] at h
  exact trace_conjTranspose_mul_self_eq_zero_iff.1 h

theorem trace_transpose_mul_self_nonneg (A : Matrix κ ι ℝ) : 0 ≤ (Aᵀ * A).trace := by
  have := (posSemidef_conjTranspose_mul_self A).trace_nonneg
  rwa [conjTranspose_eq_transpose_of_trivial] at this

/-- `log det P ≤ tr P - n`, with equality for the identity only. -/
theorem log_det_le {P : Matrix ι ι ℝ} (h : P.PosDef) :
    Real.log P.det ≤ P.trace - Fintype.card ι ∧ (Real.log P.det = P.trace - Fintype.card ι → P = 1) := by
  have hH := h.1
  have hpos : ∀ i, 0 < hH.eigenvalues i := h.eigenvalues_pos
  have e1 : P.det = ∏ i, hH.eigenvalues i := by
    have := hH.det_eq_prod_eigenvalues
    simpa using this
  have e2 : P.trace = ∑ i, hH.eigenvalues i := by
    have := hH.trace_eq_sum_eigenvalues
    simpa using this
  have e3 : Real.log P.det = ∑ i, Real.log (hH.eigenvalues i) := by
    rw [e1, Real.log_prod (fun i _ => (hpos i).ne')]
  have e4 : P.trace - Fintype.card ι = ∑ i, (hH.eigenvalues i - 1) := by
    rw [e2, Finset.sum_sub_distrib]
    simp
  have hle : ∀ i ∈ Finset.univ, Real.log (hH.eigenvalues i) ≤ hH.eigenvalues i - 1 :=
    fun i _ => Real.log_le_sub_one_of_pos (hpos i)
  rw [e3, e4]
  refine ⟨Finset.sum_le_sum hle, fun heq => ?_⟩
  have hall := (Finset.sum_eq_sum_iff_of_le hle).1 heq
  have hone : ∀ i, hH.eigenvalues i = 1 := by
    intro i
    by_contra hne
    exact absurd (hall i (Finset.mem_univ i)) (Real.log_lt_sub_one_of_pos (hpos i) hne).ne
  have hs := hH.spectral_theorem
  rw [hs]
  have : (RCLike.ofReal ∘ hH.eigenvalues : ι → ℝ) = 1 := by
    funext i
    simp [hone i]
  have hd : diagonal (1 : ι → ℝ) = 1 := Matrix.diagonal_one
  rw [this, hd, map_one]

/-- `det(1 + tM)` has the derivative `tr M` at 0. -/
theorem hasDerivAt_det (M : Matrix ι ι ℝ) : HasDerivAt (fun t : ℝ => (1 + t • M).det) M.trace 0 := by
  set q := (det (1 + (Polynomial.X : Polynomial ℝ) • M.map Polynomial.C)).divX.divX with hq
  have h : (fun t : ℝ => (1 + t • M).det) = fun t => 1 + M.trace * t + q.eval t * t ^ 2 := by
    funext t
    exact Matrix.det_one_add_smul t M
  rw [h]
  have h1 : HasDerivAt (fun t : ℝ => 1 + M.trace * t) M.trace 0 := by
    simpa using ((hasDerivAt_id (0 : ℝ)).const_mul M.trace).const_add 1
  have h2 := (q.hasDerivAt (0 : ℝ)).mul (hasDerivAt_pow 2 (0 : ℝ))
  refine (h1.add h2).congr_deriv ?_
  simp

/-- The derivative of the log determinant. -/
theorem hasDerivAt_log_det {L : Matrix ι ι ℝ} (h : L.PosDef) (E : Matrix ι ι ℝ) :
    HasDerivAt (fun t : ℝ => Real.log (L + t • E).det) (L⁻¹ * E).trace 0 := by
  have hu : IsUnit L.det := isUnit_iff_ne_zero.2 h.det_pos.ne'
  have hd : (fun t : ℝ => (L + t • E).det) = fun t => L.det * (1 + t • (L⁻¹ * E)).det := by
    funext t
    rw [← det_mul, mul_add, mul_one, Matrix.mul_smul, ← Matrix.mul_assoc, mul_nonsing_inv _ hu, Matrix.one_mul]
  have h1 : HasDerivAt (fun t : ℝ => (L + t • E).det) (L.det * (L⁻¹ * E).trace) 0 := by
    rw [hd]
    exact (hasDerivAt_det _).const_mul _
  have h2 := h1.log (by simpa using h.det_pos.ne')
  have : L.det * (L⁻¹ * E).trace / (L + (0 : ℝ) • E).det = (L⁻¹ * E).trace := by
    rw [zero_smul, add_zero]
    field_simp [h.det_pos.ne']
  rwa [this] at h2

variable (w : κ → ℝ) (x : Matrix κ ι ℝ) (y : Matrix κ ι ℝ)

/-- The residuals. -/
def resid (β : Matrix ι ι ℝ) : Matrix κ ι ℝ := y - x * β

/-- The weighted sum of the outer products of the residuals. -/
def scatter (β : Matrix ι ι ℝ) : Matrix ι ι ℝ := (resid x y β)ᵀ * diagonal w * resid x y β

/-- The gradient in `β`, up to the factor `-Λ`. -/
def score (β : Matrix ι ι ℝ) : Matrix ι ι ℝ := xᵀ * diagonal w * resid x y β

/-- The weighted Gram matrix of the regressors. -/
def gram : Matrix ι ι ℝ := xᵀ * diagonal w * x

/-- The negative log likelihood, without the constant. -/
def nll (β L : Matrix ι ι ℝ) : ℝ := 0.5 * (L * scatter w x y β).trace - 0.5 * (∑ n, w n) * Real.log L.det

theorem scatter_add (β D : Matrix ι ι ℝ) :
    scatter w x y (β + D) = scatter w x y β - ((score w x y β)ᵀ * D + Dᵀ * score w x y β) + Dᵀ * gram w x * D := by
  have hr : resid x y (β + D) = resid x y β - x * D := by
    unfold resid
    rw [Matrix.mul_add]
    abel
  unfold scatter score gram
  rw [hr]
  simp only [Matrix.transpose_sub, Matrix.transpose_mul, Matrix.sub_mul, Matrix.mul_sub, Matrix.diagonal_transpose,
    Matrix.transpose_transpose, Matrix.mul_assoc]
  abel

theorem scatter_symm (β : Matrix ι ι ℝ) : (scatter w x y β)ᵀ = scatter w x y β := by
  unfold scatter
  simp [Matrix.transpose_mul, Matrix.mul_assoc]

theorem gram_symm : (gram w x)ᵀ = gram w x := by
  unfold gram
  simp [Matrix.transpose_mul, Matrix.mul_assoc]

theorem trace_cross (L D M : Matrix ι ι ℝ) (hL : Lᵀ = L) :
    (L * (Mᵀ * D + Dᵀ * M)).trace = 2 * (L * (Dᵀ * M)).trace := by
  have : (L * (Mᵀ * D)).trace = (L * (Dᵀ * M)).trace := by
    rw [← Matrix.trace_transpose]
    simp only [Matrix.transpose_mul, Matrix.transpose_transpose, hL]
    rw [Matrix.trace_mul_comm]
  rw [Matrix.mul_add, Matrix.trace_add, this]
  ring

theorem symm_of_posDef {L : Matrix ι ι ℝ} (h : L.PosDef) : Lᵀ = L := by
  have := h.1
  rwa [Matrix.IsHermitian, conjTranspose_eq_transpose_of_trivial] at this

theorem nll_add (β D L : Matrix ι ι ℝ) (hL : Lᵀ = L) :
    nll w x y (β + D) L = nll w x y β L - (L * (Dᵀ * score w x y β)).trace + 0.5 * (L * (Dᵀ * gram w x * D)).trace := by
  unfold nll
  rw [scatter_add, Matrix.mul_add, Matrix.mul_sub, Matrix.trace_add, Matrix.trace_sub, trace_cross _ _ _ hL]
  ring

/-- A function that is at most its value nearby along a line with a derivative has derivative 0. -/
theorem deriv_zero {f : ℝ → ℝ} {f' : ℝ} (h : HasDerivAt f f' 0) {ε : ℝ} (hε : 0 < ε)
    (hm : ∀ t, |t| < ε → f 0 ≤ f t) : f' = 0 := by
  have : IsLocalMin f 0 := by
    refine Filter.mem_of_superset (Metric.ball_mem_nhds 0 hε) fun t ht => hm t ?_
    simpa [Metric.mem_ball, Real.dist_eq] using ht
  exact this.hasDerivAt_eq_zero h

/-- At a local minimum the weighted normal equations hold, and the covariance is that of the residuals. -/
theorem stationary {β L : Matrix ι ι ℝ} (hL : L.PosDef) {ε : ℝ} (hε : 0 < ε)
    (hm : ∀ β' L' : Matrix ι ι ℝ, (∀ i j, |β' i j - β i j| < ε) → (∀ i j, |L' i j - L i j| < ε) → L'ᵀ = L' →
      nll w x y β L ≤ nll w x y β' L') :
    score w x y β = 0 ∧ scatter w x y β = (∑ n, w n) • L⁻¹ := by
  have hLs := symm_of_posDef hL
  have small : ∀ E : Matrix ι ι ℝ, ∃ δ > 0, ∀ t : ℝ, |t| < δ → ∀ i j, |t * E i j| < ε := by
    intro E
    set K := ∑ i, ∑ j, |E i j| with hK
    have hK0 : 0 ≤ K := Finset.sum_nonneg fun i _ => Finset.sum_nonneg fun j _ => abs_nonneg _
    refine ⟨ε / (K + 1), by positivity, fun t ht i j => ?_⟩
    have hE : |E i j| ≤ K :=
      (Finset.single_le_sum (f := fun j => |E i j|) (fun j _ => abs_nonneg _) (Finset.mem_univ j)).trans
        (Finset.single_le_sum (f := fun i => ∑ j, |E i j|)
          (fun i _ => Finset.sum_nonneg fun j _ => abs_nonneg _) (Finset.mem_univ i))
    rw [abs_mul]
    calc |t| * |E i j| ≤ |t| * (K + 1) := mul_le_mul_of_nonneg_left (by linarith) (abs_nonneg t)
      _ < ε / (K + 1) * (K + 1) := mul_lt_mul_of_pos_right ht (by linarith)
      _ = ε := by field_simp
  constructor
  · set M := score w x y β with hM
    obtain ⟨δ, hδ, hs⟩ := small M
    have hd : HasDerivAt (fun t : ℝ => nll w x y (β + t • M) L) (-(L * (Mᵀ * M)).trace) 0 := by
      have : (fun t : ℝ => nll w x y (β + t • M) L) = fun t =>
          nll w x y β L - t * (L * (Mᵀ * M)).trace + t ^ 2 * (0.5 * (L * (Mᵀ * gram w x * M)).trace) := by
        funext t
        rw [nll_add _ _ _ _ _ _ hLs, ← hM]
        simp only [Matrix.transpose_smul, Matrix.smul_mul, Matrix.mul_smul, Matrix.trace_smul, smul_eq_mul]
        ring
      rw [this]
      have h1 := ((hasDerivAt_id (0 : ℝ)).mul_const ((L * (Mᵀ * M)).trace)).const_sub (nll w x y β L)
      have h2 := (hasDerivAt_pow 2 (0 : ℝ)).mul_const (0.5 * (L * (Mᵀ * gram w x * M)).trace)
      refine (h1.add h2).congr_deriv ?_
      simp
    have h0 := deriv_zero hd hδ (fun t ht => by
      rw [zero_smul, add_zero]
      exact hm _ _ (fun i j => by simpa using hs t ht i j) (fun i j => by simpa using hε) hLs)
    obtain ⟨C, hC, rfl⟩ := exists_factor hL
    have h3 : ((C * Mᵀ)ᵀ * (C * Mᵀ)).trace = 0 := by
      have : (C * Mᵀ)ᵀ * (C * Mᵀ) = M * (Cᵀ * C * Mᵀ) := by
        simp [Matrix.transpose_mul, Matrix.mul_assoc]
      rw [this, Matrix.trace_mul_comm, Matrix.mul_assoc]
      linarith
    have h4 := trace_transpose_mul_self_eq_zero h3
    have h5 : Mᵀ = 0 := by
      have := congrArg (C⁻¹ * ·) h4
      simpa [← Matrix.mul_assoc, nonsing_inv_mul _ hC] using this
    simpa using congrArg Matrix.transpose h5
  · set E := scatter w x y β - (∑ n, w n) • L⁻¹ with hE
    have hEs : Eᵀ = E := by
      rw [hE, Matrix.transpose_sub, scatter_symm, Matrix.transpose_smul, Matrix.transpose_nonsing_inv, hLs]
    obtain ⟨δ, hδ, hs⟩ := small E
    have hd : HasDerivAt (fun t : ℝ => nll w x y β (L + t • E))
        (0.5 * (E * scatter w x y β).trace - 0.5 * (∑ n, w n) * (L⁻¹ * E).trace) 0 := by
      unfold nll
      refine HasDerivAt.sub ?_ ((hasDerivAt_log_det hL E).const_mul _)
      refine HasDerivAt.const_mul _ ?_
      have : (fun t : ℝ => ((L + t • E) * scatter w x y β).trace) = fun t =>
          (L * scatter w x y β).trace + t * (E * scatter w x y β).trace := by
        funext t
        rw [Matrix.add_mul, Matrix.trace_add, Matrix.smul_mul, Matrix.trace_smul, smul_eq_mul]
      rw [this]
      simpa using ((hasDerivAt_id (0 : ℝ)).mul_const ((E * scatter w x y β).trace)).const_add
        ((L * scatter w x y β).trace)
    have h0 := deriv_zero hd hδ (fun t ht => by
      rw [zero_smul, add_zero]
      exact hm _ _ (fun i j => by simpa using hε) (fun i j => by simpa using hs t ht i j)
        (by rw [Matrix.transpose_add, hLs, Matrix.transpose_smul, hEs]))
    have h1 : (Eᵀ * E).trace = 0 := by
      have : (Eᵀ * E).trace = (E * scatter w x y β).trace - (∑ n, w n) * (L⁻¹ * E).trace := by
        rw [hEs]
        conv_lhs => rw [hE]
        rw [← hE, Matrix.mul_sub, Matrix.trace_sub, Matrix.mul_smul, Matrix.trace_smul, smul_eq_mul,
          Matrix.trace_mul_comm E L⁻¹]
      rw [this]
      linarith
    have h2 := trace_transpose_mul_self_eq_zero h1
    exact sub_eq_zero.1 h2

/-- The likelihood equations determine the global minimum, and it is unique. -/
theorem global {β L : Matrix ι ι ℝ} (hL : L.PosDef) (hw : ∀ n, 0 ≤ w n) (h1 : score w x y β = 0)
    (h2 : scatter w x y β = (∑ n, w n) • L⁻¹) (β' L' : Matrix ι ι ℝ) (hL' : L'.PosDef) :
    nll w x y β L ≤ nll w x y β' L' ∧
      ((gram w x).PosDef → nll w x y β' L' = nll w x y β L → β' = β ∧ L' = L) := by
  set W := ∑ n, w n with hW
  have hW0 : 0 ≤ W := Finset.sum_nonneg fun n _ => hw n
  obtain ⟨D, rfl⟩ : ∃ D, β' = β + D := ⟨β' - β, by abel⟩
  have hu : IsUnit L.det := isUnit_iff_ne_zero.2 hL.det_pos.ne'
  -- the quadratic part
  set Q := (L' * (Dᵀ * gram w x * D)).trace with hQ
  obtain ⟨C, hC, hCL⟩ := exists_factor hL'
  have hroot : gram w x = (diagonal (fun n => √(w n)) * x)ᵀ * (diagonal (fun n => √(w n)) * x) := by
    have : diagonal w = diagonal (fun n => √(w n)) * diagonal (fun n => √(w n)) := by
      rw [Matrix.diagonal_mul_diagonal]
      congr 1
      funext n
      exact (Real.mul_self_sqrt (hw n)).symm
    unfold gram
    rw [this, Matrix.transpose_mul, Matrix.diagonal_transpose]
    simp only [Matrix.mul_assoc]
  set Y := diagonal (fun n => √(w n)) * x * D * Cᵀ with hY
  have hQY : Q = (Yᵀ * Y).trace := by
    rw [hQ, hCL, hroot, hY]
    simp only [Matrix.transpose_mul, Matrix.transpose_transpose]
    rw [Matrix.mul_assoc Cᵀ C, Matrix.trace_mul_comm Cᵀ]
    simp only [Matrix.mul_assoc]
  have hQ0 : 0 ≤ Q := by
    rw [hQY]
    exact trace_transpose_mul_self_nonneg Y
  -- the part with the determinant
  obtain ⟨B, hB, hBL⟩ := exists_factor hL.inv
  set P := B * L' * Bᵀ with hP
  have hPd : P.PosDef := by
    have := hL'.mul_mul_conjTranspose_same (B := B) (by
      have : IsUnit B := (Matrix.isUnit_iff_isUnit_det B).2 hB
      exact Matrix.vecMul_injective_of_isUnit this)
    rwa [conjTranspose_eq_transpose_of_trivial] at this
  have hPt : P.trace = (L' * L⁻¹).trace := by
    rw [hP, hBL, Matrix.mul_assoc, Matrix.trace_mul_comm, Matrix.mul_assoc]
  have hdet : P.det = L'.det * L.det⁻¹ := by
    have h3 : L⁻¹.det = B.det * B.det := by
      rw [hBL, det_mul, det_transpose]
    have h4 : L⁻¹.det = L.det⁻¹ := by
      rw [Matrix.det_nonsing_inv, Ring.inverse_eq_inv']
    rw [hP, det_mul, det_mul, det_transpose, ← h4, h3]
    ring
  have hlog : Real.log P.det = Real.log L'.det - Real.log L.det := by
    rw [hdet, Real.log_mul hL'.det_pos.ne' (inv_ne_zero hL.det_pos.ne'), Real.log_inv]
    ring
  obtain ⟨hle, heq⟩ := log_det_le hPd
  rw [hlog, hPt] at hle heq
  have e1 : nll w x y β L = 0.5 * (W * Fintype.card ι) - 0.5 * W * Real.log L.det := by
    unfold nll
    rw [h2, Matrix.mul_smul, mul_nonsing_inv _ hu, Matrix.trace_smul, Matrix.trace_one, smul_eq_mul]
  have e2 : nll w x y (β + D) L' = 0.5 * (W * (L' * L⁻¹).trace) - 0.5 * W * Real.log L'.det + 0.5 * Q := by
    rw [nll_add _ _ _ _ _ _ (symm_of_posDef hL'), h1]
    unfold nll
    rw [h2, Matrix.mul_smul, Matrix.trace_smul, smul_eq_mul, Matrix.mul_zero, Matrix.mul_zero, Matrix.trace_zero,
      ← hQ, ← hW]
    ring
  have e3 : nll w x y (β + D) L' - nll w x y β L =
      0.5 * (W * ((L' * L⁻¹).trace - Fintype.card ι - (Real.log L'.det - Real.log L.det))) + 0.5 * Q := by
    rw [e1, e2]
    ring
  have hp := mul_nonneg hW0 (show 0 ≤ (L' * L⁻¹).trace - Fintype.card ι - (Real.log L'.det - Real.log L.det) by linarith)
  refine ⟨by linarith, fun hg he => ?_⟩
  rw [he, sub_self] at e3
  have hq : Q = 0 := by linarith
  have hY0 := trace_transpose_mul_self_eq_zero (hQY ▸ hq)
  have hz : diagonal (fun n => √(w n)) * x * D = 0 := by
    have hCt : IsUnit (Cᵀ).det := by rwa [det_transpose]
    have := congrArg (· * (Cᵀ)⁻¹) hY0
    simpa [hY, Matrix.mul_assoc, mul_nonsing_inv _ hCt] using this
  have hD : D = 0 := by
    have hgu : IsUnit (gram w x).det := isUnit_iff_ne_zero.2 hg.det_pos.ne'
    have : gram w x * D = 0 := by
      rw [hroot, Matrix.mul_assoc, hz, Matrix.mul_zero]
    have := congrArg ((gram w x)⁻¹ * ·) this
    simpa [← Matrix.mul_assoc, nonsing_inv_mul _ hgu] using this
  refine ⟨by rw [hD, add_zero], ?_⟩
  rcases hW0.eq_or_lt with hW00 | hWp
  · have hw00 : w = 0 := by
      funext n
      exact (Finset.sum_eq_zero_iff_of_nonneg (fun n _ => hw n)).1 (hW ▸ hW00.symm) n (Finset.mem_univ n)
    have hg0 : gram w x = 0 := by
      unfold gram
      rw [hw00]
      simp
    rw [hg0] at hg
    rcases isEmpty_or_nonempty ι with hι | hι
    · ext i
      exact (hι.false i).elim
    · have := hg.det_pos
      simp at this
  · have h5 : (L' * L⁻¹).trace - Fintype.card ι - (Real.log L'.det - Real.log L.det) = 0 := by
      have : W * ((L' * L⁻¹).trace - Fintype.card ι - (Real.log L'.det - Real.log L.det)) = 0 := by linarith
      rcases mul_eq_zero.1 this with h | h
      · exact absurd h hWp.ne'
      · exact h
    have h6 : P = 1 := heq (by linarith)
    have hBt : IsUnit (Bᵀ).det := by rwa [det_transpose]
    have h7 : L' = B⁻¹ * (Bᵀ)⁻¹ := by
      have := congrArg (fun Z => B⁻¹ * Z * (Bᵀ)⁻¹) h6
      simpa [hP, Matrix.mul_assoc, mul_nonsing_inv _ hBt, nonsing_inv_mul_cancel_left _ _ hB] using this
    have h8 : L = B⁻¹ * (Bᵀ)⁻¹ := by
      rw [← nonsing_inv_nonsing_inv L hu, hBL, Matrix.mul_inv_rev]
    rw [h7, h8]

end

end Mle

end LRVB
