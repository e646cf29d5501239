import Verif.Lemmas.SymMat
import Verif.Lemmas.MvnDensity

/-!
# Integrals over positive definite matrices, one row at a time
-/

namespace LRVB

open MeasureTheory ProbabilityTheory Matrix

noncomputable section

variable {ι : Type*} [Fintype ι] [DecidableEq ι]

/-! ### Algebra of a matrix with one more row -/

omit [Fintype ι] [DecidableEq ι] in
theorem border_eq (a : ℝ) (b : ι → ℝ) (C : Matrix ι ι ℝ) :
    border a b C = fromBlocks (of fun _ _ : Unit => a) (of fun (_ : Unit) j => b j)
      (of fun (_ : Unit) j => b j)ᴴ C := by
  unfold border
  congr 1

omit [DecidableEq ι] in
theorem schur_eq (a : ℝ) (b : ι → ℝ) (M : Matrix ι ι ℝ) :
    (of fun _ _ : Unit => a) - (of fun (_ : Unit) j => b j) * M * (of fun (_ : Unit) j => b j)ᴴ =
      of fun _ _ : Unit => a - b ⬝ᵥ (M *ᵥ b) := by
  ext i j
  simp only [Matrix.sub_apply, of_apply, mul_apply, conjTranspose_apply, star_trivial, dotProduct, mulVec]
  congr 1
  simp only [Finset.sum_mul, Finset.mul_sum]
  rw [Finset.sum_comm]
  exact Finset.sum_congr rfl fun i _ => Finset.sum_congr rfl fun j _ => by ring

theorem det_border (a : ℝ) (b : ι → ℝ) {C : Matrix ι ι ℝ} (hC : C.det ≠ 0) :
    (border a b C).det = (a - b ⬝ᵥ (C⁻¹ *ᵥ b)) * C.det := by
  have := invertibleOfIsUnitDet C (isUnit_iff_ne_zero.2 hC)
  rw [border_eq, det_fromBlocks₂₂, invOf_eq_nonsing_inv, schur_eq, mul_comm]
  simp

theorem posDef_border (a : ℝ) (b : ι → ℝ) (C : Matrix ι ι ℝ) :
    (border a b C).PosDef ↔ C.PosDef ∧ 0 < a - b ⬝ᵥ (C⁻¹ *ᵥ b) := by
  constructor
  · intro h
    have hC : C.PosDef := by
      have := h.submatrix (e := Sum.inr) Sum.inr_injective
      exact this
    refine ⟨hC, ?_⟩
    have := h.det_pos
    rw [det_border _ _ hC.det_pos.ne'] at this
    exact (pos_iff_pos_of_mul_pos this).2 hC.det_pos
  · rintro ⟨hC, h⟩
    have := invertibleOfIsUnitDet C (isUnit_iff_ne_zero.2 hC.det_pos.ne')
    have hp : (border a b C).PosSemidef := by
      rw [border_eq, PosDef.fromBlocks₂₂ _ _ hC, schur_eq]
      refine .of_dotProduct_mulVec_nonneg ?_ fun x => ?_
      · ext; simp
      · simp only [dotProduct, mulVec, of_apply, Finset.univ_unique, Finset.sum_singleton]
        have := mul_nonneg h.le (mul_self_nonneg (x ()))
        simp only [dotProduct, mulVec] at this
        simp
        linarith
    refine hp.posDef_iff_det_ne_zero.2 ?_
    rw [det_border _ _ hC.det_pos.ne']
    exact (mul_pos h hC.det_pos).ne'

omit [DecidableEq ι] in
theorem trace_blocks (A : Matrix Unit Unit ℝ) (B : Matrix Unit ι ℝ) (C : Matrix ι Unit ℝ)
    (D : Matrix ι ι ℝ) : (fromBlocks A B C D).trace = A.trace + D.trace := by
  simp [trace]

omit [DecidableEq ι] in
theorem trace_border (w : ℝ) (u : ι → ℝ) (U : Matrix ι ι ℝ) (a : ℝ) (b : ι → ℝ) (C : Matrix ι ι ℝ) :
    (border w u U * border a b C).trace = w * a + 2 * (u ⬝ᵥ b) + (U * C).trace := by
  unfold border
  rw [fromBlocks_multiply, trace_blocks, trace_add, trace_add]
  have h1 : (of (fun _ _ : Unit => w) * of fun _ _ : Unit => a).trace = w * a := by
    simp [trace, mul_apply]
  have h2 : ((of fun (_ : Unit) j => u j) * of fun i (_ : Unit) => b i).trace = u ⬝ᵥ b := by
    simp [trace, mul_apply, dotProduct]
  have h3 : ((of fun i (_ : Unit) => u i) * of fun (_ : Unit) j => b j).trace = u ⬝ᵥ b := by
    simp [trace, mul_apply, dotProduct]
  rw [h1, h2, h3]
  ring

/-- What remains of the parameter matrix when one row is integrated out. -/
def rest (w : ℝ) (u : ι → ℝ) (U : Matrix ι ι ℝ) : Matrix ι ι ℝ := U - w⁻¹ • vecMulVec u u

theorem rest_posDef {w : ℝ} {u : ι → ℝ} {U : Matrix ι ι ℝ} (h : (border w u U).PosDef) :
    0 < w ∧ (rest w u U).PosDef ∧ (border w u U).det = w * (rest w u U).det := by
  have hA : (of fun _ _ : Unit => w).PosDef := h.submatrix (e := Sum.inl) Sum.inl_injective
  have hw : 0 < w := by
    have := hA.diag_pos (i := ())
    simpa using this
  have := invertibleOfIsUnitDet (of fun _ _ : Unit => w) (isUnit_iff_ne_zero.2 hA.det_pos.ne')
  have hinv : (of fun _ _ : Unit => w)⁻¹ = of fun _ _ : Unit => w⁻¹ := by
    refine inv_eq_left_inv ?_
    ext i j
    simp [mul_apply, hw.ne']
  have hr : U - (of fun (_ : Unit) j => u j)ᴴ * (of fun _ _ : Unit => w)⁻¹ *
      (of fun (_ : Unit) j => u j) = rest w u U := by
    rw [hinv]
    ext i j
    simp [rest, mul_apply, vecMulVec_apply]
    ring
  have hdet : (border w u U).det = w * (rest w u U).det := by
    rw [border_eq, det_fromBlocks₁₁, invOf_eq_nonsing_inv, hr]
    simp
  refine ⟨hw, ?_, hdet⟩
  have hp : (rest w u U).PosSemidef := by
    rw [← hr, ← PosDef.fromBlocks₁₁ _ _ hA, ← border_eq]
    exact h.posSemidef
  refine hp.posDef_iff_det_ne_zero.2 fun h0 => ?_
  have := h.det_pos
  rw [hdet, h0, mul_zero] at this
  exact lt_irrefl _ this

omit [DecidableEq ι] in
theorem trace_rest (w : ℝ) (u : ι → ℝ) (U C : Matrix ι ι ℝ) :
    (rest w u U * C).trace = (U * C).trace - w⁻¹ * (u ⬝ᵥ (C *ᵥ u)) := by
  unfold rest
  rw [sub_mul, trace_sub, smul_mul, trace_smul, smul_eq_mul]
  congr 2
  simp only [trace, diag_apply, mul_apply, vecMulVec_apply, dotProduct, mulVec, Finset.mul_sum]
  rw [Finset.sum_comm]
  exact Finset.sum_congr rfl fun i _ => Finset.sum_congr rfl fun j _ => by ring

/-! ### The Gaussian integral over the row -/

omit [DecidableEq ι] in
theorem sum_quad_form (L : Matrix ι ι ℝ) (x : ι → ℝ) :
    ∑ j, ∑ k, x j * L j k * x k = x ⬝ᵥ (L *ᵥ x) := by
  simp only [dotProduct, mulVec, Finset.mul_sum, mul_assoc]

theorem lintegral_gauss {L : Matrix ι ι ℝ} (hL : L.PosDef) (u : ι → ℝ) :
    ∫⁻ b : ι → ℝ, ENNReal.ofReal (Real.exp (-(b ⬝ᵥ (L *ᵥ b) + 2 * (u ⬝ᵥ b)))) =
      ENNReal.ofReal (√Real.pi ^ Fintype.card ι / √L.det * Real.exp (u ⬝ᵥ (L⁻¹ *ᵥ u))) := by
  have hd := hL.det_pos
  have h2L : ((2 : ℝ) • L).PosDef := hL.smul two_pos
  set m : ι → ℝ := -(L⁻¹ *ᵥ u) with hm
  have hT : Lᵀ = L := by
    have := hL.1
    rwa [IsHermitian, conjTranspose_eq_transpose_of_trivial] at this
  have hLL : L * L⁻¹ = 1 := mul_nonsing_inv _ (isUnit_iff_ne_zero.2 hd.ne')
  have h1 := multivariateGaussian_density (WithLp.toLp 2 m) h2L
  have h2 : multivariateGaussian (WithLp.toLp 2 m) ((2 : ℝ) • L)⁻¹ Set.univ = 1 := measure_univ
  rw [h1, withDensity_apply _ .univ, setLIntegral_univ] at h2
  rw [← (PiLp.volume_preserving_toLp ι).lintegral_comp (by fun_prop)] at h2
  have quad : ∀ b : ι → ℝ, (∑ j, ∑ k, (b j - m j) * ((2 : ℝ) • L) j k * (b k - m k)) / 2 =
      b ⬝ᵥ (L *ᵥ b) + 2 * (u ⬝ᵥ b) + u ⬝ᵥ (L⁻¹ *ᵥ u) := by
    intro b
    have e1 := sum_quad_form ((2 : ℝ) • L) (b - m)
    simp only [Pi.sub_apply] at e1
    rw [e1, smul_mulVec, dotProduct_smul, smul_eq_mul, mul_div_cancel_left₀ _ two_ne_zero]
    have e2 : L *ᵥ m = -u := by
      rw [hm, mulVec_neg, mulVec_mulVec, hLL, one_mulVec]
    rw [mulVec_sub, e2, sub_dotProduct, dotProduct_sub, dotProduct_sub]
    have e3 : m ⬝ᵥ (L *ᵥ b) = -(u ⬝ᵥ b) := by
      rw [dotProduct_mulVec, ← mulVec_transpose, hT, e2, neg_dotProduct]
    rw [e3, dotProduct_neg, dotProduct_neg, hm, neg_dotProduct, dotProduct_comm b u,
      dotProduct_comm _ u]
    ring
  have hdet : √((2 : ℝ) • L).det = √2 ^ Fintype.card ι * √L.det := by
    rw [det_smul, Real.sqrt_mul (by positivity)]
    congr 1
    rw [Real.sqrt_eq_rpow, Real.sqrt_eq_rpow, ← Real.rpow_natCast, ← Real.rpow_natCast,
      ← Real.rpow_mul (by norm_num), ← Real.rpow_mul (by norm_num), mul_comm]
  have hpi : 0 < √Real.pi := Real.sqrt_pos.2 Real.pi_pos
  have key : ∀ b : ι → ℝ, ENNReal.ofReal (√((2 : ℝ) • L).det / √(2 * Real.pi) ^ Fintype.card ι *
      Real.exp (-(∑ j, ∑ k, (b j - m j) * ((2 : ℝ) • L) j k * (b k - m k)) / 2)) =
      ENNReal.ofReal (√L.det / √Real.pi ^ Fintype.card ι * Real.exp (-(u ⬝ᵥ (L⁻¹ *ᵥ u)))) *
        ENNReal.ofReal (Real.exp (-(b ⬝ᵥ (L *ᵥ b) + 2 * (u ⬝ᵥ b)))) := by
    intro b
    rw [← ENNReal.ofReal_mul (by positivity), neg_div, quad, hdet, Real.sqrt_mul (by norm_num),
      mul_pow, mul_assoc (√L.det / _), ← Real.exp_add]
    congr 1
    have : √2 ^ Fintype.card ι ≠ 0 := by positivity
    rw [mul_div_mul_left _ _ this]
    congr 2
    ring
  have h3 : ∫⁻ b : ι → ℝ, ENNReal.ofReal (√((2 : ℝ) • L).det / √(2 * Real.pi) ^ Fintype.card ι *
      Real.exp (-(∑ j, ∑ k, (b j - m j) * ((2 : ℝ) • L) j k * (b k - m k)) / 2)) = 1 := h2
  simp only [key] at h3
  rw [lintegral_const_mul' _ _ ENNReal.ofReal_ne_top] at h3
  have hpos : 0 < √L.det / √Real.pi ^ Fintype.card ι * Real.exp (-(u ⬝ᵥ (L⁻¹ *ᵥ u))) := by
    positivity
  rw [mul_comm] at h3
  rw [ENNReal.eq_inv_of_mul_eq_one_left h3, ← ENNReal.ofReal_inv_of_pos hpos]
  congr 1
  rw [mul_inv, inv_div, ← Real.exp_neg, neg_neg]

end

end LRVB
