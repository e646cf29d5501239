import Verif.Lemmas.WishartMoments
import Mathlib.MeasureTheory.Measure.Lebesgue.EqHaar
import Mathlib.LinearAlgebra.Matrix.Transvection

/-!
# Linear images of a Wishart matrix, and the mean of its inverse
-/

namespace LRVB

open MeasureTheory ProbabilityTheory Matrix Set

noncomputable section

variable {ι : Type*} [Fintype ι] [DecidableEq ι]

omit [DecidableEq ι] in
theorem congr_symm (B : Matrix ι ι ℝ) (z : Sym2 ι → ℝ) (i j : ι) :
    (B * symmMat z * Bᵀ) i j = (B * symmMat z * Bᵀ) j i := by
  have h : (B * symmMat z * Bᵀ)ᵀ = B * symmMat z * Bᵀ := by
    have := symmMat_isHermitian z
    rw [IsHermitian, conjTranspose_eq_transpose_of_trivial] at this
    rw [transpose_mul, transpose_mul, transpose_transpose, this, Matrix.mul_assoc]
  exact (congrFun (congrFun h j) i).symm ▸ rfl

/-- `X ↦ B X Bᵀ` on symmetric matrices. -/
def congrMap (B : Matrix ι ι ℝ) : (Sym2 ι → ℝ) →ₗ[ℝ] (Sym2 ι → ℝ) where
  toFun z := Sym2.lift ⟨fun i j => (B * symmMat z * Bᵀ) i j, congr_symm B z⟩
  map_add' z w := by
    funext p
    induction p using Sym2.ind with
    | _ i j =>
      have : symmMat (z + w) = symmMat z + symmMat w := rfl
      simp [this, Matrix.mul_add, Matrix.add_mul]
  map_smul' c z := by
    funext p
    induction p using Sym2.ind with
    | _ i j =>
      have : symmMat (c • z) = c • symmMat z := rfl
      simp [this]

theorem symmMat_congrMap (B : Matrix ι ι ℝ) (z : Sym2 ι → ℝ) :
    symmMat (congrMap B z) = B * symmMat z * Bᵀ := by
  ext i j
  rfl

omit [Fintype ι] [DecidableEq ι] in
theorem symmMat_injective : Function.Injective (symmMat : (Sym2 ι → ℝ) → Matrix ι ι ℝ) := by
  intro z w h
  funext p
  induction p using Sym2.ind with
  | _ i j => exact congrFun (congrFun h i) j

theorem congrMap_comp (B C : Matrix ι ι ℝ) : congrMap B ∘ₗ congrMap C = congrMap (B * C) := by
  refine LinearMap.ext fun z => symmMat_injective ?_
  rw [LinearMap.comp_apply, symmMat_congrMap, symmMat_congrMap, symmMat_congrMap, transpose_mul]
  simp only [Matrix.mul_assoc]

theorem congrMap_one : congrMap (1 : Matrix ι ι ℝ) = LinearMap.id := by
  refine LinearMap.ext fun z => symmMat_injective ?_
  rw [symmMat_congrMap]
  simp

theorem congrMap_det {B C : Matrix ι ι ℝ} (h : B * C = 1) : LinearMap.det (congrMap B) ≠ 0 := by
  intro h0
  have := congrArg LinearMap.det (congrMap_comp B C)
  rw [h, congrMap_one, LinearMap.det_comp, h0, LinearMap.det_id, zero_mul] at this
  exact zero_ne_one this

theorem measurable_congrMap (B : Matrix ι ι ℝ) : Measurable (congrMap B) :=
  (LinearMap.continuous_of_finiteDimensional _).measurable

theorem lintegral_congrMap {B C : Matrix ι ι ℝ} (h : B * C = 1) {F : (Sym2 ι → ℝ) → ENNReal}
    (hF : Measurable F) :
    ∫⁻ z, F (congrMap B z) = ENNReal.ofReal |(LinearMap.det (congrMap B))⁻¹| * ∫⁻ z, F z := by
  rw [← lintegral_map hF (measurable_congrMap B),
    Measure.map_linearMap_addHaar_eq_smul_addHaar _ (congrMap_det h), lintegral_smul_measure,
    smul_eq_mul]

theorem kern_congr (s : ℝ) (W X : Matrix ι ι ℝ) {B C : Matrix ι ι ℝ} (h : B * C = 1) :
    kern s W (B * X * Bᵀ) =
      (B.det ^ 2) ^ (s - ((Fintype.card ι : ℝ) + 1) / 2) * kern s (Bᵀ * W * B) X := by
  have h' : C * B = 1 := mul_eq_one_comm.1 h
  have hp : ∀ {D E : Matrix ι ι ℝ}, D * E = 1 → ∀ {Y : Matrix ι ι ℝ}, Y.PosDef → (D * Y * Dᵀ).PosDef := by
    intro D E hDE Y hY
    have hu : IsUnit D := IsUnit.of_mul_eq_one _ hDE
    have := (Matrix.IsUnit.posDef_star_right_conjugate_iff (x := Y) hu).2 hY
    rwa [star_eq_conjTranspose, conjTranspose_eq_transpose_of_trivial] at this
  have hiff : (B * X * Bᵀ).PosDef ↔ X.PosDef := by
    refine ⟨fun hX => ?_, hp h⟩
    have := hp h' hX
    have e : C * (B * X * Bᵀ) * Cᵀ = X := by
      have ht : Bᵀ * Cᵀ = 1 := by rw [← transpose_mul, h', transpose_one]
      calc C * (B * X * Bᵀ) * Cᵀ = (C * B) * X * (Bᵀ * Cᵀ) := by simp only [Matrix.mul_assoc]
        _ = X := by rw [h', ht, Matrix.one_mul, Matrix.mul_one]
    rwa [e] at this
  unfold kern
  by_cases hX : X.PosDef
  · rw [if_pos hX, if_pos (hiff.2 hX), det_mul, det_mul, det_transpose,
      show B.det * X.det * B.det = B.det ^ 2 * X.det by ring,
      Real.mul_rpow (sq_nonneg _) hX.det_pos.le]
    have : (W * (B * X * Bᵀ)).trace = (Bᵀ * W * B * X).trace := by
      rw [← Matrix.mul_assoc, trace_mul_comm]
      simp only [Matrix.mul_assoc]
    rw [this]
    ring
  · rw [if_neg hX, if_neg fun hh => hX (hiff.1 hh), mul_zero]

variable {n : ℕ}

/-- If `X` has the kernel with parameter `Bᵀ W B`, then `B X Bᵀ` has the one with parameter `W`. -/
theorem wMeas_congr {s : ℝ} (hs : ((n : ℝ) - 1) / 2 < s) {W B C : Matrix (Fin n) (Fin n) ℝ}
    (hW : W.PosDef) (hW' : (Bᵀ * W * B).PosDef) (h : B * C = 1) :
    (wMeas s (Bᵀ * W * B)).map (congrMap B) = wMeas s W := by
  have key : ∃ K : ENNReal, ∀ f : (Sym2 (Fin n) → ℝ) → ENNReal, Measurable f →
      ∫⁻ z, f z ∂wMeas s W = K * ∫⁻ z, f (congrMap B z) ∂wMeas s (Bᵀ * W * B) := by
    set c := ENNReal.ofReal |(LinearMap.det (congrMap B))⁻¹| with hc
    have hc0 : c ≠ 0 := by
      rw [hc, ENNReal.ofReal_ne_zero_iff]
      exact abs_pos.2 (inv_ne_zero (congrMap_det h))
    have hct : c ≠ ⊤ := ENNReal.ofReal_ne_top
    set k := ENNReal.ofReal ((B.det ^ 2) ^ (s - ((Fintype.card (Fin n) : ℝ) + 1) / 2)) with hk
    refine ⟨(ENNReal.ofReal (wZ s W))⁻¹ * c⁻¹ * k * ENNReal.ofReal (wZ s (Bᵀ * W * B)), fun f hf => ?_⟩
    have hm := (measurable_kern s W).ennreal_ofReal
    rw [lintegral_wMeas hs hW hf, lintegral_wMeas hs hW' (f := fun z => f (congrMap B z)) (hf.comp (measurable_congrMap B))]
    have e := lintegral_congrMap h (hm.mul hf)
    have e2 : ∫⁻ z, ((fun z => ENNReal.ofReal (kern s W (symmMat z))) * f) (congrMap B z) =
        k * ∫⁻ z, ENNReal.ofReal (kern s (Bᵀ * W * B) (symmMat z)) * f (congrMap B z) := by
      refine Eq.trans ?_ (lintegral_const_mul _ ((measurable_kern s _).ennreal_ofReal.mul
        (hf.comp (measurable_congrMap B))))
      refine lintegral_congr fun z => ?_
      simp only [Pi.mul_apply]
      rw [symmMat_congrMap, kern_congr s W _ h, ENNReal.ofReal_mul (by positivity), mul_assoc]
    rw [e2] at e
    have e3 : ∫⁻ z, ENNReal.ofReal (kern s W (symmMat z)) * f z =
        c⁻¹ * (k * ∫⁻ z, ENNReal.ofReal (kern s (Bᵀ * W * B) (symmMat z)) * f (congrMap B z)) := by
      rw [e, ← mul_assoc, ENNReal.inv_mul_cancel hc0 hct, one_mul]
      rfl
    have hz : ENNReal.ofReal (wZ s (Bᵀ * W * B)) * (ENNReal.ofReal (wZ s (Bᵀ * W * B)))⁻¹ = 1 :=
      ENNReal.mul_inv_cancel (ENNReal.ofReal_pos.2 (wZ_pos hs hW')).ne' ENNReal.ofReal_ne_top
    rw [e3]
    simp only [mul_assoc]
    rw [← mul_assoc (ENNReal.ofReal (wZ s (Bᵀ * (W * B)))), ← Matrix.mul_assoc, hz, one_mul]
  obtain ⟨K, hK⟩ := key
  have hK1 : K = 1 := by
    have := hK (fun _ => 1) measurable_const
    have i1 := wMeas_prob hs hW
    have i2 := wMeas_prob hs hW'
    simpa using this.symm
  subst hK1
  ext A hA
  rw [← lintegral_indicator_one hA, ← lintegral_indicator_one hA,
    lintegral_map (measurable_one.indicator hA) (measurable_congrMap B),
    hK _ (measurable_one.indicator hA), one_mul]

section

variable {df : ℝ} {v : Matrix (Fin n) (Fin n) ℝ}

/-- If `X` is Wishart with scale `v` then `B X Bᵀ` is Wishart with scale `B v Bᵀ`. -/
theorem wishart_congr (hdf : (n : ℝ) - 1 < df) (hv : v.PosDef) {B C : Matrix (Fin n) (Fin n) ℝ}
    (h : B * C = 1) (hv' : (B * v * Bᵀ).PosDef) :
    (wishart n df v).map (congrMap B) = wishart n df (B * v * Bᵀ) := by
  have h' : C * B = 1 := mul_eq_one_comm.1 h
  have ht : Bᵀ * Cᵀ = 1 := by rw [← transpose_mul, h', transpose_one]
  have hB : B⁻¹ = C := inv_eq_right_inv h
  have hBt : Bᵀ⁻¹ = Cᵀ := inv_eq_right_inv ht
  have e : Bᵀ * ((1 / 2 : ℝ) • (B * v * Bᵀ)⁻¹) * B = (1 / 2 : ℝ) • v⁻¹ := by
    rw [Matrix.mul_inv_rev, Matrix.mul_inv_rev, hB, hBt, Matrix.mul_smul, Matrix.smul_mul]
    congr 1
    calc Bᵀ * (Cᵀ * (v⁻¹ * C)) * B = (Bᵀ * Cᵀ) * v⁻¹ * (C * B) := by simp only [Matrix.mul_assoc]
      _ = v⁻¹ := by rw [ht, h', Matrix.one_mul, Matrix.mul_one]
  have := wMeas_congr (half_df hdf) (half_inv_posDef hv') (B := B) (C := C)
    (by rw [e]; exact half_inv_posDef hv) h
  rw [e] at this
  rw [wishart_eq hv, wishart_eq hv', this]

/-- The mean of every entry of the inverse. -/
theorem wishart_inv_mean_all (hdf : (n : ℝ) + 1 < df) (hv : v.PosDef) (i j : Fin n) :
    Integrable (fun z => (symmMat z)⁻¹ i j) (wishart n df v) ∧
      ∫ z, (symmMat z)⁻¹ i j ∂wishart n df v = v⁻¹ i j / (df - n - 1) := by
  rcases eq_or_ne i j with rfl | hij
  · exact wishart_inv_mean hdf hv i
  have hdf' : (n : ℝ) - 1 < df := by linarith
  set C := transvection j i (1 : ℝ) with hC
  set B := transvection j i (-1 : ℝ) with hB
  have h : B * C = 1 := by
    rw [hB, hC, transvection_mul_transvection_same _ _ hij.symm, neg_add_cancel, transvection_zero]
  have h' : C * B = 1 := mul_eq_one_comm.1 h
  have hBi : B⁻¹ = C := inv_eq_right_inv h
  have hBt : Bᵀ⁻¹ = Cᵀ := inv_eq_right_inv (by rw [← transpose_mul, h', transpose_one])
  have hv' : (B * v * Bᵀ).PosDef := by
    have hu : IsUnit B := IsUnit.of_mul_eq_one _ h
    have := (Matrix.IsUnit.posDef_star_right_conjugate_iff (x := v) hu).2 hv
    rwa [star_eq_conjTranspose, conjTranspose_eq_transpose_of_trivial] at this
  have hCi : ∀ M : Matrix (Fin n) (Fin n) ℝ, M.IsHermitian →
      (Cᵀ * M * C) i i = M i i + 2 * M i j + M j j := by
    intro M hM
    have hs : M j i = M i j := by simpa using hM.apply i j
    have hc : ∀ k, C k i = (if k = i then 1 else 0) + if k = j then 1 else 0 := by
      intro k
      rw [hC, transvection, Matrix.add_apply, Matrix.one_apply, Matrix.single_apply]
      simp [eq_comm]
    simp only [Matrix.mul_apply, transpose_apply, hc, add_mul, mul_add, Finset.sum_add_distrib,
      ite_mul, mul_ite, one_mul, mul_one, zero_mul, mul_zero, Finset.sum_ite_eq', Finset.mem_univ,
      if_true, hs]
    ring
  have hinv : ∀ X : Matrix (Fin n) (Fin n) ℝ, X.IsHermitian →
      (B * X * Bᵀ)⁻¹ i i = X⁻¹ i i + 2 * X⁻¹ i j + X⁻¹ j j := by
    intro X hX
    rw [Matrix.mul_inv_rev, Matrix.mul_inv_rev, hBi, hBt, ← Matrix.mul_assoc, hCi _ hX.inv]
  obtain ⟨a1, a2⟩ := wishart_inv_mean hdf hv' i
  rw [← wishart_congr hdf' hv h hv'] at a1 a2
  rw [integral_map (measurable_congrMap B).aemeasurable a1.aestronglyMeasurable] at a2
  have a3 := a1.comp_measurable (measurable_congrMap B)
  simp only [Function.comp_def, symmMat_congrMap] at a2 a3
  simp only [hinv _ (symmMat_isHermitian _)] at a2 a3
  rw [hinv _ hv.1] at a2
  obtain ⟨b1, b2⟩ := wishart_inv_mean hdf hv i
  obtain ⟨c1, c2⟩ := wishart_inv_mean hdf hv j
  have e : (fun z : Sym2 (Fin n) → ℝ => (symmMat z)⁻¹ i j) = fun z =>
      ((symmMat z)⁻¹ i i + 2 * (symmMat z)⁻¹ i j + (symmMat z)⁻¹ j j - (symmMat z)⁻¹ i i -
        (symmMat z)⁻¹ j j) / 2 := by
    funext z; ring
  have d1 := (a3.sub b1).sub c1
  have i1 : Integrable (fun z : Sym2 (Fin n) → ℝ => (symmMat z)⁻¹ i j) (wishart n df v) := by
    rw [e]; exact d1.div_const 2
  refine ⟨i1, ?_⟩
  have i12 : Integrable (fun z : Sym2 (Fin n) → ℝ => (symmMat z)⁻¹ i i + 2 * (symmMat z)⁻¹ i j)
      (wishart n df v) := b1.add (i1.const_mul 2)
  rw [integral_add i12 c1, integral_add b1 (i1.const_mul 2), integral_const_mul, b2, c2] at a2
  linarith [show (v⁻¹ i i + 2 * v⁻¹ i j + v⁻¹ j j) / (df - n - 1) =
    v⁻¹ i i / (df - n - 1) + 2 * (v⁻¹ i j / (df - n - 1)) + v⁻¹ j j / (df - n - 1) by ring]

end

end

end LRVB
