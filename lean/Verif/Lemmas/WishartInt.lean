import Verif.Lemmas.WishartStep
import Mathlib.MeasureTheory.Integral.Gamma

/-!
# The multivariate gamma integral
-/

namespace LRVB

open MeasureTheory ProbabilityTheory Matrix Set

noncomputable section

variable {ι : Type*} [Fintype ι] [DecidableEq ι]

open Classical in
/-- `det(X)^(s-(n+1)/2) exp(-tr(W X))` on the positive definite matrices. -/
def kern (s : ℝ) (W X : Matrix ι ι ℝ) : ℝ :=
  if X.PosDef then
    X.det ^ (s - ((Fintype.card ι : ℝ) + 1) / 2) * Real.exp (-(W * X).trace) else 0

theorem kern_nonneg (s : ℝ) (W X : Matrix ι ι ℝ) : 0 ≤ kern s W X := by
  unfold kern
  split_ifs with h
  · have := h.det_pos
    positivity
  · exact le_rfl

theorem measurable_kern (s : ℝ) (W : Matrix ι ι ℝ) :
    Measurable fun z : Sym2 ι → ℝ => kern s W (symmMat z) := by
  unfold kern
  refine Measurable.ite measurableSet_posDef ?_ measurable_const
  exact (measurable_symmMat_det.pow_const _).mul (measurable_trace W).neg.exp

/-- The integral of the kernel. -/
def wInt (s : ℝ) (W : Matrix ι ι ℝ) : ENNReal :=
  ∫⁻ z : Sym2 ι → ℝ, ENNReal.ofReal (kern s W (symmMat z))

omit [Fintype ι] [DecidableEq ι] in
theorem border_toBlocks₂₂ (a : ℝ) (b : ι → ℝ) (C : Matrix ι ι ℝ) : (border a b C).toBlocks₂₂ = C := by
  unfold border
  rw [toBlocks_fromBlocks₂₂]

theorem measurable_schur :
    Measurable fun z : Sym2 (Unit ⊕ ι) → ℝ => (symmMat z).det / (symmMat z).toBlocks₂₂.det := by
  refine measurable_symmMat_det.div ?_
  refine Continuous.measurable (Continuous.matrix_det ?_)
  exact continuous_matrix fun i j => continuous_apply _

/-- The integral over matrices with one more row: the Schur complement of the rest, the row and the
rest are integrated one after the other. -/
theorem wInt_step (s : ℝ) {w : ℝ} {u : ι → ℝ} {U : Matrix ι ι ℝ} (hW : (border w u U).PosDef)
    {g : ℝ → ENNReal} (hg : Measurable g) :
    ∫⁻ z : Sym2 (Unit ⊕ ι) → ℝ, ENNReal.ofReal (kern s (border w u U) (symmMat z)) *
        g ((symmMat z).det / (symmMat z).toBlocks₂₂.det) =
      (∫⁻ t in Ioi 0, ENNReal.ofReal (t ^ (s - (Fintype.card ι : ℝ) / 2 - 1) * Real.exp (-(w * t))) *
        g t) *
        (ENNReal.ofReal (√(Real.pi / w) ^ Fintype.card ι) * wInt s (rest w u U)) := by
  obtain ⟨hw, hr, -⟩ := rest_posDef hW
  set k := Fintype.card ι with hk
  set T := ∫⁻ t in Ioi 0, ENNReal.ofReal (t ^ (s - (k : ℝ) / 2 - 1) * Real.exp (-(w * t))) * g t
  rw [lintegral_border (fun X => ENNReal.ofReal (kern s (border w u U) X) *
    g (X.det / X.toBlocks₂₂.det)) (by
      exact (measurable_kern s _).ennreal_ofReal.mul (hg.comp measurable_schur))]
  have hcard : (Fintype.card (Unit ⊕ ι) : ℝ) = k + 1 := by
    rw [Fintype.card_sum, Fintype.card_unit]
    push_cast
    ring
  -- the corner
  have ha : ∀ (C : Matrix ι ι ℝ), C.PosDef → ∀ b : ι → ℝ,
      ∫⁻ a, ENNReal.ofReal (kern s (border w u U) (border a b C)) *
        g ((border a b C).det / (border a b C).toBlocks₂₂.det) =
      T * (ENNReal.ofReal (C.det ^ (s - (k : ℝ) / 2 - 1) * Real.exp (-(U * C).trace)) *
        ENNReal.ofReal (Real.exp (-(b ⬝ᵥ ((w • C⁻¹) *ᵥ b) + 2 * (u ⬝ᵥ b))))) := by
    intro C hC b
    have hd := hC.det_pos
    rw [← lintegral_add_right_eq_self _ (b ⬝ᵥ (C⁻¹ *ᵥ b)), ← lintegral_mul_const']
    swap
    · exact ENNReal.mul_ne_top ENNReal.ofReal_ne_top ENNReal.ofReal_ne_top
    rw [← lintegral_indicator measurableSet_Ioi]
    refine lintegral_congr fun t => ?_
    have hdet : (border (t + b ⬝ᵥ (C⁻¹ *ᵥ b)) b C).det = t * C.det := by
      rw [det_border _ _ hd.ne', add_sub_cancel_right]
    by_cases ht : 0 < t
    · rw [indicator_of_mem (mem_Ioi.2 ht)]
      have hp : (border (t + b ⬝ᵥ (C⁻¹ *ᵥ b)) b C).PosDef :=
        (posDef_border _ _ _).2 ⟨hC, by rwa [add_sub_cancel_right]⟩
      rw [border_toBlocks₂₂, hdet, mul_div_cancel_right₀ _ hd.ne', kern, if_pos hp, hdet,
        trace_border, hcard, mul_right_comm, ← ENNReal.ofReal_mul (by positivity),
        ← ENNReal.ofReal_mul (by positivity)]
      congr 2
      rw [Real.mul_rpow ht.le hd.le, smul_mulVec, dotProduct_smul, smul_eq_mul]
      rw [show s - ((k : ℝ) + 1 + 1) / 2 = s - (k : ℝ) / 2 - 1 by ring]
      have : Real.exp (-(w * (t + b ⬝ᵥ (C⁻¹ *ᵥ b)) + 2 * u ⬝ᵥ b + (U * C).trace)) =
          Real.exp (-(w * t)) * (Real.exp (-(U * C).trace) *
            Real.exp (-(w * (b ⬝ᵥ (C⁻¹ *ᵥ b)) + 2 * u ⬝ᵥ b))) := by
        rw [← Real.exp_add, ← Real.exp_add]
        congr 1
        ring
      rw [this]
      ring
    · rw [indicator_of_notMem (by simpa using ht), kern, if_neg, ENNReal.ofReal_zero, zero_mul]
      rw [posDef_border, add_sub_cancel_right]
      exact fun h => ht h.2
  -- the row
  have hb : ∀ C : Matrix ι ι ℝ,
      ∫⁻ b : ι → ℝ, ∫⁻ a, ENNReal.ofReal (kern s (border w u U) (border a b C)) *
        g ((border a b C).det / (border a b C).toBlocks₂₂.det) =
      T * (ENNReal.ofReal (√(Real.pi / w) ^ k) * ENNReal.ofReal (kern s (rest w u U) C)) := by
    intro C
    by_cases hC : C.PosDef
    · simp only [ha C hC]
      have hd := hC.det_pos
      have hL : (w • C⁻¹).PosDef := hC.inv.smul hw
      have hm : Measurable fun b : ι → ℝ =>
          ENNReal.ofReal (Real.exp (-(b ⬝ᵥ ((w • C⁻¹) *ᵥ b) + 2 * (u ⬝ᵥ b)))) := by
        refine Measurable.ennreal_ofReal (Measurable.exp (Measurable.neg ?_))
        simp only [dotProduct, mulVec]
        fun_prop
      rw [lintegral_const_mul _ (hm.const_mul _), lintegral_const_mul _ hm, lintegral_gauss hL]
      congr 1
      have hinv : (w • C⁻¹)⁻¹ = w⁻¹ • C := by
        refine inv_eq_left_inv ?_
        rw [smul_mul_smul_comm, inv_mul_cancel₀ hw.ne', one_smul,
          mul_nonsing_inv _ (isUnit_iff_ne_zero.2 hd.ne')]
      have hdL : (w • C⁻¹).det = w ^ k / C.det := by
        rw [det_smul, det_nonsing_inv, Ring.inverse_eq_inv', div_eq_mul_inv]
      rw [← ENNReal.ofReal_mul (by positivity), ← ENNReal.ofReal_mul (by positivity), kern, if_pos hC,
        hinv, hdL, trace_rest, smul_mulVec, dotProduct_smul, smul_eq_mul]
      congr 1
      have hwk : √(w ^ k / C.det) = √w ^ k / √C.det := by
        rw [Real.sqrt_div (by positivity)]
        congr 1
        rw [Real.sqrt_eq_rpow, Real.sqrt_eq_rpow, ← Real.rpow_natCast, ← Real.rpow_natCast,
          ← Real.rpow_mul hw.le, ← Real.rpow_mul hw.le, mul_comm]
      have hs : C.det ^ (s - ((k : ℝ) + 1) / 2) = C.det ^ (s - (k : ℝ) / 2 - 1) * √C.det := by
        rw [Real.sqrt_eq_rpow, ← Real.rpow_add hd]
        congr 1
        ring
      have he : Real.exp (-((U * C).trace - w⁻¹ * u ⬝ᵥ (C *ᵥ u))) =
          Real.exp (-(U * C).trace) * Real.exp (w⁻¹ * u ⬝ᵥ (C *ᵥ u)) := by
        rw [← Real.exp_add]
        congr 1
        ring
      rw [hwk, hs, he, Real.sqrt_div Real.pi_pos.le, div_pow]
      have h1 : √C.det ≠ 0 := (Real.sqrt_pos.2 hd).ne'
      have h2 : √w ^ k ≠ 0 := (pow_pos (Real.sqrt_pos.2 hw) k).ne'
      field_simp
      rw [hk]
    · have h0 : ∀ a b, kern s (border w u U) (border a b C) = 0 := fun a b => by
        rw [kern, if_neg]
        rw [posDef_border]
        exact fun h => hC h.1
      simp only [h0, ENNReal.ofReal_zero, zero_mul, lintegral_zero]
      rw [kern, if_neg hC]
      simp
  simp only [hb]
  have hm := (measurable_kern s (rest w u U)).ennreal_ofReal
  rw [lintegral_const_mul _ (hm.const_mul _), lintegral_const_mul _ hm]
  rfl

/-! ### The recursion -/

/-- The index `i` is split off. -/
def splitAt {n : ℕ} (i : Fin (n + 1)) : Fin (n + 1) ≃ Unit ⊕ Fin n :=
  (finSuccEquiv' i).trans ((Equiv.optionEquivSumPUnit (Fin n)).trans (Equiv.sumComm _ _))

theorem splitAt_symm_inl {n : ℕ} (i : Fin (n + 1)) (x : Unit) : (splitAt i).symm (.inl x) = i := by
  simp [splitAt]

theorem splitAt_symm_inr {n : ℕ} (i : Fin (n + 1)) (j : Fin n) :
    (splitAt i).symm (.inr j) = i.succAbove j := by
  simp [splitAt]

theorem submatrix_splitAt {n : ℕ} (i : Fin (n + 1)) {W : Matrix (Fin (n + 1)) (Fin (n + 1)) ℝ}
    (hW : W.IsHermitian) : W.submatrix (splitAt i).symm (splitAt i).symm =
      border (W i i) (fun j => W i (i.succAbove j)) (W.submatrix i.succAbove i.succAbove) := by
  ext x y
  rcases x with x | x <;> rcases y with y | y <;>
    simp [border, splitAt_symm_inl, splitAt_symm_inr]
  simpa using hW.apply i (i.succAbove x)

theorem kern_submatrix {κ : Type*} [Fintype κ] [DecidableEq κ] (e : ι ≃ κ) (s : ℝ)
    (W : Matrix κ κ ℝ) (X : Matrix ι ι ℝ) :
    kern s W (X.submatrix e.symm e.symm) = kern s (W.submatrix e e) X := by
  unfold kern
  have h1 : (X.submatrix e.symm e.symm).PosDef ↔ X.PosDef :=
    ⟨fun h => by simpa using h.submatrix e.injective, fun h => h.submatrix e.symm.injective⟩
  have h2 : (W * X.submatrix e.symm e.symm).trace = (W.submatrix e e * X).trace := by
    have h3 : W * X.submatrix e.symm e.symm = (W.submatrix e e * X).submatrix e.symm e.symm := by
      rw [← submatrix_mul_equiv _ _ _ e.symm, submatrix_submatrix]
      simp
    rw [h3]
    simp only [trace, diag_apply, submatrix_apply]
    exact Equiv.sum_comp e.symm fun i => (W.submatrix e e * X) i i
  rw [h2, det_submatrix_equiv_self, Fintype.card_congr e]
  by_cases h : X.PosDef
  · rw [if_pos h, if_pos (h1.2 h)]
  · rw [if_neg h, if_neg fun h' => h (h1.1 h')]

theorem inv_diag {n : ℕ} (i : Fin (n + 1)) (X : Matrix (Fin (n + 1)) (Fin (n + 1)) ℝ) :
    X⁻¹ i i = (X.submatrix i.succAbove i.succAbove).det / X.det := by
  rw [Matrix.inv_def, Matrix.smul_apply, adjugate_fin_succ_eq_det_submatrix, Ring.inverse_eq_inv',
    smul_eq_mul, ← two_mul, pow_mul]
  simp [div_eq_inv_mul]

/-- What remains of the parameter matrix when the row `i` is integrated out. -/
def restAt {n : ℕ} (i : Fin (n + 1)) (W : Matrix (Fin (n + 1)) (Fin (n + 1)) ℝ) :
    Matrix (Fin n) (Fin n) ℝ :=
  rest (W i i) (fun j => W i (i.succAbove j)) (W.submatrix i.succAbove i.succAbove)

theorem restAt_posDef {n : ℕ} (i : Fin (n + 1)) {W : Matrix (Fin (n + 1)) (Fin (n + 1)) ℝ}
    (hW : W.PosDef) : 0 < W i i ∧ (restAt i W).PosDef ∧ W.det = W i i * (restAt i W).det := by
  have h : (border (W i i) (fun j => W i (i.succAbove j))
      (W.submatrix i.succAbove i.succAbove)).PosDef := by
    rw [← submatrix_splitAt i hW.1]
    exact hW.submatrix (splitAt i).symm.injective
  obtain ⟨h1, h2, h3⟩ := rest_posDef h
  refine ⟨h1, h2, ?_⟩
  rw [← submatrix_splitAt i hW.1, det_submatrix_equiv_self] at h3
  exact h3

theorem wInt_split {n : ℕ} (i : Fin (n + 1)) (s : ℝ) {W : Matrix (Fin (n + 1)) (Fin (n + 1)) ℝ}
    (hW : W.PosDef) {g : ℝ → ENNReal} (hg : Measurable g) :
    ∫⁻ z : Sym2 (Fin (n + 1)) → ℝ, ENNReal.ofReal (kern s W (symmMat z)) *
        g (1 / (symmMat z)⁻¹ i i) =
      (∫⁻ t in Ioi 0, ENNReal.ofReal (t ^ (s - (n : ℝ) / 2 - 1) * Real.exp (-(W i i * t))) * g t) *
        (ENNReal.ofReal (√(Real.pi / W i i) ^ n) * wInt s (restAt i W)) := by
  rw [lintegral_symmMat_equiv (splitAt i).symm fun X => ENNReal.ofReal (kern s W X) *
    g (1 / X⁻¹ i i)]
  have hb : (border (W i i) (fun j => W i (i.succAbove j))
      (W.submatrix i.succAbove i.succAbove)).PosDef := by
    rw [← submatrix_splitAt i hW.1]
    exact hW.submatrix (splitAt i).symm.injective
  have h := wInt_step s hb hg
  rw [Fintype.card_fin] at h
  rw [restAt, ← h]
  refine lintegral_congr fun z => ?_
  rw [kern_submatrix, submatrix_splitAt i hW.1]
  congr 2
  rw [inv_diag, det_submatrix_equiv_self, one_div_div]
  congr 2
  ext x y
  simp only [submatrix_apply, Equiv.symm_symm, toBlocks₂₂, of_apply]
  have : ∀ j, splitAt i (i.succAbove j) = .inr j := fun j => by
    rw [← splitAt_symm_inr, Equiv.apply_symm_apply]
  rw [this, this]

theorem lintegral_gamma {a w : ℝ} (ha : 0 < a) (hw : 0 < w) :
    ∫⁻ t in Ioi 0, ENNReal.ofReal (t ^ (a - 1) * Real.exp (-(w * t))) =
      ENNReal.ofReal (Real.Gamma a * w ^ (-a)) := by
  rw [← ofReal_integral_eq_lintegral_ofReal]
  · rw [Real.integral_rpow_mul_exp_neg_mul_Ioi ha hw, Real.rpow_neg hw.le, one_div,
      Real.inv_rpow hw.le, mul_comm]
  · have := integrableOn_rpow_mul_exp_neg_mul_rpow (s := a - 1) (p := 1) (b := w) (by linarith)
      one_pos hw
    rw [IntegrableOn] at this
    simpa using this
  · refine (ae_restrict_iff' measurableSet_Ioi).2 (.of_forall fun t ht => ?_)
    have : (0 : ℝ) < t := ht
    positivity

theorem multiGamma_succ (n : ℕ) (s : ℝ) :
    multiGamma (n + 1) s = √Real.pi ^ n * Real.Gamma (s - (n : ℝ) / 2) * multiGamma n s := by
  unfold multiGamma
  rw [Finset.prod_range_succ]
  have : Real.pi ^ (((n + 1 : ℕ) : ℝ) * (((n + 1 : ℕ) : ℝ) - 1) / 4) =
      √Real.pi ^ n * Real.pi ^ ((n : ℝ) * ((n : ℝ) - 1) / 4) := by
    rw [Real.sqrt_eq_rpow, ← Real.rpow_natCast, ← Real.rpow_mul Real.pi_pos.le,
      ← Real.rpow_add Real.pi_pos]
    congr 1
    push_cast
    ring
  rw [this]
  ring

theorem multiGamma_pos {n : ℕ} {s : ℝ} (hs : ((n : ℝ) - 1) / 2 < s) : 0 < multiGamma n s := by
  unfold multiGamma
  refine mul_pos (Real.rpow_pos_of_pos Real.pi_pos _) (Finset.prod_pos fun j hj => ?_)
  have : ((j : ℕ) : ℝ) + 1 ≤ n := by exact_mod_cast Finset.mem_range.1 hj
  exact Real.Gamma_pos_of_pos (by linarith)

/-- **The multivariate gamma integral.** -/
theorem wInt_eq (n : ℕ) (s : ℝ) (hs : ((n : ℝ) - 1) / 2 < s) (W : Matrix (Fin n) (Fin n) ℝ)
    (hW : W.PosDef) : wInt s W = ENNReal.ofReal (multiGamma n s * W.det ^ (-s)) := by
  induction n with
  | zero =>
    unfold wInt
    have h1 : ∀ z : Sym2 (Fin 0) → ℝ, kern s W (symmMat z) = 1 := by
      intro z
      have hp : (symmMat z).PosDef := by
        refine .of_dotProduct_mulVec_pos (symmMat_isHermitian z) fun x hx => ?_
        exact absurd (Subsingleton.elim _ _) hx
      rw [kern, if_pos hp]
      simp
    have : IsEmpty (Sym2 (Fin 0)) := ⟨fun z => by
      induction z using Sym2.ind with
      | _ x y => exact x.elim0⟩
    simp only [h1, ENNReal.ofReal_one, lintegral_one]
    rw [show (volume : Measure (Sym2 (Fin 0) → ℝ)) = Measure.pi fun _ => volume from rfl,
      Measure.pi_of_empty]
    simp [multiGamma]
  | succ n ih =>
    push_cast at hs
    obtain ⟨hw, hr, hd⟩ := restAt_posDef 0 hW
    have h := wInt_split 0 s hW (g := fun _ => 1) measurable_const
    simp only [mul_one] at h
    rw [wInt, h, ih (by linarith) _ hr, lintegral_gamma (by linarith) hw, multiGamma_succ, hd]
    have p1 := multiGamma_pos (n := n) (s := s) (by linarith)
    have p2 : 0 < Real.Gamma (s - (n : ℝ) / 2) := Real.Gamma_pos_of_pos (by linarith)
    have p3 := hr.det_pos
    rw [← ENNReal.ofReal_mul (by positivity), ← ENNReal.ofReal_mul (by positivity)]
    congr 1
    rw [Real.mul_rpow hw.le p3.le, Real.sqrt_div Real.pi_pos.le, div_pow]
    have : W 0 0 ^ (-(s - (n : ℝ) / 2)) = W 0 0 ^ (-s) * √(W 0 0) ^ n := by
      rw [Real.sqrt_eq_rpow, ← Real.rpow_natCast, ← Real.rpow_mul hw.le, ← Real.rpow_add hw]
      congr 1
      ring
    rw [this]
    have : √(W 0 0) ^ n ≠ 0 := (pow_pos (Real.sqrt_pos.2 hw) n).ne'
    field_simp

end

end LRVB
