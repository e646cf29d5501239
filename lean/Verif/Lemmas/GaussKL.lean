import Verif.Spec.Families
import Verif.Spec.Optimum
import Verif.Lemmas.NormalDist
import Mathlib.LinearAlgebra.Matrix.PosDef
import Mathlib.Probability.Independence.Integration
import Mathlib.MeasureTheory.Integral.Pi
import Mathlib.Analysis.Calculus.LocalExtr.Basic
import Mathlib.Analysis.SpecialFunctions.ExpDeriv

/-!
# The objective of a factorizing normal approximation to a normal posterior
-/

namespace LRVB

open MeasureTheory ProbabilityTheory Matrix

noncomputable section

variable {d : ℕ}

theorem integrable_idG (m : ℝ) (v : NNReal) : Integrable (fun y : ℝ => y) (gaussianReal m v) :=
  (memLp_id_gaussianReal' 1 (by norm_num)).integrable (le_refl _)

/-- The mean of a product of centred coordinates of independent normal variables. -/
theorem integral_mul_pi (m : Fin d → ℝ) (v : Fin d → NNReal) (μ : Fin d → ℝ) (j k : Fin d) :
    Integrable (fun x => (x j - μ j) * (x k - μ k)) (Measure.pi fun k => gaussianReal (m k) (v k)) ∧
    ∫ x, (x j - μ j) * (x k - μ k) ∂(Measure.pi fun k => gaussianReal (m k) (v k)) =
      (m j - μ j) * (m k - μ k) + if j = k then (v k : ℝ) else 0 := by
  have hL2 : ∀ j, MemLp (fun x : ℝ => x - μ j) 2 (gaussianReal (m j) (v j)) := fun j =>
    (memLp_id_gaussianReal' 2 (by norm_num)).sub (memLp_const _)
  have hL : ∀ j, MemLp (fun x : Fin d → ℝ => x j - μ j) 2 (Measure.pi fun k => gaussianReal (m k) (v k)) := fun j =>
    (hL2 j).comp_measurePreserving (measurePreserving_eval _ j)
  have hi : ∀ j, ∫ x, (x j - μ j) ∂(Measure.pi fun k => gaussianReal (m k) (v k)) = m j - μ j := by
    intro j
    rw [integral_comp_eval (μ := fun k => gaussianReal (m k) (v k)) (f := fun y : ℝ => y - μ j)
      (by fun_prop), integral_sub (integrable_idG _ _) (integrable_const _)]
    simp
  refine ⟨(hL j).integrable_mul (hL k), ?_⟩
  by_cases h : j = k
  · subst h
    have h1 := integral_comp_eval (μ := fun k => gaussianReal (m k) (v k)) (i := j)
      (f := fun y : ℝ => (y - μ j) * (y - μ j)) (by fun_prop)
    rw [h1, if_pos rfl]
    have h2 := integral_sub_sq_gaussianReal (m j) (v j)
    have h3 : (fun y : ℝ => (y - μ j) * (y - μ j)) =
        fun y => (y - m j) ^ 2 + (2 * (m j - μ j) * y - (m j ^ 2 - μ j ^ 2)) := by
      funext y; ring
    have i1 : Integrable (fun y : ℝ => (y - m j) ^ 2) (gaussianReal (m j) (v j)) :=
      ((memLp_id_gaussianReal' 2 (by norm_num)).sub (memLp_const (m j))).integrable_sq
    have i2 : Integrable (fun y : ℝ => 2 * (m j - μ j) * y) (gaussianReal (m j) (v j)) :=
      (integrable_idG _ _).const_mul _
    rw [h3, integral_add i1 (g := fun y => 2 * (m j - μ j) * y - (m j ^ 2 - μ j ^ 2)) (i2.sub (integrable_const _)), h2, integral_sub i2 (integrable_const _),
      integral_const_mul]
    simp
    ring
  · rw [if_neg h, add_zero]
    have hind := (iIndepFun_pi (μ := fun k => gaussianReal (m k) (v k)) (X := fun k (y : ℝ) => y - μ k)
      (fun k => by fun_prop)).indepFun h
    rw [hind.integral_fun_mul_eq_mul_integral (hL j).aestronglyMeasurable (hL k).aestronglyMeasurable, hi, hi]

/-! ### The objective as a function of the free value

The free value of `d` normal variables is the vector of the means followed by the vector of the logarithms of the
precisions. -/

/-- The position of the mean of variable `k`. -/
def muIx (k : Fin d) : Fin (2 * d) := ⟨k, by omega⟩

/-- The position of the logarithm of the precision of variable `k`. -/
def infoIx (k : Fin d) : Fin (2 * d) := ⟨d + k, by omega⟩

/-- The objective, up to a constant. -/
def gaussF (Λ : Matrix (Fin d) (Fin d) ℝ) (μ : Fin d → ℝ) (c : ℝ) (z : (Fin (2 * d) → ℝ) × (Fin d → ℝ)) : ℝ :=
  (∑ j, ∑ k, Λ j k * ((z.1 (muIx j) - μ j) * (z.1 (muIx k) - μ k))) / 2 +
    (∑ k, (Λ k k * Real.exp (-z.1 (infoIx k)) + z.1 (infoIx k))) / 2 - (∑ k, z.2 k * z.1 (muIx k)) + c

theorem gaussF_smooth (Λ : Matrix (Fin d) (Fin d) ℝ) (μ : Fin d → ℝ) (c : ℝ) : ContDiff ℝ 2 (gaussF Λ μ c) := by
  unfold gaussF
  fun_prop

/-- The optimum for the hyperparameter `v`: means `μ + Λ⁻¹ v` and precisions `Λ k k`. -/
def gaussOpt (Λ : Matrix (Fin d) (Fin d) ℝ) (μ : Fin d → ℝ) (v : Fin d → ℝ) (a : Fin (2 * d)) : ℝ :=
  if h : (a : ℕ) < d then μ ⟨a, h⟩ + (Λ⁻¹ *ᵥ v) ⟨a, h⟩ else Real.log (Λ ⟨a - d, by omega⟩ ⟨a - d, by omega⟩)

theorem gaussOpt_mu (Λ : Matrix (Fin d) (Fin d) ℝ) (μ v : Fin d → ℝ) (k : Fin d) :
    gaussOpt Λ μ v (muIx k) = μ k + (Λ⁻¹ *ᵥ v) k := by simp [gaussOpt, muIx]

theorem gaussOpt_info (Λ : Matrix (Fin d) (Fin d) ℝ) (μ v : Fin d → ℝ) (k : Fin d) :
    gaussOpt Λ μ v (infoIx k) = Real.log (Λ k k) := by simp [gaussOpt, infoIx]

theorem quad_eq (Λ : Matrix (Fin d) (Fin d) ℝ) (w : Fin d → ℝ) :
    ∑ j, ∑ k, Λ j k * (w j * w k) = w ⬝ᵥ (Λ *ᵥ w) := by
  simp only [dotProduct, mulVec, Finset.mul_sum]
  exact Finset.sum_congr rfl fun j _ => Finset.sum_congr rfl fun k _ => by ring

theorem gaussF_min {Λ : Matrix (Fin d) (Fin d) ℝ} (hΛ : Λ.PosDef) (μ : Fin d → ℝ) (c : ℝ) (v : Fin d → ℝ)
    (u : Fin (2 * d) → ℝ) : gaussF Λ μ c (gaussOpt Λ μ v, v) ≤ gaussF Λ μ c (u, v) := by
  have hdiag : ∀ k, 0 < Λ k k := fun k => hΛ.diag_pos
  have h2 : ∀ k, Λ k k * Real.exp (-gaussOpt Λ μ v (infoIx k)) + gaussOpt Λ μ v (infoIx k) ≤
      Λ k k * Real.exp (-u (infoIx k)) + u (infoIx k) := by
    intro k
    rw [gaussOpt_info, Real.exp_neg, Real.exp_log (hdiag k), mul_inv_cancel₀ (hdiag k).ne']
    have := Real.add_one_le_exp (Real.log (Λ k k) - u (infoIx k))
    rw [sub_eq_add_neg, Real.exp_add, Real.exp_log (hdiag k)] at this
    linarith
  have hsym : Λᵀ = Λ := by
    have := hΛ.isHermitian
    rwa [Matrix.IsHermitian, Matrix.conjTranspose_eq_transpose_of_trivial] at this
  have hinv : Λ * Λ⁻¹ = 1 := Matrix.mul_nonsing_inv _ hΛ.det_pos.ne'.isUnit
  let w : Fin d → ℝ := fun k => u (muIx k) - μ k
  let s : Fin d → ℝ := Λ⁻¹ *ᵥ v
  have hΛs : Λ *ᵥ s = v := by
    simp only [s]
    rw [Matrix.mulVec_mulVec, hinv, Matrix.one_mulVec]
  have hsq : 0 ≤ (w - s) ⬝ᵥ (Λ *ᵥ (w - s)) := by
    have := hΛ.posSemidef.dotProduct_mulVec_nonneg (w - s)
    simpa using this
  have hcross : s ⬝ᵥ (Λ *ᵥ w) = w ⬝ᵥ v := by
    rw [Matrix.dotProduct_mulVec, ← Matrix.mulVec_transpose, hsym, hΛs, dotProduct_comm]
  have hexp : (w - s) ⬝ᵥ (Λ *ᵥ (w - s)) = w ⬝ᵥ (Λ *ᵥ w) - 2 * (w ⬝ᵥ v) + s ⬝ᵥ v := by
    rw [Matrix.mulVec_sub, hΛs, sub_dotProduct, dotProduct_sub, dotProduct_sub, hcross]
    ring
  have h3 := Finset.sum_le_sum fun k (_ : k ∈ Finset.univ) => h2 k
  have e1 : ∑ k, v k * u (muIx k) = v ⬝ᵥ μ + w ⬝ᵥ v := by
    simp only [dotProduct, w, ← Finset.sum_add_distrib]
    exact Finset.sum_congr rfl fun k _ => by ring
  have e2 : ∑ k, v k * gaussOpt Λ μ v (muIx k) = v ⬝ᵥ μ + s ⬝ᵥ v := by
    simp only [dotProduct, gaussOpt_mu, ← Finset.sum_add_distrib]
    exact Finset.sum_congr rfl fun k _ => by simp only [s]; ring
  have e3 : ∑ j, ∑ k, Λ j k * ((gaussOpt Λ μ v (muIx j) - μ j) * (gaussOpt Λ μ v (muIx k) - μ k)) = s ⬝ᵥ v := by
    simp only [gaussOpt_mu, add_sub_cancel_left]
    rw [quad_eq, hΛs]
  have e4 := quad_eq Λ w
  simp only [gaussF]
  rw [e1, e2, e3, e4]
  linarith

/-- The minimum is attained only at the optimum. -/
theorem gaussF_unique {Λ : Matrix (Fin d) (Fin d) ℝ} (hΛ : Λ.PosDef) (μ : Fin d → ℝ) (c : ℝ) (v : Fin d → ℝ)
    (u : Fin (2 * d) → ℝ) (h : gaussF Λ μ c (u, v) ≤ gaussF Λ μ c (gaussOpt Λ μ v, v)) : u = gaussOpt Λ μ v := by
  have hdiag : ∀ k, 0 < Λ k k := fun k => hΛ.diag_pos
  have hmid : ∀ s : Fin (2 * d) → Prop, ∀ [DecidablePred s], gaussF Λ μ c (gaussOpt Λ μ v, v) ≤
      gaussF Λ μ c ((fun a => if s a then u a else gaussOpt Λ μ v a), v) := fun s _ => gaussF_min hΛ μ c v _
  -- the part of the precisions
  let A : (Fin (2 * d) → ℝ) → ℝ := fun u => (∑ j, ∑ k, Λ j k * ((u (muIx j) - μ j) * (u (muIx k) - μ k))) / 2 -
    ∑ k, v k * u (muIx k)
  let B : (Fin (2 * d) → ℝ) → ℝ := fun u => (∑ k, (Λ k k * Real.exp (-u (infoIx k)) + u (infoIx k))) / 2
  have hF : ∀ u, gaussF Λ μ c (u, v) = A u + B u + c := by
    intro u; simp only [gaussF, A, B]; ring
  have h1 := hmid (fun a => (a : ℕ) < d)
  have h2 := hmid (fun a => ¬ (a : ℕ) < d)
  have a1 : A (fun a => if (a : ℕ) < d then u a else gaussOpt Λ μ v a) = A u := by simp [A, muIx]
  have b1 : B (fun a => if (a : ℕ) < d then u a else gaussOpt Λ μ v a) = B (gaussOpt Λ μ v) := by simp [B, infoIx]
  have a2 : A (fun a => if ¬ (a : ℕ) < d then u a else gaussOpt Λ μ v a) = A (gaussOpt Λ μ v) := by
    simp only [A, muIx, Fin.is_lt, not_true_eq_false, if_false]
  have b2 : B (fun a => if ¬ (a : ℕ) < d then u a else gaussOpt Λ μ v a) = B u := by simp [B, infoIx, -not_lt]
  rw [hF, hF, a1, b1] at h1
  rw [hF, hF, a2, b2] at h2
  rw [hF, hF] at h
  have hB : B u = B (gaussOpt Λ μ v) := by linarith
  have hA : A u = A (gaussOpt Λ μ v) := by linarith
  have hterm : ∀ k, Λ k k * Real.exp (-gaussOpt Λ μ v (infoIx k)) + gaussOpt Λ μ v (infoIx k) ≤
      Λ k k * Real.exp (-u (infoIx k)) + u (infoIx k) ∧
      (u (infoIx k) ≠ Real.log (Λ k k) → Λ k k * Real.exp (-gaussOpt Λ μ v (infoIx k)) + gaussOpt Λ μ v (infoIx k) <
      Λ k k * Real.exp (-u (infoIx k)) + u (infoIx k)) := by
    intro k
    rw [gaussOpt_info, Real.exp_neg, Real.exp_log (hdiag k), mul_inv_cancel₀ (hdiag k).ne']
    have e1 : Real.exp (Real.log (Λ k k) - u (infoIx k)) = Λ k k * Real.exp (-u (infoIx k)) := by
      rw [sub_eq_add_neg, Real.exp_add, Real.exp_log (hdiag k)]
    constructor
    · have := Real.add_one_le_exp (Real.log (Λ k k) - u (infoIx k))
      linarith
    · intro hne
      have := Real.add_one_lt_exp (sub_ne_zero.2 hne.symm)
      linarith
  have hinfo : ∀ k, u (infoIx k) = Real.log (Λ k k) := by
    by_contra hcon
    push Not at hcon
    obtain ⟨k, hk⟩ := hcon
    have := Finset.sum_lt_sum (fun k _ => (hterm k).1) ⟨k, Finset.mem_univ _, (hterm k).2 hk⟩
    simp only [B] at hB
    linarith
  have hsym : Λᵀ = Λ := by
    have := hΛ.isHermitian
    rwa [Matrix.IsHermitian, Matrix.conjTranspose_eq_transpose_of_trivial] at this
  have hinv : Λ * Λ⁻¹ = 1 := Matrix.mul_nonsing_inv _ hΛ.det_pos.ne'.isUnit
  let w : Fin d → ℝ := fun k => u (muIx k) - μ k
  let s : Fin d → ℝ := Λ⁻¹ *ᵥ v
  have hΛs : Λ *ᵥ s = v := by
    simp only [s]
    rw [Matrix.mulVec_mulVec, hinv, Matrix.one_mulVec]
  have hcross : s ⬝ᵥ (Λ *ᵥ w) = w ⬝ᵥ v := by
    rw [Matrix.dotProduct_mulVec, ← Matrix.mulVec_transpose, hsym, hΛs, dotProduct_comm]
  have hexp : (w - s) ⬝ᵥ (Λ *ᵥ (w - s)) = w ⬝ᵥ (Λ *ᵥ w) - 2 * (w ⬝ᵥ v) + s ⬝ᵥ v := by
    rw [Matrix.mulVec_sub, hΛs, sub_dotProduct, dotProduct_sub, dotProduct_sub, hcross]
    ring
  have e1 : ∑ k, v k * u (muIx k) = v ⬝ᵥ μ + w ⬝ᵥ v := by
    simp only [dotProduct, w, ← Finset.sum_add_distrib]
    exact Finset.sum_congr rfl fun k _ => by ring
  have e2 : ∑ k, v k * gaussOpt Λ μ v (muIx k) = v ⬝ᵥ μ + s ⬝ᵥ v := by
    simp only [dotProduct, gaussOpt_mu, ← Finset.sum_add_distrib]
    exact Finset.sum_congr rfl fun k _ => by simp only [s]; ring
  have e3 : ∑ j, ∑ k, Λ j k * ((gaussOpt Λ μ v (muIx j) - μ j) * (gaussOpt Λ μ v (muIx k) - μ k)) = s ⬝ᵥ v := by
    simp only [gaussOpt_mu, add_sub_cancel_left]
    rw [quad_eq, hΛs]
  have e4 := quad_eq Λ w
  have hws : w - s = 0 := by
    by_contra hne
    have := hΛ.dotProduct_mulVec_pos hne
    simp only [star_trivial] at this
    simp only [A] at hA
    rw [e1, e2, e3, e4] at hA
    linarith
  funext a
  by_cases ha : (a : ℕ) < d
  · have := congrFun hws ⟨a, ha⟩
    simp only [Pi.sub_apply, Pi.zero_apply, w, s] at this
    have e5 : a = muIx ⟨a, ha⟩ := rfl
    rw [e5, gaussOpt_mu]
    linarith
  · have e5 : a = infoIx ⟨a - d, by omega⟩ := by
      apply Fin.ext
      simp only [infoIx]
      omega
    rw [e5, gaussOpt_info, hinfo]

theorem gaussF_curvature {Λ : Matrix (Fin d) (Fin d) ℝ} (hΛ : Λ.PosDef) (μ : Fin d → ℝ) (c : ℝ)
    (x : Fin (2 * d) → ℝ) (v : Fin d → ℝ) : PositiveCurvature (gaussF Λ μ c) x v := by
  intro u hu
  have hdiag : ∀ k, 0 < Λ k k := fun k => hΛ.diag_pos
  let w : Fin d → ℝ := fun k => u (muIx k)
  let a : ℝ → ℝ := fun t => (∑ k, (Λ k k * Real.exp (-(x (infoIx k) + t * u (infoIx k))) +
    (x (infoIx k) + t * u (infoIx k)))) / 2
  let Q : ℝ := w ⬝ᵥ (Λ *ᵥ w)
  let L : ℝ := (∑ j, ∑ k, Λ j k * ((x (muIx j) - μ j) * w k + w j * (x (muIx k) - μ k))) / 2 - ∑ k, v k * w k
  have hform : (fun t : ℝ => gaussF Λ μ c (x + t • u, v)) =
      fun t => Q / 2 * t ^ 2 + L * t + gaussF Λ μ c (x, v) + (a t - a 0) := by
    funext t
    have e1 : ∑ j, ∑ k, Λ j k * ((x (muIx j) + t * u (muIx j) - μ j) * (x (muIx k) + t * u (muIx k) - μ k)) =
        ∑ j, ∑ k, Λ j k * ((x (muIx j) - μ j) * (x (muIx k) - μ k)) +
        t * (∑ j, ∑ k, Λ j k * ((x (muIx j) - μ j) * w k + w j * (x (muIx k) - μ k))) + t ^ 2 * Q := by
      simp only [Q, ← quad_eq, Finset.mul_sum, ← Finset.sum_add_distrib]
      exact Finset.sum_congr rfl fun j _ => Finset.sum_congr rfl fun k _ => by simp only [w]; ring
    have e2 : ∑ k, v k * (x (muIx k) + t * u (muIx k)) = ∑ k, v k * x (muIx k) + t * ∑ k, v k * w k := by
      simp only [Finset.mul_sum, ← Finset.sum_add_distrib]
      exact Finset.sum_congr rfl fun k _ => by simp only [w]; ring
    have e3 : a 0 = (∑ k, (Λ k k * Real.exp (-x (infoIx k)) + x (infoIx k))) / 2 := by
      simp [a]
    simp only [gaussF, Pi.add_apply, Pi.smul_apply, smul_eq_mul]
    rw [e1, e2, e3]
    simp only [a, L]
    ring
  let a' : ℝ → ℝ := fun t => (∑ k, (Λ k k * (Real.exp (-(x (infoIx k) + t * u (infoIx k))) * -u (infoIx k)) +
    u (infoIx k))) / 2
  have ha : ∀ t, HasDerivAt a (a' t) t := by
    intro t
    refine HasDerivAt.div_const (HasDerivAt.fun_sum fun k _ => ?_) 2
    have h1 : HasDerivAt (fun t : ℝ => x (infoIx k) + t * u (infoIx k)) (u (infoIx k)) t := by
      simpa using ((hasDerivAt_id t).mul_const (u (infoIx k))).const_add (x (infoIx k))
    exact ((h1.neg.exp).const_mul _).add h1
  let a'' : ℝ → ℝ := fun t => (∑ k, Λ k k * (Real.exp (-(x (infoIx k) + t * u (infoIx k))) * u (infoIx k) ^ 2)) / 2
  have ha' : ∀ t, HasDerivAt a' (a'' t) t := by
    intro t
    refine HasDerivAt.div_const (HasDerivAt.fun_sum fun k _ => ?_) 2
    have h1 : HasDerivAt (fun t : ℝ => x (infoIx k) + t * u (infoIx k)) (u (infoIx k)) t := by
      simpa using ((hasDerivAt_id t).mul_const (u (infoIx k))).const_add (x (infoIx k))
    have h2 := (((h1.neg.exp).mul_const (-u (infoIx k))).const_mul (Λ k k)).add_const (u (infoIx k))
    refine h2.congr_deriv ?_
    simp only [Pi.neg_apply]
    ring
  have d1 : ∀ t, HasDerivAt (fun t : ℝ => gaussF Λ μ c (x + t • u, v)) (Q * t + L + a' t) t := by
    intro t
    rw [hform]
    have h1 := ((((hasDerivAt_pow 2 t).const_mul (Q / 2)).add ((hasDerivAt_id t).const_mul L)).add_const
      (gaussF Λ μ c (x, v))).add ((ha t).sub_const (a 0))
    refine h1.congr_deriv ?_
    simp
    ring
  have d2 : HasDerivAt (fun t : ℝ => Q * t + L + a' t) (Q + a'' 0) 0 := by
    have h1 := ((((hasDerivAt_id (0 : ℝ)).const_mul Q).add_const L)).add (ha' 0)
    refine h1.congr_deriv ?_
    simp
  rw [iteratedDeriv_succ, iteratedDeriv_one, show deriv (fun t : ℝ => gaussF Λ μ c (x + t • u, v)) = _ from
    funext fun t => (d1 t).deriv, d2.deriv]
  have hQ : 0 ≤ Q := by
    have := hΛ.posSemidef.dotProduct_mulVec_nonneg w
    simpa using this
  have hterm : ∀ k, 0 ≤ Λ k k * (Real.exp (-(x (infoIx k) + 0 * u (infoIx k))) * u (infoIx k) ^ 2) := fun k =>
    mul_nonneg (hdiag k).le (by positivity)
  have ha0 : 0 ≤ a'' 0 := div_nonneg (Finset.sum_nonneg fun k _ => hterm k) (by norm_num)
  by_cases hw : w = 0
  · obtain ⟨b, hb⟩ := Function.ne_iff.1 hu
    have hbd : ¬ (b : ℕ) < d := by
      intro hlt
      apply hb
      have := congrFun hw ⟨b, hlt⟩
      simpa [w, muIx] using this
    let k : Fin d := ⟨b - d, by omega⟩
    have hk : infoIx k = b := by
      apply Fin.ext
      simp only [infoIx, k]
      omega
    have : 0 < a'' 0 := by
      refine div_pos (Finset.sum_pos' (fun k _ => hterm k) ⟨k, Finset.mem_univ _, ?_⟩) (by norm_num)
      rw [hk]
      have hne : u b ≠ 0 := hb
      exact mul_pos (hdiag k) (mul_pos (Real.exp_pos _) (by positivity))
    linarith
  · have : 0 < Q := by
      have := hΛ.dotProduct_mulVec_pos hw
      simpa using this
    linarith

theorem gaussOpt_critical {Λ : Matrix (Fin d) (Fin d) ℝ} (hΛ : Λ.PosDef) (μ : Fin d → ℝ) (c : ℝ) (v : Fin d → ℝ) :
    fderiv ℝ (fun u => gaussF Λ μ c (u, v)) (gaussOpt Λ μ v) = 0 :=
  IsLocalMin.fderiv_eq_zero (Filter.Eventually.of_forall fun u => gaussF_min hΛ μ c v u)

/-- The derivative of the optimum. -/
def gaussDeriv (Λ : Matrix (Fin d) (Fin d) ℝ) : (Fin d → ℝ) →L[ℝ] (Fin (2 * d) → ℝ) :=
  ContinuousLinearMap.pi fun a =>
    if h : (a : ℕ) < d then (ContinuousLinearMap.proj ⟨a, h⟩).comp (Λ⁻¹.mulVecLin.toContinuousLinearMap) else 0

theorem gaussOpt_affine (Λ : Matrix (Fin d) (Fin d) ℝ) (μ v w : Fin d → ℝ) :
    gaussOpt Λ μ w = gaussOpt Λ μ v + gaussDeriv Λ (w - v) := by
  funext a
  by_cases h : (a : ℕ) < d
  · simp [gaussOpt, gaussDeriv, h, Matrix.mulVec_sub]
  · simp [gaussOpt, gaussDeriv, h]

theorem gaussOpt_hasFDerivAt (Λ : Matrix (Fin d) (Fin d) ℝ) (μ v : Fin d → ℝ) :
    HasFDerivAt (gaussOpt Λ μ) (gaussDeriv Λ) v := by
  have h : gaussOpt Λ μ = fun w => gaussOpt Λ μ v + gaussDeriv Λ (w - v) := funext fun w => gaussOpt_affine Λ μ v w
  rw [h]
  have h1 : HasFDerivAt (fun w => w - v) (ContinuousLinearMap.id ℝ (Fin d → ℝ)) v := (hasFDerivAt_id v).sub_const v
  have h2 : HasFDerivAt (fun w => gaussDeriv Λ (w - v)) ((gaussDeriv Λ).comp (ContinuousLinearMap.id ℝ (Fin d → ℝ))) v :=
    HasFDerivAt.comp (f := fun w => w - v) v ((gaussDeriv Λ).hasFDerivAt (x := v - v)) h1
  exact h2.const_add (gaussOpt Λ μ v)

/-- The diagonal of the inverse of a positive definite matrix is not below the inverses of the diagonal. -/
theorem inv_diag_le {Λ : Matrix (Fin d) (Fin d) ℝ} (hΛ : Λ.PosDef) (k : Fin d) : 1 / Λ k k ≤ Λ⁻¹ k k := by
  have hk : 0 < Λ k k := hΛ.diag_pos
  have hinv : Λ * Λ⁻¹ = 1 := Matrix.mul_nonsing_inv _ hΛ.det_pos.ne'.isUnit
  let s : Fin d → ℝ := Λ⁻¹ *ᵥ Pi.single k 1
  let b : Fin d → ℝ := Pi.single k (1 / Λ k k)
  have hs : Λ *ᵥ s = Pi.single k 1 := by
    simp only [s]
    rw [Matrix.mulVec_mulVec, hinv, Matrix.one_mulVec]
  have hsym : Λᵀ = Λ := by
    have := hΛ.isHermitian
    rwa [Matrix.IsHermitian, Matrix.conjTranspose_eq_transpose_of_trivial] at this
  have hsq : 0 ≤ (s - b) ⬝ᵥ (Λ *ᵥ (s - b)) := by
    have := hΛ.posSemidef.dotProduct_mulVec_nonneg (s - b)
    simpa using this
  have h1 : s ⬝ᵥ (Λ *ᵥ b) = 1 / Λ k k := by
    rw [Matrix.dotProduct_mulVec, ← Matrix.mulVec_transpose, hsym, hs]
    simp [b]
  have h2 : b ⬝ᵥ (Λ *ᵥ b) = 1 / Λ k k := by
    simp only [b, single_dotProduct, Matrix.mulVec_single]
    simp [hk.ne']
  have h3 : s ⬝ᵥ (Λ *ᵥ s) = Λ⁻¹ k k := by
    rw [hs]; simp [s]
  have h4 : b ⬝ᵥ (Λ *ᵥ s) = 1 / Λ k k := by
    rw [hs]; simp [b]
  rw [Matrix.mulVec_sub, sub_dotProduct, dotProduct_sub, dotProduct_sub, h1, h2, h3, h4] at hsq
  linarith

end

end LRVB
