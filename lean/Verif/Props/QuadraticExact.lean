import Verif.Props.Taylor
import Verif.Props.Sensitivity
import Mathlib.LinearAlgebra.Matrix.PosDef
import Mathlib.Analysis.Calculus.LocalExtr.Basic

/-!
# C155: predictions are exact for quadratic objectives
-/

namespace LRVB

open scoped ContDiff Matrix Topology
open Flt Taylor

noncomputable section

variable {n m : ℕ} {F : (Fin n → ℝ) × (Fin m → ℝ) → ℝ}

/-- `F(u, v) = uᵀ H u / 2 + uᵀ B v + bᵀ u + c(v)`: quadratic in the input, and coupled to the
hyperparameter by a bilinear term. -/
def IsQuadratic (F : (Fin n → ℝ) × (Fin m → ℝ) → ℝ) (H : Matrix (Fin n) (Fin n) ℝ)
    (B : Matrix (Fin n) (Fin m) ℝ) (b : Fin n → ℝ) (c : (Fin m → ℝ) → ℝ) : Prop :=
  ∀ u v, F (u, v) = u ⬝ᵥ (H *ᵥ u) / 2 + u ⬝ᵥ (B *ᵥ v) + b ⬝ᵥ u + c v

/-- `u` is the only minimizer of `F` in its first argument, when the second is `v`. -/
def UniqueMinimizer (F : (Fin n → ℝ) × (Fin m → ℝ) → ℝ) (v : Fin m → ℝ) (u : Fin n → ℝ) : Prop :=
  ∀ w, w ≠ u → F (u, v) < F (w, v)

namespace IsQuadratic

variable {H : Matrix (Fin n) (Fin n) ℝ} {B : Matrix (Fin n) (Fin m) ℝ} {b : Fin n → ℝ}
  {c : (Fin m → ℝ) → ℝ}

theorem along (h : IsQuadratic F H B b c) (hH : H.PosDef) (x u : Fin n → ℝ) (v : Fin m → ℝ) (t : ℝ) :
    F (x + t • u, v) = F (x, v) + t * (u ⬝ᵥ (H *ᵥ x + B *ᵥ v + b)) + t ^ 2 * (u ⬝ᵥ (H *ᵥ u) / 2) := by
  have hs : x ⬝ᵥ (H *ᵥ u) = u ⬝ᵥ (H *ᵥ x) := by
    have hT : Hᵀ = H := by
      have := hH.isHermitian
      rwa [Matrix.IsHermitian, Matrix.conjTranspose_eq_transpose_of_trivial] at this
    rw [dotProduct_comm x, Matrix.dotProduct_mulVec u, ← Matrix.mulVec_transpose, hT]
  rw [h, h]
  simp only [Matrix.mulVec_add, Matrix.mulVec_smul, add_dotProduct, dotProduct_add, smul_dotProduct,
    dotProduct_smul, smul_eq_mul, hs]
  rw [dotProduct_comm b u]
  ring

/-- The minimizer. -/
def opt (H : Matrix (Fin n) (Fin n) ℝ) (B : Matrix (Fin n) (Fin m) ℝ) (b : Fin n → ℝ)
    (v : Fin m → ℝ) : Fin n → ℝ := -(H⁻¹ *ᵥ (B *ᵥ v + b))

theorem opt_min (h : IsQuadratic F H B b c) (hH : H.PosDef) (v : Fin m → ℝ) :
    UniqueMinimizer F v (opt H B b v) := by
  intro w hw
  have h0 : H *ᵥ opt H B b v + B *ᵥ v + b = 0 := by
    rw [opt, Matrix.mulVec_neg, Matrix.mulVec_mulVec,
      Matrix.mul_nonsing_inv _ (isUnit_iff_ne_zero.mpr hH.det_pos.ne'), Matrix.one_mulVec]
    abel
  have h1 := h.along hH (opt H B b v) (w - opt H B b v) v 1
  rw [one_smul, add_sub_cancel, h0, dotProduct_zero] at h1
  have h2 := hH.dotProduct_mulVec_pos (sub_ne_zero.mpr hw)
  simp only [star_trivial] at h2
  rw [h1]
  linarith

theorem opt_affine (v d : Fin m → ℝ) :
    opt H B b (v + d) = opt H B b v + (-(H⁻¹ * B)) *ᵥ d := by
  simp only [opt, Matrix.mulVec_add, Matrix.neg_mulVec, Matrix.mulVec_mulVec]
  abel

theorem curvature (h : IsQuadratic F H B b c) (hH : H.PosDef) (x : Fin n → ℝ) (e : Fin m → ℝ) :
    PositiveCurvature F x e := by
  intro u hu
  have h2 := hH.dotProduct_mulVec_pos hu
  simp only [star_trivial] at h2
  obtain ⟨k, hk⟩ : ∃ k, k = u ⬝ᵥ (H *ᵥ u) := ⟨_, rfl⟩
  obtain ⟨l, hl⟩ : ∃ l, l = u ⬝ᵥ (H *ᵥ x + B *ᵥ e + b) := ⟨_, rfl⟩
  have hf : (fun t : ℝ => F (x + t • u, e)) = fun t => F (x, e) + t * l + t ^ 2 * (k / 2) := by
    funext t
    rw [h.along hH, hk, hl]
  have hd1 : deriv (fun t : ℝ => F (x, e) + t * l + t ^ 2 * (k / 2)) = fun t => l + t * k := by
    funext t
    have h' : HasDerivAt (fun t : ℝ => F (x, e) + t * l + t ^ 2 * (k / 2))
        (1 * l + (2 : ℕ) * t ^ (2 - 1) * (k / 2)) t :=
      (((hasDerivAt_id' t).mul_const l).const_add (F (x, e))).add
        ((hasDerivAt_pow 2 t).mul_const (k / 2))
    rw [h'.deriv]
    push_cast
    ring
  have hd2 : HasDerivAt (fun t : ℝ => l + t * k) k 0 := by
    simpa using ((hasDerivAt_id (0 : ℝ)).mul_const k).const_add l
  rw [hf, iteratedDeriv_succ', iteratedDeriv_one, hd1, hd2.deriv, hk]
  exact h2

theorem smooth (h : IsQuadratic F H B b c) {r : WithTop ℕ∞} (hc : ContDiff ℝ r c) : ContDiff ℝ r F := by
  have hF : F = fun z => (∑ i, z.1 i * ∑ j, H i j * z.1 j) / 2 + (∑ i, z.1 i * ∑ j, B i j * z.2 j) +
      (∑ i, b i * z.1 i) + c z.2 := by
    funext z
    exact h z.1 z.2
  have h1 : ∀ i, ContDiff ℝ r fun z : (Fin n → ℝ) × (Fin m → ℝ) => z.1 i := fun i =>
    (contDiff_apply ℝ ℝ i).comp contDiff_fst
  have h2 : ∀ i, ContDiff ℝ r fun z : (Fin n → ℝ) × (Fin m → ℝ) => z.2 i := fun i =>
    (contDiff_apply ℝ ℝ i).comp contDiff_snd
  rw [hF]
  refine ((ContDiff.add (ContDiff.div_const ?_ 2) ?_).add ?_).add (hc.comp contDiff_snd)
  · exact ContDiff.sum fun i _ => (h1 i).mul (ContDiff.sum fun j _ => contDiff_const.mul (h1 j))
  · exact ContDiff.sum fun i _ => (h1 i).mul (ContDiff.sum fun j _ => contDiff_const.mul (h2 j))
  · exact ContDiff.sum fun i _ => contDiff_const.mul (h1 i)

theorem critical (h : IsQuadratic F H B b c) (hH : H.PosDef) (v : Fin m → ℝ) :
    fderiv ℝ (fun u => F (u, v)) (opt H B b v) = 0 := by
  refine IsLocalMin.fderiv_eq_zero (Filter.Eventually.of_forall fun w => ?_)
  by_cases hw : w = opt H B b v
  · rw [hw]
  · exact (h.opt_min hH v w hw).le

theorem opt_hasFDerivAt (v : Fin m → ℝ) :
    HasFDerivAt (opt H B b) (Matrix.toLin' (-(H⁻¹ * B))).toContinuousLinearMap v := by
  have h1 : opt H B b = fun w => opt H B b v +
      (Matrix.toLin' (-(H⁻¹ * B))).toContinuousLinearMap (w - v) := by
    funext w
    have := opt_affine (H := H) (B := B) (b := b) v (w - v)
    rw [add_sub_cancel] at this
    rw [this]
    rfl
  rw [h1]
  exact (((Matrix.toLin' (-(H⁻¹ * B))).toContinuousLinearMap.hasFDerivAt.comp v
    ((hasFDerivAt_id v).sub_const v)).const_add _)

/-- The base input is the minimizer. -/
theorem eq_opt (h : IsQuadratic F H B b c) (hH : H.PosDef) {x : Fin n → ℝ} {e : Fin m → ℝ}
    (hmin : ∀ u, F (x, e) ≤ F (u, e)) : opt H B b e = x := by
  by_contra hne
  exact absurd (hmin (opt H B b e)) (not_le.mpr (h.opt_min hH e x (Ne.symm hne)))

theorem path (h : IsQuadratic F H B b c) (hH : H.PosDef) (e d : Fin m → ℝ) :
    OptimumPath F (opt H B b e) e d fun t => opt H B b e + t • ((-(H⁻¹ * B)) *ᵥ d) := by
  have hl : ∀ t : ℝ, opt H B b e + t • ((-(H⁻¹ * B)) *ᵥ d) = opt H B b (e + t • d) := by
    intro t
    rw [opt_affine, Matrix.mulVec_smul]
  refine ⟨Filter.Eventually.of_forall fun t => ?_, by simp, Filter.Eventually.of_forall fun t => ?_⟩
  · exact (contDiff_const.add (contDiff_id.smul contDiff_const)).contDiffAt
  · simp only [hl]
    exact h.critical hH _

theorem taylorPoly_line (x v : Fin n → ℝ) {deg : ℕ} (hdeg : 1 ≤ deg) :
    taylorPoly (fun t : ℝ => x + t • v) deg = v := by
  have h1 : deriv (fun t : ℝ => x + t • v) = fun _ => v := by
    funext t
    simpa using (((hasDerivAt_id t).smul_const v).const_add x).deriv
  rw [taylorPoly, Finset.sum_eq_single 1]
  · rw [iteratedDeriv_one, h1]
    simp
  · intro k hk hk1
    obtain ⟨j, rfl⟩ : ∃ j, k = j + 1 + 1 := ⟨k - 2, by have := (Finset.mem_Icc.mp hk).1; omega⟩
    rw [iteratedDeriv_succ', h1, iteratedDeriv_const]
    simp
  · intro hk
    exact absurd (Finset.mem_Icc.mpr ⟨le_rfl, hdeg⟩) hk

end IsQuadratic

/-- **C155** Let the objective compute a function which is quadratic in the input, with positive
definite quadratic part, and coupled to the hyperparameter by a bilinear term, and let the base input
be a minimizer at the base hyperparameter.  Then the constructor of the linear approximation succeeds,
and for every new hyperparameter, however far away, the predicted input is the only minimizer. -/
theorem C155_linear_exact {H : Matrix (Fin n) (Fin n) ℝ} {B : Matrix (Fin n) (Fin m) ℝ} {b : Fin n → ℝ}
    {c : (Fin m → ℝ) → ℝ} (hq : IsQuadratic F H B b c) (hH : H.PosDef) (hc : ContDiff ℝ 2 c) (hn : 0 < n)
    (objFn : Param → Param → Py Arr) (inputPar hyperPar : Param)
    (hev : Evaluates inputPar hyperPar objFn true false F)
    (x e : List ℝ) (hx : x.length = n) (he : e.length = m)
    (hmin : ∀ u, F (toVec n x, toVec m e) ≤ F (u, toVec m e)) :
    ∃ T, LinApprox.new objFn inputPar hyperPar x e true false none none = .ok T ∧
      ∀ new : List ℝ, new.length = m → ∃ s, T.predictInput new = .ok s ∧ s.length = n ∧
        UniqueMinimizer F (toVec m new) (toVec n s) := by
  have hF := hq.smooth hc
  obtain ⟨T, h1, h2, -⟩ := C51_linear_approximation hF hF (fun _ => 0) (fun u v => by simp) hn objFn none
    inputPar hyperPar hev hev x e hx he (hq.curvature hH _ _) none
  refine ⟨T, h1, fun new hnew => ?_⟩
  have hder := IsQuadratic.opt_hasFDerivAt (H := H) (B := B) (b := b) (toVec m e)
  obtain ⟨A, hA, -, hp⟩ := h2.2 (IsQuadratic.opt H B b) hder.continuousAt (hq.eq_opt hH hmin)
    (Filter.Eventually.of_forall fun v => hq.critical hH v)
  refine ⟨_, hp new hnew, by simp, ?_⟩
  have : toVec n (List.ofFn (toVec n x + A (toVec m new - toVec m e))) =
      IsQuadratic.opt H B b (toVec m new) := by
    rw [hA.unique hder]
    have h3 := IsQuadratic.opt_affine (H := H) (B := B) (b := b) (toVec m e) (toVec m new - toVec m e)
    rw [add_sub_cancel, hq.eq_opt hH hmin] at h3
    rw [h3]
    funext i
    simp [toVec, Matrix.toLin'_apply, Matrix.neg_mulVec]
  rw [this]
  exact hq.opt_min hH _

/-- **C155** for the Taylor expansion: the series of every degree gives the only minimizer, for every
direction. -/
theorem C155_taylor_exact {H : Matrix (Fin n) (Fin n) ℝ} {B : Matrix (Fin n) (Fin m) ℝ} {b : Fin n → ℝ}
    {c : (Fin m → ℝ) → ℝ} (hq : IsQuadratic F H B b c) (hH : H.PosDef) (hc : ContDiff ℝ ∞ c) (hn : 0 < n)
    (hm : 0 < m) (objFn : Param → Param → Py Arr) (inputPar hyperPar : Param) (hyperIsFree : Bool)
    (hev : Evaluates inputPar hyperPar objFn true hyperIsFree F)
    (x e : List ℝ) (hx : x.length = n) (he : e.length = m)
    (hmin : ∀ u, F (toVec n x, toVec m e) ≤ F (u, toVec m e)) (order : ℕ) (ho : 1 ≤ order) :
    ∃ T, Taylor.new objFn inputPar hyperPar x e order true hyperIsFree none none = .ok T ∧
      ∀ d : List ℝ, d.length = m → ∀ deg : ℕ, 1 ≤ deg → deg ≤ order →
        ∃ s, (T.evaluateSeries d true (some deg)).2 = .ok s ∧ s.length = n ∧
          UniqueMinimizer F (toVec m e + toVec m d) (toVec n s) := by
  have hF := hq.smooth hc
  obtain ⟨T, h1, h2, -⟩ := C56_taylor_series hF hn hm objFn inputPar hyperPar hyperIsFree hev x e hx he
    (hq.curvature hH _ _) order ho none
  refine ⟨T, h1, fun d hd deg hdeg hdo => ?_⟩
  have hp := hq.path hH (toVec m e) (toVec m d)
  rw [hq.eq_opt hH hmin] at hp
  refine ⟨_, ((h2 d hd _ hp).1 deg hdeg hdo).1, by simp, ?_⟩
  rw [IsQuadratic.taylorPoly_line _ _ hdeg]
  have h3 := IsQuadratic.opt_affine (H := H) (B := B) (b := b) (toVec m e) (toVec m d)
  rw [hq.eq_opt hH hmin] at h3
  rw [← h3]
  have : toVec n (List.ofFn (IsQuadratic.opt H B b (toVec m e + toVec m d))) =
      IsQuadratic.opt H B b (toVec m e + toVec m d) := by
    funext i
    simp [toVec]
  rw [this]
  exact hq.opt_min hH _

/-- `x² - ε x`. -/
def exP (x ε : ℝ) : ℝ := x ^ 2 - ε * x

/-- The hypotheses of C155 are met by `x² - ε x` at `ε = 2`, with minimizer 1. -/
example : ∃ (F : (Fin 1 → ℝ) × (Fin 1 → ℝ) → ℝ) (H B : Matrix (Fin 1) (Fin 1) ℝ) (b : Fin 1 → ℝ)
    (c : (Fin 1 → ℝ) → ℝ), IsQuadratic F H B b c ∧ H.PosDef ∧ ContDiff ℝ ∞ c ∧
    Evaluates (scPar ninf) (scPar ninf) (scFn exP) true false F ∧
    ∀ u, F (toVec 1 [1], toVec 1 [2]) ≤ F (u, toVec 1 [2]) := by
  refine ⟨fun z => exP (z.1 0) (z.2 0), Matrix.diagonal fun _ => 2, Matrix.diagonal fun _ => -1, 0,
    fun _ => 0, ?_, Matrix.PosDef.diagonal fun _ => two_pos, contDiff_const, scFn_real exP true false, ?_⟩
  · intro u v
    simp [exP, dotProduct, Matrix.mulVec_diagonal]
    ring
  · intro u
    simp only [exP, toVec]
    simp
    nlinarith [sq_nonneg (u 0 - 1)]

end

end LRVB
