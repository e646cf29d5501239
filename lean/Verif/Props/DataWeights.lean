import Verif.Props.SensAgree

/-!
# C158: sensitivity to data weights
-/

namespace LRVB

open scoped ContDiff Matrix Topology
open Flt Taylor

noncomputable section

variable {n m : ℕ} {F : (Fin n → ℝ) × (Fin m → ℝ) → ℝ}

/-- `F(u, w) = f(u) + ∑ⱼ wⱼ ℓⱼ(u)`: the hyperparameter is the weights of `m` observations, each with a
loss `ℓⱼ` of the input. -/
def IsWeighted (F : (Fin n → ℝ) × (Fin m → ℝ) → ℝ) (f : (Fin n → ℝ) → ℝ)
    (ell : Fin m → (Fin n → ℝ) → ℝ) : Prop :=
  ∀ u w, F (u, w) = f u + ∑ j, w j * ell j u

/-- The matrix of second derivatives of `f` at `x`. -/
def hessianAt (f : (Fin n → ℝ) → ℝ) (x : Fin n → ℝ) : Matrix (Fin n) (Fin n) ℝ :=
  Matrix.of fun i j => fderiv ℝ (fun u => fderiv ℝ f u (Pi.single i 1)) x (Pi.single j 1)

/-- The gradient of `f` at `x`. -/
def gradientAt (f : (Fin n → ℝ) → ℝ) (x : Fin n → ℝ) : Fin n → ℝ := fun i => fderiv ℝ f x (Pi.single i 1)

namespace IsWeighted

variable {f : (Fin n → ℝ) → ℝ} {ell : Fin m → (Fin n → ℝ) → ℝ}

theorem contDiff (h : IsWeighted F f ell) {k : ℕ∞ω} (hf : ContDiff ℝ k f)
    (hl : ∀ j, ContDiff ℝ k (ell j)) : ContDiff ℝ k F := by
  have : F = fun z => f z.1 + ∑ j, z.2 j * ell j z.1 := by funext z; exact h z.1 z.2
  rw [this]
  refine (hf.comp contDiff_fst).add (ContDiff.sum fun j _ => ?_)
  exact ((contDiff_apply ℝ ℝ j).comp contDiff_snd).mul ((hl j).comp contDiff_fst)

theorem cross (h : IsWeighted F f ell) (hf : ContDiff ℝ 2 f) (hl : ∀ j, ContDiff ℝ 2 (ell j))
    (x : Fin n → ℝ) (w : Fin m → ℝ) (i : Fin n) (j : Fin m) :
    fderiv ℝ (fderiv ℝ F) (x, w) (0, basis m j) (basis n i, 0) = gradientAt (ell j) x i := by
  have hF := h.contDiff hf hl
  have h1 := (fderiv2_hasFDerivAt hF (x, w) (basis n i, 0)).comp (f := fun v => (x, v)) w
    ((hasFDerivAt_const x w).prodMk (hasFDerivAt_id w))
  have h2 : ((fun z => fderiv ℝ F z (basis n i, 0)) ∘ fun v => (x, v)) =
      fun v => fderiv ℝ f x (basis n i) + ∑ j, v j * fderiv ℝ (ell j) x (basis n i) := by
    funext v
    simp only [Function.comp_apply]
    rw [← fderiv_left hF]
    have h3 : (fun u => F (u, v)) = fun u => f u + ∑ j, v j * ell j u := by funext u; exact h u v
    have h4 : HasFDerivAt (fun u => f u + ∑ j, v j * ell j u)
        (fderiv ℝ f x + ∑ j, v j • fderiv ℝ (ell j) x) x :=
      (hf.differentiable (by norm_num) x).hasFDerivAt.add (HasFDerivAt.fun_sum fun j _ =>
        ((hl j).differentiable (by norm_num) x).hasFDerivAt.const_mul (v j))
    rw [h3, h4.fderiv]
    simp
  rw [h2] at h1
  have h5 : HasFDerivAt (fun v : Fin m → ℝ => fderiv ℝ f x (basis n i) +
      ∑ j, v j * fderiv ℝ (ell j) x (basis n i))
      (∑ j, (fderiv ℝ (ell j) x (basis n i)) • ContinuousLinearMap.proj (R := ℝ) (φ := fun _ => ℝ) j) w :=
    (HasFDerivAt.fun_sum fun j _ => (hasFDerivAt_apply j w).mul_const _).const_add _
  have h6 := congrArg (fun L => L (basis m j)) (h1.unique h5)
  simp only [ContinuousLinearMap.comp_apply, ContinuousLinearMap.prod_apply] at h6
  simp only [ContinuousLinearMap.zero_apply, ContinuousLinearMap.id_apply] at h6
  rw [show fderiv ℝ (fderiv ℝ F) (x, w) (0, basis m j) (basis n i, 0) =
    (fderiv ℝ (fderiv ℝ F) (x, w)).flip (basis n i, 0) (0, basis m j) from rfl, h6, gradientAt,
    ← basis_eq_single]
  simp only [ContinuousLinearMap.sum_apply, ContinuousLinearMap.smul_apply,
    ContinuousLinearMap.proj_apply, smul_eq_mul, basis_eq_single (m := m)]
  rw [Finset.sum_eq_single j]
  · simp
  · intro k _ hk; simp [hk]
  · simp

end IsWeighted

theorem hessianAt_eq (hF : ContDiff ℝ 2 F) (x : Fin n → ℝ) (e : Fin m → ℝ) :
    toMatrix n n (hessArr F x e) = hessianAt (fun u => F (u, e)) x := by
  ext i j
  rw [toMatrix_hessArr, ← fderiv2_left hF, hessianAt, Matrix.of_apply, basis_eq_single, basis_eq_single]
  have hd : DifferentiableAt ℝ (fderiv ℝ fun u => F (u, e)) x :=
    ((contDiff_left hF e).fderiv_right (m := 1) (by norm_num)).differentiable (by norm_num) x
  have h := (hd.hasFDerivAt.clm_apply (hasFDerivAt_const (Pi.single i (1 : ℝ)) x)).fderiv
  rw [h]
  simp

/-- The linear response to the weights of observations with losses `ell`: for each observation there is
exactly one solution `v j` of `H v = ∇ℓⱼ(x)`, with `H` the Hessian of the weighted objective in the
input; the derivative of the input with respect to the weight of the observation is `-v j`; and the
prediction at new weights adds up these influences. -/
def Influences (F : (Fin n → ℝ) × (Fin m → ℝ) → ℝ) (ell : Fin m → (Fin n → ℝ) → ℝ) (x w : List ℝ)
    (dinput : Arr) (predict : List ℝ → Py (List ℝ)) : Prop :=
  IsMat dinput n m ∧ ∃ v : Fin m → Fin n → ℝ,
    (∀ j u, hessianAt (fun u => F (u, toVec m w)) (toVec n x) *ᵥ u = gradientAt (ell j) (toVec n x) ↔
      u = v j) ∧
    (∀ (i : Fin n) (j : Fin m), dinput.at2 i j = -v j i) ∧
    ∀ new : List ℝ, new.length = m →
      predict new = .ok (List.ofFn (toVec n x - ∑ j, (toVec m new j - toVec m w j) • v j))

theorem influences_of {f : (Fin n → ℝ) → ℝ} {ell : Fin m → (Fin n → ℝ) → ℝ} (h : IsWeighted F f ell)
    (hf : ContDiff ℝ 2 f) (hl : ∀ j, ContDiff ℝ 2 (ell j)) {x w : List ℝ} (hx : x.length = n)
    (hw : w.length = m) (hpc : PositiveCurvature F (toVec n x) (toVec m w)) :
    Influences F ell x w
      (sensArr n m (hessArr F (toVec n x) (toVec m w)) (crossArr F (toVec n x) (toVec m w)))
      (fun new => do
        let d ← vsub new w
        vadd x (← (sensArr n m (hessArr F (toVec n x) (toVec m w))
          (crossArr F (toVec n x) (toVec m w))).mulVec d)) := by
  have hF := h.contDiff hf hl
  have hu : IsUnit (hessianAt (fun u => F (u, toVec m w)) (toVec n x)).det := by
    rw [← hessianAt_eq hF]
    exact isUnit_iff_ne_zero.mpr (hessArr_posDef hF hpc).det_pos.ne'
  have hD : toMatrix n m (sensArr n m (hessArr F (toVec n x) (toVec m w))
      (crossArr F (toVec n x) (toVec m w))) = Matrix.of fun i j =>
        -((hessianAt (fun u => F (u, toVec m w)) (toVec n x))⁻¹ *ᵥ gradientAt (ell j) (toVec n x)) i := by
    rw [toMatrix_sensArr, hessianAt_eq hF]
    ext i j
    simp only [Matrix.neg_apply, Matrix.of_apply, Matrix.mul_apply, Matrix.mulVec, dotProduct]
    congr 1
    refine Finset.sum_congr rfl fun k _ => ?_
    rw [toMatrix, Matrix.of_apply, crossArr, Arr.at2_ofFn2 _ _ _ k.2 j.2, h.cross hf hl]
  refine ⟨sensArr_isMat _ _, fun j => (hessianAt (fun u => F (u, toVec m w)) (toVec n x))⁻¹ *ᵥ
    gradientAt (ell j) (toVec n x), ?_, ?_, ?_⟩
  · intro j u
    constructor
    · intro hu'
      simp only
      rw [← hu', Matrix.mulVec_mulVec, Matrix.nonsing_inv_mul _ hu, Matrix.one_mulVec]
    · rintro rfl
      rw [Matrix.mulVec_mulVec, Matrix.mul_nonsing_inv _ hu, Matrix.one_mulVec]
  · intro i j
    have := congrFun (congrFun hD i) j
    rwa [toMatrix, Matrix.of_apply, Matrix.of_apply] at this
  · intro new hnew
    simp only
    rw [predict_eq (sensArr_isMat _ _).2 hx hw hnew, hD]
    congr 2
    funext i
    simp only [Pi.add_apply, Pi.sub_apply, Finset.sum_apply, Pi.smul_apply, smul_eq_mul]
    rw [sub_eq_add_neg (toVec n x i), ← Finset.sum_neg_distrib]
    congr 1
    simp only [Matrix.mulVec, dotProduct, Matrix.of_apply, Pi.sub_apply]
    exact Finset.sum_congr rfl fun j _ => by ring

/-- **C158** Let the objective weigh observations: it computes `f(u) + ∑ⱼ wⱼ ℓⱼ(u)` from the free value
`u` of the input and the vector value `w` of the hyperparameter, with `f` and the losses `ℓⱼ` twice
continuously differentiable, and positive curvature in the input at the base values.  Then the
derivative of `ParametricSensitivityLinearApproximation` with respect to the weight of an observation is
minus the inverse Hessian times the gradient of the loss of that observation alone, and the prediction
at other weights, such as zero for a dropped observation, is the sum of these influences. -/
theorem C158_linear_approximation {f : (Fin n → ℝ) → ℝ} {ell : Fin m → (Fin n → ℝ) → ℝ}
    (h : IsWeighted F f ell) (hf : ContDiff ℝ 2 f) (hl : ∀ j, ContDiff ℝ 2 (ell j)) (hn : 0 < n)
    (objFn : Param → Param → Py Arr) (inputPar hyperPar : Param)
    (hev : Evaluates inputPar hyperPar objFn true false F) (x w : List ℝ) (hx : x.length = n)
    (hw : w.length = m) (hpc : PositiveCurvature F (toVec n x) (toVec m w)) (hess0 : Option Arr) :
    ∃ T, LinApprox.new objFn inputPar hyperPar x w true false hess0 none = .ok T ∧
      Influences F ell x w T.dinputDhyper T.predictInput := by
  have hF := h.contDiff hf hl
  obtain ⟨l, hl'⟩ := LinApprox.setBase_ok (T := ⟨inputPar, hyperPar, true, false, objFn,
    objFn, ⟨⟨[0, 0], []⟩, [], []⟩, ⟨[0, 0], []⟩, ⟨[0, 0], []⟩, ⟨[0, 0], []⟩⟩) rfl rfl
    hF hev hF hev hn hx hw none rfl (hessArr_posDef hF hpc)
  refine ⟨_, by simp only [LinApprox.new, Option.getD_none, hl']; rfl, ?_⟩
  exact influences_of h hf hl hx hw hpc

/-- **C158** for `ParametricSensitivity`, where the losses may also be given by a functor of their own
that leaves out the part `f`. -/
theorem C158_parametric_sensitivity {G : (Fin n → ℝ) × (Fin m → ℝ) → ℝ} {K : (Fin n → ℝ) → ℕ → ℝ}
    {eigh : Eigh} {objFn : Param → Param → Py Arr} {inputPar outputPar hyperPar : Param}
    {conv : Param → Param → Param × Option PyErr} {optInput : Option (List ℝ)}
    {hyperFn : Option (Param → Param → Py Arr)} {x w : List ℝ}
    {f : (Fin n → ℝ) → ℝ} {ell : Fin m → (Fin n → ℝ) → ℝ}
    (h : IsWeighted F f ell) (hf : ContDiff ℝ 2 f) (hl : ∀ j, ContDiff ℝ 2 (ell j))
    (hS : SensSetting F G K eigh objFn inputPar outputPar hyperPar conv optInput hyperFn x w)
    (hpc : PositiveCurvature F (toVec n x) (toVec m w)) :
    ∃ S, Sens.new objFn inputPar outputPar hyperPar conv optInput none hyperFn = .ok S ∧
      Influences F ell x w S.dinputDhyper S.predictInput := by
  obtain ⟨S, o, h1, -, -, h2, h3, h4, -, -, -⟩ := hS.new_ok none rfl (hessArr_posDef hS.smoothF hpc)
  rw [Option.getD_none] at h2
  have := influences_of h hf hl hS.lenX hS.lenE hpc
  refine ⟨S, h1, ?_⟩
  rw [Sens.dinputDhyper, h2]
  convert this using 1
  funext new
  simp only [Sens.predictInput, h2, h3, h4]

/-- The hypotheses of C158 are met: `x² / 2 + x³ / 6` and one observation, with loss `-x`. -/
example : IsWeighted exHF (fun u => u 0 ^ 2 / 2 + u 0 ^ 3 / 6) (fun _ u => -u 0) ∧
    (∀ k : ℕ∞ω, ContDiff ℝ k fun u : Fin 1 → ℝ => u 0 ^ 2 / 2 + u 0 ^ 3 / 6) ∧
    (∀ k : ℕ∞ω, ContDiff ℝ k fun u : Fin 1 → ℝ => -u 0) ∧
    Evaluates (scPar ninf) (scPar ninf) (scFn exH) true false exHF ∧
    PositiveCurvature exHF (toVec 1 [0]) (toVec 1 [0]) ∧
    ∃ eigh, EighContract eigh ∧
      SensSetting exHF exHF (fun u _ => 2 * u 0) eigh (scFn exH) (scPar ninf) (scPar ninf)
        ((scPar ninf).vecP [0]) doubling (some [0]) none [0] [0] := by
  have h0 : ∀ k : ℕ∞ω, ContDiff ℝ k fun u : Fin 1 → ℝ => u 0 := fun k => contDiff_apply ℝ ℝ 0
  refine ⟨fun u w => ?_, fun k => (((h0 k).pow 2).div_const 2).add (((h0 k).pow 3).div_const 6),
    fun k => (h0 k).neg, exHF_case.1, exHF_case.2.2, ?_⟩
  · simp [exHF, exH]; ring
  · obtain ⟨eigh, he⟩ := exists_eigh
    exact ⟨eigh, he, doubling_setting eigh he⟩

end

end LRVB
