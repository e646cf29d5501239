import Verif.Props.DataWeights
import Verif.Props.Directions

/-!
# C171: changing the hyperparameters or the scale of the objective
-/

namespace LRVB

open scoped ContDiff Matrix Topology
open Flt Taylor Filter

noncomputable section

variable {n m m' : ℕ} {F : (Fin n → ℝ) × (Fin m → ℝ) → ℝ} {F' : (Fin n → ℝ) × (Fin m' → ℝ) → ℝ}

/-- `F'` is `F` with the hyperparameter written as a function `φ` of another one, multiplied by a positive
constant, and with a term added that does not involve the input. -/
def Recast (F : (Fin n → ℝ) × (Fin m → ℝ) → ℝ) (F' : (Fin n → ℝ) × (Fin m' → ℝ) → ℝ) (c : ℝ)
    (φ : (Fin m' → ℝ) → Fin m → ℝ) (r : (Fin m' → ℝ) → ℝ) : Prop :=
  0 < c ∧ ∀ u w, F' (u, w) = c * F (u, φ w) + r w

/-- The matrix of first derivatives of `φ` at `w`. -/
def jacobianAt (φ : (Fin m' → ℝ) → Fin m → ℝ) (w : Fin m' → ℝ) : Matrix (Fin m) (Fin m') ℝ :=
  Matrix.of fun k j => fderiv ℝ φ w (Pi.single j 1) k

theorem affine_contDiff (A : Matrix (Fin m) (Fin m') ℝ) (b : Fin m → ℝ) {k : ℕ∞ω} :
    ContDiff ℝ k fun v : Fin m' → ℝ => A *ᵥ v + b :=
  (LinearMap.toContinuousLinearMap (Matrix.mulVecLin A)).contDiff.add contDiff_const

theorem affine_jacobian (A : Matrix (Fin m) (Fin m') ℝ) (b : Fin m → ℝ) (w : Fin m' → ℝ) :
    jacobianAt (fun v : Fin m' → ℝ => A *ᵥ v + b) w = A := by
  ext k j
  have h1 : HasFDerivAt (fun v : Fin m' → ℝ => A *ᵥ v + b)
      (LinearMap.toContinuousLinearMap (Matrix.mulVecLin A)) w :=
    (LinearMap.toContinuousLinearMap (Matrix.mulVecLin A)).hasFDerivAt.add_const _
  rw [jacobianAt, Matrix.of_apply, h1.fderiv]
  simp

namespace Recast

variable {c : ℝ} {φ : (Fin m' → ℝ) → Fin m → ℝ} {r : (Fin m' → ℝ) → ℝ}

theorem contDiff (h : Recast F F' c φ r) {k : ℕ∞ω} (hF : ContDiff ℝ k F) (hφ : ContDiff ℝ k φ)
    (hr : ContDiff ℝ k r) : ContDiff ℝ k F' := by
  have : F' = fun z => c * F (z.1, φ z.2) + r z.2 := by funext z; exact h.2 z.1 z.2
  rw [this]
  exact (contDiff_const.mul (hF.comp (contDiff_fst.prodMk (hφ.comp contDiff_snd)))).add
    (hr.comp contDiff_snd)

theorem partial_eq (h : Recast F F' c φ r) (hF : ContDiff ℝ 2 F) (u : Fin n → ℝ) (w : Fin m' → ℝ) :
    fderiv ℝ (fun u => F' (u, w)) u = c • fderiv ℝ (fun u => F (u, φ w)) u := by
  have h1 : (fun u => F' (u, w)) = fun u => c * F (u, φ w) + r w := by funext u; exact h.2 u w
  rw [h1]
  exact ((((contDiff_left hF (φ w)).differentiable (by norm_num) u).hasFDerivAt.const_mul c).add_const _).fderiv

theorem gradF_eq (h : Recast F F' c φ r) (hF : ContDiff ℝ 2 F) (hF' : ContDiff ℝ 2 F') :
    gradF F' = fun z => c • gradF F (z.1, φ z.2) := by
  funext z i
  obtain ⟨u, w⟩ := z
  simp only [gradF, Pi.smul_apply]
  rw [← fderiv_left hF', ← fderiv_left hF, h.partial_eq hF]
  rfl

theorem crit_iff (h : Recast F F' c φ r) (hF : ContDiff ℝ 2 F) (u : Fin n → ℝ) (w : Fin m' → ℝ) :
    fderiv ℝ (fun u => F' (u, w)) u = 0 ↔ fderiv ℝ (fun u => F (u, φ w)) u = 0 := by
  rw [h.partial_eq hF, smul_eq_zero_iff_right h.1.ne']

theorem curvature (h : Recast F F' c φ r) {x : Fin n → ℝ} {w : Fin m' → ℝ}
    (hp : PositiveCurvature F x (φ w)) : PositiveCurvature F' x w := by
  intro u hu
  have h1 := hp u hu
  have h2 : (fun t : ℝ => F' (x + t • u, w)) = fun t => c * F (x + t • u, φ w) + r w := by
    funext t; exact h.2 _ w
  rw [iteratedDeriv_succ, iteratedDeriv_one] at h1 ⊢
  rw [h2]
  have h3 : deriv (fun t : ℝ => c * F (x + t • u, φ w) + r w) = fun t => c * deriv (fun t : ℝ => F (x + t • u, φ w)) t := by
    funext t
    rw [deriv_add_const, deriv_const_mul_field]
  rw [h3, deriv_const_mul_field]
  exact mul_pos h.1 h1

theorem second (h : Recast F F' c φ r) (hF : ContDiff ℝ 2 F) (hF' : ContDiff ℝ 2 F') (hφ : Differentiable ℝ φ)
    (x a : Fin n → ℝ) (w b : Fin m' → ℝ) :
    fderiv ℝ (gradF F') (x, w) (a, b) = c • fderiv ℝ (gradF F) (x, φ w) (a, fderiv ℝ φ w b) := by
  have hg : HasFDerivAt (gradF F) (fderiv ℝ (gradF F) (x, φ w)) (x, φ w) :=
    ((gradF_contDiff1 hF).differentiable (by norm_num) _).hasFDerivAt
  have hin : HasFDerivAt (fun z : (Fin n → ℝ) × (Fin m' → ℝ) => (z.1, φ z.2))
      ((ContinuousLinearMap.fst ℝ _ _).prod ((fderiv ℝ φ w).comp (ContinuousLinearMap.snd ℝ _ _))) (x, w) :=
    hasFDerivAt_fst.prodMk (HasFDerivAt.comp (x, w) (hφ w).hasFDerivAt hasFDerivAt_snd)
  have h1 := (HasFDerivAt.comp (x, w) hg hin).const_smul c
  rw [h.gradF_eq hF hF']
  have h2 : fderiv ℝ (fun z : (Fin n → ℝ) × (Fin m' → ℝ) => c • gradF F (z.1, φ z.2)) (x, w) = _ := h1.fderiv
  rw [h2]
  rfl

theorem hess (h : Recast F F' c φ r) (hF : ContDiff ℝ 2 F) (hF' : ContDiff ℝ 2 F') (hφ : Differentiable ℝ φ)
    (x : Fin n → ℝ) (w : Fin m' → ℝ) :
    toMatrix n n (hessArr F' x w) = c • toMatrix n n (hessArr F x (φ w)) := by
  ext i j
  rw [Matrix.smul_apply, toMatrix_hessArr, toMatrix_hessArr, ← gradF_fderiv hF', ← gradF_fderiv hF,
    h.second hF hF' hφ, map_zero]
  rfl

theorem cross (h : Recast F F' c φ r) (hF : ContDiff ℝ 2 F) (hF' : ContDiff ℝ 2 F') (hφ : Differentiable ℝ φ)
    (x : Fin n → ℝ) (w : Fin m' → ℝ) :
    toMatrix n m' (crossArr F' x w) = c • (toMatrix n m (crossArr F x (φ w)) * jacobianAt φ w) := by
  have hlin := clm_eq_mulVec ((fderiv ℝ (gradF F) (x, φ w)).comp
    (ContinuousLinearMap.inr ℝ (Fin n → ℝ) (Fin m → ℝ)))
    (toMatrix n m (crossArr F x (φ w))) (fun i j => by
      rw [toMatrix, Matrix.of_apply, crossArr, Arr.at2_ofFn2 _ _ _ i.2 j.2]
      simp only [ContinuousLinearMap.comp_apply, ContinuousLinearMap.inr_apply]
      rw [gradF_fderiv hF, basis_eq_single j])
  ext i j
  rw [toMatrix, Matrix.of_apply, crossArr, Arr.at2_ofFn2 _ _ _ i.2 j.2, ← gradF_fderiv hF',
    h.second hF hF' hφ, Matrix.smul_apply, Pi.smul_apply]
  have h1 := congrFun (hlin (fderiv ℝ φ w (basis m' j))) i
  simp only [ContinuousLinearMap.comp_apply, ContinuousLinearMap.inr_apply] at h1
  rw [h1, basis_eq_single]
  rfl

/-- The sensitivity matrices are related by the chain rule. -/
theorem sens (h : Recast F F' c φ r) (hF : ContDiff ℝ 2 F) (hF' : ContDiff ℝ 2 F') (hφ : Differentiable ℝ φ)
    {x : Fin n → ℝ} {w : Fin m' → ℝ} (hp : PositiveCurvature F x (φ w)) :
    toMatrix n m' (sensArr n m' (hessArr F' x w) (crossArr F' x w)) =
      toMatrix n m (sensArr n m (hessArr F x (φ w)) (crossArr F x (φ w))) * jacobianAt φ w := by
  have hu : IsUnit (toMatrix n n (hessArr F x (φ w))).det :=
    isUnit_iff_ne_zero.mpr (hessArr_posDef hF hp).det_pos.ne'
  have hu' : IsUnit (toMatrix n n (hessArr F' x w)).det :=
    isUnit_iff_ne_zero.mpr (hessArr_posDef hF' (h.curvature hp)).det_pos.ne'
  rw [toMatrix_sensArr, toMatrix_sensArr, Matrix.neg_mul]
  congr 1
  have h1 : toMatrix n m' (crossArr F' x w) = toMatrix n n (hessArr F' x w) *
      ((toMatrix n n (hessArr F x (φ w)))⁻¹ * toMatrix n m (crossArr F x (φ w)) * jacobianAt φ w) := by
    rw [h.hess hF hF' hφ, h.cross hF hF' hφ, Matrix.smul_mul, Matrix.mul_assoc _ (toMatrix n m _),
      Matrix.mul_nonsing_inv_cancel_left _ _ hu]
  rw [h1, Matrix.nonsing_inv_mul_cancel_left _ _ hu']

end Recast

/-- `J'` is the matrix `J` with `a` rows times the Jacobian `D`. -/
def IsProduct (J J' : Arr) (a : ℕ) (D : Matrix (Fin m) (Fin m') ℝ) : Prop :=
  IsMat J a m ∧ IsMat J' a m' ∧ ∀ i < a, ∀ j : Fin m', J'.at2 i j = ∑ k : Fin m, J.at2 i k * D k j

/-- **C171** Let one objective compute `F(input, hyper)` and another one `c F(input, φ(hyper')) + r(hyper')` with
`c > 0`, with positive curvature in the input at the base values, which need not be an optimum.  Both
linear approximations can be built, and the derivative with respect to the new hyperparameter is the derivative
with respect to the old one times the Jacobian of `φ`: the constant and the added term do not matter.  If
`φ` is affine then the predictions at corresponding values are the same. -/
theorem C171_linear_approximation {c : ℝ} {φ : (Fin m' → ℝ) → Fin m → ℝ} {r : (Fin m' → ℝ) → ℝ}
    (h : Recast F F' c φ r) (hF : ContDiff ℝ 2 F) (hφ : ContDiff ℝ 2 φ) (hr : ContDiff ℝ 2 r) (hn : 0 < n)
    (objFn objFn' : Param → Param → Py Arr) (inputPar hyperPar inputPar' hyperPar' : Param)
    (hev : Evaluates inputPar hyperPar objFn true false F)
    (hev' : Evaluates inputPar' hyperPar' objFn' true false F')
    (x e w : List ℝ) (hx : x.length = n) (he : e.length = m) (hw : w.length = m')
    (hew : toVec m e = φ (toVec m' w)) (hpc : PositiveCurvature F (toVec n x) (toVec m e)) :
    ∃ T T', LinApprox.new objFn inputPar hyperPar x e true false none none = .ok T ∧
      LinApprox.new objFn' inputPar' hyperPar' x w true false none none = .ok T' ∧
      IsProduct T.dinputDhyper T'.dinputDhyper n (jacobianAt φ (toVec m' w)) ∧
      ((∃ (A : Matrix (Fin m) (Fin m') ℝ) (b : Fin m → ℝ), φ = fun v => A *ᵥ v + b) →
        ∀ new new' : List ℝ, new.length = m → new'.length = m' → toVec m new = φ (toVec m' new') →
          ∃ s, T.predictInput new = .ok s ∧ T'.predictInput new' = .ok s) := by
  have hF' := h.contDiff hF hφ hr
  have hd := hφ.differentiable (by norm_num)
  rw [hew] at hpc
  have hpc' := h.curvature hpc
  rw [← hew] at hpc
  obtain ⟨l, hl⟩ := LinApprox.setBase_ok (T := ⟨inputPar, hyperPar, true, false, objFn,
    objFn, ⟨⟨[0, 0], []⟩, [], []⟩, ⟨[0, 0], []⟩, ⟨[0, 0], []⟩, ⟨[0, 0], []⟩⟩) rfl rfl
    hF hev hF hev hn hx he none rfl (hessArr_posDef hF hpc)
  obtain ⟨l', hl'⟩ := LinApprox.setBase_ok (T := ⟨inputPar', hyperPar', true, false, objFn',
    objFn', ⟨⟨[0, 0], []⟩, [], []⟩, ⟨[0, 0], []⟩, ⟨[0, 0], []⟩, ⟨[0, 0], []⟩⟩) rfl rfl
    hF' hev' hF' hev' hn hx hw none rfl (hessArr_posDef hF' hpc')
  have hs := h.sens hF hF' hd (by rw [← hew]; exact hpc)
  rw [← hew] at hs
  refine ⟨_, _, by simp only [LinApprox.new, Option.getD_none, hl]; rfl,
    by simp only [LinApprox.new, Option.getD_none, hl']; rfl, ⟨?_, ?_, ?_⟩, ?_⟩
  · exact sensArr_isMat _ _
  · exact sensArr_isMat _ _
  · intro i hi j
    exact congrFun (congrFun hs ⟨i, hi⟩) j
  · rintro ⟨A, b, hA⟩ new new' hnew hnew' hnn
    refine ⟨_, predict_eq (sensArr_isMat _ _).2 hx he hnew, ?_⟩
    · simp only [LinApprox.predictInput, Option.getD_none]
      rw [predict_eq (sensArr_isMat _ _).2 hx hw hnew', hs, ← Matrix.mulVec_mulVec]
      have hJ : jacobianAt φ (toVec m' w) = A := by rw [hA]; exact affine_jacobian A b _
      have hv : A *ᵥ (toVec m' new' - toVec m' w) = toVec m new - toVec m e := by
        rw [hnn, hew, hA, Matrix.mulVec_sub]
        simp only
        abel
      rw [hJ, hv]

/-- **C171** for `ParametricSensitivity`, with the same input, output and converter: the derivatives of the
input and of the output follow the chain rule. -/
theorem C171_parametric_sensitivity {G : (Fin n → ℝ) × (Fin m → ℝ) → ℝ} {G' : (Fin n → ℝ) × (Fin m' → ℝ) → ℝ}
    {K : (Fin n → ℝ) → ℕ → ℝ} {eigh : Eigh} {objFn objFn' : Param → Param → Py Arr}
    {inputPar outputPar hyperPar hyperPar' : Param} {conv : Param → Param → Param × Option PyErr}
    {optInput : Option (List ℝ)} {hyperFn hyperFn' : Option (Param → Param → Py Arr)} {x e w : List ℝ}
    {c : ℝ} {φ : (Fin m' → ℝ) → Fin m → ℝ} {r : (Fin m' → ℝ) → ℝ}
    (h : Recast F F' c φ r) (hφ : ContDiff ℝ 2 φ)
    (hS : SensSetting F G K eigh objFn inputPar outputPar hyperPar conv optInput hyperFn x e)
    (hS' : SensSetting F' G' K eigh objFn' inputPar outputPar hyperPar' conv optInput hyperFn' x w)
    (hew : toVec m e = φ (toVec m' w)) (hpc : PositiveCurvature F (toVec n x) (toVec m e)) :
    ∃ S S', Sens.new objFn inputPar outputPar hyperPar conv optInput none hyperFn = .ok S ∧
      Sens.new objFn' inputPar outputPar hyperPar' conv optInput none hyperFn' = .ok S' ∧
      IsProduct S.dinputDhyper S'.dinputDhyper n (jacobianAt φ (toVec m' w)) ∧
      ∃ J J', S.doutputDhyper = .ok J ∧ S'.doutputDhyper = .ok J' ∧
        IsProduct J J' outputPar.vecSize (jacobianAt φ (toVec m' w)) := by
  have hd := hφ.differentiable (by norm_num)
  have hs := h.sens hS.smoothF hS'.smoothF hd (by rw [← hew]; exact hpc)
  rw [← hew] at hs
  have hpc' : PositiveCurvature F' (toVec n x) (toVec m' w) := h.curvature (by rw [← hew]; exact hpc)
  obtain ⟨S, v, h1, -, -, h2, -, -, -, h6, -⟩ := hS.new_ok none rfl (hessArr_posDef hS.smoothF hpc)
  obtain ⟨S', v', h1', -, -, h2', -, -, -, h6', -⟩ := hS'.new_ok none rfl (hessArr_posDef hS'.smoothF hpc')
  rw [Option.getD_none] at h2 h2'
  have hent : ∀ (k : Fin n) (j : Fin m'), S'.sens.at2 k j =
      ∑ l : Fin m, S.sens.at2 k l * jacobianAt φ (toVec m' w) l j := by
    intro k j
    rw [h2, h2']
    exact congrFun (congrFun hs k) j
  have hsh : S.sens.shape = [n, m] := by rw [h2]; rfl
  have hsh' : S'.sens.shape = [n, m'] := by rw [h2']; rfl
  refine ⟨S, S', h1, h1', ⟨?_, ?_, fun i hi j => hent ⟨i, hi⟩ j⟩, _, _,
    by rw [Sens.doutputDhyper, h6]; exact matmul_ok rfl hsh,
    by rw [Sens.doutputDhyper, h6']; exact matmul_ok rfl hsh', ⟨Arr.ofFn2_WF _ _ _, rfl⟩,
    ⟨Arr.ofFn2_WF _ _ _, rfl⟩, ?_⟩
  · rw [Sens.dinputDhyper, h2]; exact sensArr_isMat _ _
  · rw [Sens.dinputDhyper, h2']; exact sensArr_isMat _ _
  · intro i hi j
    rw [Arr.at2_ofFn2 _ _ _ hi j.2, Finset.sum_range]
    simp only [hent]
    have h3 : ∀ l : Fin m, Arr.at2 (Arr.ofFn2 outputPar.vecSize m fun i j => ∑ k ∈ Finset.range n,
        (Arr.ofFn2 outputPar.vecSize n fun i j => fderiv ℝ (fun u => K u i) (toVec n x) (basis n j)).at2 i k *
          S.sens.at2 k j) i l = ∑ k : Fin n, (Arr.ofFn2 outputPar.vecSize n fun i j =>
            fderiv ℝ (fun u => K u i) (toVec n x) (basis n j)).at2 i k * S.sens.at2 k l := fun l => by
      rw [Arr.at2_ofFn2 _ _ _ hi l.2, Finset.sum_range]
    simp only [h3, Finset.sum_mul, Finset.mul_sum]
    rw [Finset.sum_comm]
    refine Finset.sum_congr rfl fun l _ => Finset.sum_congr rfl fun k _ => ?_
    ring

/-- **C171** for the Taylor expansion, at an optimum: if `φ(v) = A v + b` then the derivatives of every order in the
direction `d'` are those of the original objective in the direction `A d'`, and so are the series. -/
theorem C171_taylor {c : ℝ} {A : Matrix (Fin m) (Fin m') ℝ} {b : Fin m → ℝ} {r : (Fin m' → ℝ) → ℝ}
    (h : Recast F F' c (fun v => A *ᵥ v + b) r) (hF : ContDiff ℝ ∞ F) (hr : ContDiff ℝ ∞ r) (hn : 0 < n)
    (hm : 0 < m) (hm' : 0 < m')
    (objFn objFn' : Param → Param → Py Arr) (inputPar hyperPar inputPar' hyperPar' : Param)
    (hyperIsFree hyperIsFree' : Bool)
    (hev : Evaluates inputPar hyperPar objFn true hyperIsFree F)
    (hev' : Evaluates inputPar' hyperPar' objFn' true hyperIsFree' F')
    (x e w : List ℝ) (hx : x.length = n) (he : e.length = m) (hw : w.length = m')
    (hew : toVec m e = A *ᵥ toVec m' w + b)
    (hcrit : fderiv ℝ (fun u => F (u, toVec m e)) (toVec n x) = 0)
    (hpc : PositiveCurvature F (toVec n x) (toVec m e)) (order : ℕ) (ho : 1 ≤ order) (hess0 hess0' : Option Arr) :
    ∃ T T', Taylor.new objFn inputPar hyperPar x e order true hyperIsFree hess0 none = .ok T ∧
      Taylor.new objFn' inputPar' hyperPar' x w order true hyperIsFree' hess0' none = .ok T' ∧
      ∀ d d' : List ℝ, d.length = m → d'.length = m' → toVec m d = A *ᵥ toVec m' d' →
        (∀ k : ℕ, 1 ≤ k → k ≤ order →
          ∃ s, (T.evaluateDk d k).2 = .ok s ∧ (T'.evaluateDk d' k).2 = .ok s) ∧
        (∀ deg : ℕ, 1 ≤ deg → deg ≤ order → ∀ off, ∃ s,
          (T.evaluateSeries d off (some deg)).2 = .ok s ∧ (T'.evaluateSeries d' off (some deg)).2 = .ok s) := by
  have hφ : ContDiff ℝ ∞ fun v : Fin m' → ℝ => A *ᵥ v + b :=
    (LinearMap.toContinuousLinearMap (Matrix.mulVecLin A)).contDiff.add contDiff_const
  have hF' := h.contDiff hF hφ hr
  have hF2 : ContDiff ℝ 2 F := hF.of_le two_le_infty
  have hpc' : PositiveCurvature F' (toVec n x) (toVec m' w) := h.curvature (by rw [← hew]; exact hpc)
  obtain ⟨T, t1, t2⟩ := C55_derivatives_exist hF hn hm objFn inputPar hyperPar hyperIsFree hev x e hx he
    hcrit hpc order ho hess0
  obtain ⟨T2, s1, s2, -⟩ := C56_taylor_series hF hn hm objFn inputPar hyperPar hyperIsFree hev x e hx he
    hpc order ho hess0
  obtain ⟨T', t1', t2'⟩ := C55_kth_derivative hF' hn hm' objFn' inputPar' hyperPar' hyperIsFree' hev' x w hx hw
    hpc' order ho hess0'
  obtain ⟨T2', s1', s2', -⟩ := C56_taylor_series hF' hn hm' objFn' inputPar' hyperPar' hyperIsFree' hev' x w hx hw
    hpc' order ho hess0'
  obtain rfl : T = T2 := by rw [t1] at s1; exact Except.ok.inj s1
  obtain rfl : T' = T2' := by rw [t1'] at s1'; exact Except.ok.inj s1'
  refine ⟨T, T', t1, t1', fun d d' hd hd' hdd => ?_⟩
  obtain ⟨η, hη, hk⟩ := t2 d hd
  have hη' : OptimumPath F' (toVec n x) (toVec m' w) (toVec m' d') η := by
    refine ⟨hη.smooth, hη.start, ?_⟩
    filter_upwards [hη.critical] with t ht
    rw [h.crit_iff hF2]
    convert ht using 4
    rw [hew, hdd, Matrix.mulVec_add, Matrix.mulVec_smul]
    abel
  refine ⟨fun k h1 h2 => ⟨_, hk k h1 h2, ?_⟩, fun deg h1 h2 off => ?_⟩
  · obtain ⟨T3, h3, -⟩ := t2' d' hd' η hη' k h1 h2
    rw [h3]
  · cases off with
    | true => exact ⟨_, ((s2 d hd η hη).1 deg h1 h2).1, ((s2' d' hd' η hη').1 deg h1 h2).1⟩
    | false => exact ⟨_, ((s2 d hd η hη).1 deg h1 h2).2, ((s2' d' hd' η hη').1 deg h1 h2).2⟩

/-- **C171**, a part of the hyperparameter: if the second objective is the first one with all hyperparameters fixed except
those at the positions `pos 0, pos 1, …`, then its sensitivity consists of these columns of the sensitivity to all of them,
and its predictions are those for changing only these hyperparameters. -/
theorem C171_part (pos : Fin m' → Fin m) (hpos : Function.Injective pos) (hF : ContDiff ℝ 2 F) (hn : 0 < n)
    (e : List ℝ) (he : e.length = m)
    (h : ∀ u w v, (∀ j, v (pos j) = w j) → (∀ k, (∀ j, pos j ≠ k) → v k = toVec m e k) → F' (u, w) = F (u, v))
    (objFn objFn' : Param → Param → Py Arr) (inputPar hyperPar inputPar' hyperPar' : Param)
    (hev : Evaluates inputPar hyperPar objFn true false F)
    (hev' : Evaluates inputPar' hyperPar' objFn' true false F')
    (x w : List ℝ) (hx : x.length = n) (hw : w.length = m') (hew : ∀ j, toVec m' w j = toVec m e (pos j))
    (hpc : PositiveCurvature F (toVec n x) (toVec m e)) :
    ∃ T T', LinApprox.new objFn inputPar hyperPar x e true false none none = .ok T ∧
      LinApprox.new objFn' inputPar' hyperPar' x w true false none none = .ok T' ∧
      IsMat T'.dinputDhyper n m' ∧
      (∀ i < n, ∀ j : Fin m', T'.dinputDhyper.at2 i j = T.dinputDhyper.at2 i (pos j)) ∧
      ∀ new new' : List ℝ, new.length = m → new'.length = m' →
        (∀ j, toVec m new (pos j) = toVec m' new' j) → (∀ k, (∀ j, pos j ≠ k) → toVec m new k = toVec m e k) →
          ∃ s, T.predictInput new = .ok s ∧ T'.predictInput new' = .ok s := by
  set A : Matrix (Fin m) (Fin m') ℝ := Matrix.of fun k j => if pos j = k then 1 else 0 with hA
  have hAv : ∀ (v : Fin m' → ℝ) (j : Fin m'), (A *ᵥ v) (pos j) = v j := by
    intro v j
    simp only [Matrix.mulVec, dotProduct, hA, Matrix.of_apply, ite_mul, one_mul, zero_mul]
    rw [Finset.sum_eq_single j]
    · simp
    · intro k _ hk; rw [if_neg fun h => hk (hpos h)]
    · simp
  have hA0 : ∀ (v : Fin m' → ℝ) (k : Fin m), (∀ j, pos j ≠ k) → (A *ᵥ v) k = 0 := by
    intro v k hk
    simp only [Matrix.mulVec, dotProduct, hA, Matrix.of_apply]
    exact Finset.sum_eq_zero fun j _ => by rw [if_neg (hk j), zero_mul]
  have hval : ∀ (v : Fin m' → ℝ) (z : Fin m → ℝ), (∀ j, z (pos j) = v j) →
      (∀ k, (∀ j, pos j ≠ k) → z k = toVec m e k) → z = A *ᵥ v + (toVec m e - A *ᵥ toVec m' w) := by
    intro v z h1 h2
    funext k
    simp only [Pi.add_apply, Pi.sub_apply]
    by_cases hk : ∃ j, pos j = k
    · obtain ⟨j, rfl⟩ := hk
      rw [h1, hAv, hAv, hew]
      ring
    · push Not at hk
      rw [h2 k hk, hA0 _ _ hk, hA0 _ _ hk]
      ring
  have hR : Recast F F' 1 (fun v => A *ᵥ v + (toVec m e - A *ᵥ toVec m' w)) (fun _ => 0) := by
    refine ⟨one_pos, fun u v => ?_⟩
    rw [one_mul, add_zero]
    refine h u v _ (fun j => ?_) fun k hk => ?_
    · simp only [Pi.add_apply, Pi.sub_apply, hAv, hew]
      ring
    · simp only [Pi.add_apply, Pi.sub_apply, hA0 _ _ hk]
      ring
  have hφ : ContDiff ℝ 2 fun v : Fin m' → ℝ => A *ᵥ v + (toVec m e - A *ᵥ toVec m' w) :=
    (LinearMap.toContinuousLinearMap (Matrix.mulVecLin A)).contDiff.add contDiff_const
  obtain ⟨T, T', h1, h2, ⟨h3, h4, h5⟩, h6⟩ := C171_linear_approximation hR hF hφ contDiff_const hn objFn objFn'
    inputPar hyperPar inputPar' hyperPar' hev hev' x e w hx he hw (by simp) hpc
  have hJ : jacobianAt (fun v : Fin m' → ℝ => A *ᵥ v + (toVec m e - A *ᵥ toVec m' w)) (toVec m' w) = A :=
    affine_jacobian A _ _
  refine ⟨T, T', h1, h2, h4, fun i hi j => ?_, fun new new' hn1 hn2 hn3 hn4 =>
    h6 ⟨A, _, rfl⟩ new new' hn1 hn2 (hval _ _ hn3 hn4)⟩
  rw [h5 i hi j, hJ]
  simp [hA]

/-! ### The hypotheses are met -/

/-- Three times the objective `x² / 2 + x³ / 6 - ε x` at `ε = 2 δ`, plus `δ²`. -/
def exH3 (x δ : ℝ) : ℝ := 3 * exH x (2 * δ) + δ ^ 2

theorem exH3_recast : Recast exHF (fun z : (Fin 1 → ℝ) × (Fin 1 → ℝ) => exH3 (z.1 0) (z.2 0)) 3
    (fun v => (Matrix.of fun _ _ => (2 : ℝ)) *ᵥ v + 0) (fun w => w 0 ^ 2) := by
  refine ⟨by norm_num, fun u w => ?_⟩
  simp [exH3, exHF, Matrix.mulVec, dotProduct]

/-- The hypotheses of `C171_linear_approximation` and `C171_taylor` are met, and the derivative is twice the original one. -/
example : ∃ T T', LinApprox.new (scFn exH) (scPar ninf) (scPar ninf) [0] [0] true false none none = .ok T ∧
    LinApprox.new (scFn exH3) (scPar ninf) (scPar ninf) [0] [0] true false none none = .ok T' ∧
    T'.dinputDhyper.at2 0 0 = 2 * T.dinputDhyper.at2 0 0 ∧
    ∃ E E', Taylor.new (scFn exH) (scPar ninf) (scPar ninf) [0] [0] 3 true false none none = .ok E ∧
      Taylor.new (scFn exH3) (scPar ninf) (scPar ninf) [0] [0] 3 true false none none = .ok E' ∧
      ∃ s, (E.evaluateDk [2] (2 : ℕ)).2 = .ok s ∧ (E'.evaluateDk [1] (2 : ℕ)).2 = .ok s := by
  obtain ⟨h1, h2, h3⟩ := exHF_case
  have hr : ContDiff ℝ ∞ fun w : Fin 1 → ℝ => w 0 ^ 2 := (contDiff_apply ℝ ℝ 0).pow 2
  have hφ : ContDiff ℝ 2 fun v : Fin 1 → ℝ => (Matrix.of fun _ _ => (2 : ℝ) : Matrix (Fin 1) (Fin 1) ℝ) *ᵥ v + 0 :=
    affine_contDiff _ _
  have h0 : toVec 1 [0] = (Matrix.of fun _ _ => (2 : ℝ) : Matrix (Fin 1) (Fin 1) ℝ) *ᵥ toVec 1 [0] + 0 := by
    funext i
    simp [toVec, Matrix.mulVec, dotProduct]
  obtain ⟨T, T', t1, t2, t3, -⟩ := C171_linear_approximation exH3_recast (exHF_smooth.of_le two_le_infty) hφ
    (hr.of_le two_le_infty) one_pos _ _ _ _ _ _ h1 (scFn_real exH3 true false) [0] [0] [0] rfl rfl rfl h0 h3
  obtain ⟨E, E', e1, e2, e3⟩ := C171_taylor exH3_recast exHF_smooth hr one_pos one_pos one_pos _ _ _ _ _ _ _ _ h1
    (scFn_real exH3 true false) [0] [0] [0] rfl rfl rfl h0 h2 h3 3 (by omega) none none
  refine ⟨T, T', t1, t2, ?_, E, E', e1, e2, (e3 [2] [1] rfl rfl ?_).1 2 (by omega) (by omega)⟩
  · have h4 := t3.2.2 0 one_pos 0
    have hJ : jacobianAt (fun v : Fin 1 → ℝ => (Matrix.of fun _ _ => (2 : ℝ) : Matrix (Fin 1) (Fin 1) ℝ) *ᵥ v + 0)
        (toVec 1 [0]) 0 0 = 2 := by
      rw [affine_jacobian]
      rfl
    simp only [Finset.univ_unique, Fin.default_eq_zero, Finset.sum_singleton, hJ] at h4
    rw [mul_comm]
    exact h4
  · funext i
    simp [toVec, Matrix.mulVec, dotProduct]

/-- The hypotheses of `C171_parametric_sensitivity` are met. -/
example : ∃ eigh, EighContract eigh ∧
    SensSetting exHF exHF (fun u _ => 2 * u 0) eigh (scFn exH) (scPar ninf) (scPar ninf)
      ((scPar ninf).vecP [0]) doubling (some [0]) none [0] [0] ∧
    SensSetting (fun z : (Fin 1 → ℝ) × (Fin 1 → ℝ) => exH3 (z.1 0) (z.2 0))
      (fun z : (Fin 1 → ℝ) × (Fin 1 → ℝ) => exH3 (z.1 0) (z.2 0)) (fun u _ => 2 * u 0) eigh (scFn exH3) (scPar ninf)
      (scPar ninf) ((scPar ninf).vecP [0]) doubling (some [0]) none [0] [0] := by
  obtain ⟨eigh, he⟩ := exists_eigh
  have h := doubling_setting eigh he
  have hr : ContDiff ℝ 2 fun w : Fin 1 → ℝ => w 0 ^ 2 := (contDiff_apply ℝ ℝ 0).pow 2
  have hφ : ContDiff ℝ 2 fun v : Fin 1 → ℝ => (Matrix.of fun _ _ => (2 : ℝ) : Matrix (Fin 1) (Fin 1) ℝ) *ᵥ v + 0 :=
    affine_contDiff _ _
  have hs := exH3_recast.contDiff h.smoothF hφ hr
  have hev : Evaluates (n := 1) (m := 1) (scPar ninf) ((scPar ninf).vecP [0]) (scFn exH3) true false
      fun z => exH3 (z.1 0) (z.2 0) := Taylor.evaluates_blank (scFn_real exH3 true false) rfl rfl
  exact ⟨eigh, he, h, ⟨he, hs, hs, ⟨0, fun u v => by simp⟩, one_pos, hev, hev, rfl, rfl, h.assigns, h.built,
    h.params, h.proper, h.outPos, h.smoothK, h.converts, h.holdsE, h.optimum⟩⟩

/-- `VectorParam(size=2)`. -/
def pairPar : Param := .leaf ⟨"h", .vector 2 ninf pinf, ⟨[2], [0, 0]⟩, false⟩

/-- The functor of a scalar and a pair of hyperparameters. -/
def pairFn (h : ℝ → ℝ → ℝ → ℝ) (p q : Param) : Py Arr := do
  let x ← p.getVector
  let e ← q.getVector
  .ok (Arr.scalar (h (x.getD 0 0) (e.getD 0 0) (e.getD 1 0)))

theorem pairFn_evaluates (h : ℝ → ℝ → ℝ → ℝ) :
    Evaluates (n := 1) (m := 2) (scPar ninf) pairPar (pairFn h) true false fun z => h (z.1 0) (z.2 0) (z.2 1) := by
  intro y1 y2 hy1 hy2
  obtain ⟨a, rfl⟩ := List.length_eq_one_iff.mp hy1
  obtain ⟨b, c, rfl⟩ := List.length_eq_two.mp hy2
  obtain ⟨s1, g1⟩ := scPar_getVector ninf ninf_lt_pinf true a
  have hw : pairPar.WF := by simp [pairPar, Param.WF, Kind.Legal]
  have h0 := pairPar.setVector_ok hw [b, c] rfl
  have s2 : setPar pairPar [b, c] false = (pairPar.vecP [b, c], none) := by
    simp only [setPar]
    rw [if_neg (by simp), h0]
  have g2 : ((pairPar.vecP [b, c]).mark false).getVector = .ok [b, c] := pairPar.getVector_vecP hw trivial [b, c] rfl
  rw [if_pos rfl, constrainFn_real] at g1
  simp only [TwoObjective.evalFun, s1, s2, pairFn, g1, g2, py_ok_bind]
  simp [toVec]

/-- The hypotheses of `C171_part` are met by `x² / 2 + x³ / 6 - ε δ x` at `ε = 0`, `δ = 1`: the sensitivity to `ε` alone is a
column of the sensitivity to both. -/
example : ∃ T T', LinApprox.new (pairFn fun x ε δ => exH x (ε * δ)) (scPar ninf) pairPar [0] [0, 1] true false none none =
      .ok T ∧
    LinApprox.new (scFn exH) (scPar ninf) (scPar ninf) [0] [0] true false none none = .ok T' ∧
    T'.dinputDhyper.at2 0 0 = T.dinputDhyper.at2 0 0 := by
  obtain ⟨h1, h2, h3⟩ := exHF_case
  have hp : ContDiff ℝ 2 fun v : Fin 2 → ℝ => fun _ : Fin 1 => v 0 * v 1 :=
    contDiff_pi.mpr fun _ => (contDiff_apply ℝ ℝ 0).mul (contDiff_apply ℝ ℝ 1)
  have hF : ContDiff ℝ 2 fun z : (Fin 1 → ℝ) × (Fin 2 → ℝ) => exH (z.1 0) (z.2 0 * z.2 1) :=
    (exHF_smooth.of_le two_le_infty).comp (contDiff_fst.prodMk (hp.comp contDiff_snd))
  have hc : PositiveCurvature (fun z : (Fin 1 → ℝ) × (Fin 2 → ℝ) => exH (z.1 0) (z.2 0 * z.2 1)) (toVec 1 [0])
      (toVec 2 [0, 1]) := by
    intro u hu
    have := h3 u hu
    simpa [exHF, toVec] using this
  obtain ⟨T, T', t1, t2, -, t4, -⟩ := C171_part (n := 1) (m := 2) (m' := 1) (F' := exHF) (fun _ => 0)
    (fun _ _ _ => Subsingleton.elim _ _) hF one_pos [0, 1] rfl (fun u w v hv hv' => by
      have h5 := hv 0
      have h6 := hv' 1 (by simp)
      simp [toVec] at h6
      simp [exHF, h5, h6]) _ _ _ _ _ _ (pairFn_evaluates fun x ε δ => exH x (ε * δ)) h1 [0] [0] rfl rfl
      (fun j => by simp [toVec]) hc
  exact ⟨T, T', t1, t2, t4 0 one_pos 0⟩

end

end LRVB
