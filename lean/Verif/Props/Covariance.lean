import Verif.Props.Sensitivity

/-!
# C145: linear response covariances

The linear response covariance of outputs `g` of a variational approximation is the derivative of the outputs at the optimum with
respect to `t` when `tᵀ g` is subtracted from the objective.  `get_doutput_dhyper` computes it.
-/

namespace LRVB

open Matrix

variable {n m : ℕ} {F G : (Fin n → ℝ) × (Fin m → ℝ) → ℝ}

/-- The objective is tilted by the outputs: `F(u, t) = F(u, 0) - tᵀ K(u)`. -/
def TiltedBy (F : (Fin n → ℝ) × (Fin m → ℝ) → ℝ) (K : (Fin n → ℝ) → ℕ → ℝ) : Prop :=
  ∀ u t, F (u, t) = F (u, 0) - ∑ j : Fin m, t j * K u j

/-- The mixed second derivatives of a tilted objective are the derivatives of the outputs. -/
theorem TiltedBy.cross (hF : ContDiff ℝ 2 F) {K : (Fin n → ℝ) → ℕ → ℝ} (h : TiltedBy F K)
    (hK : ∀ j < m, Differentiable ℝ fun u => K u j) (x a : Fin n → ℝ) (e w : Fin m → ℝ) :
    fderiv ℝ (fderiv ℝ F) (x, e) (0, w) (a, 0) = -∑ j : Fin m, w j * fderiv ℝ (fun u => K u j) x a := by
  have hd : ∀ v, fderiv ℝ F (x, v) (a, 0) =
      fderiv ℝ F (x, 0) (a, 0) - ∑ j : Fin m, v j * fderiv ℝ (fun u => K u j) x a := by
    intro v
    have h1 : HasFDerivAt (fun u => F (u, 0) - ∑ j : Fin m, v j * K u j)
        (fderiv ℝ (fun u => F (u, 0)) x - ∑ j : Fin m, v j • fderiv ℝ (fun u => K u j) x) x := by
      refine HasFDerivAt.sub ((contDiff_left hF 0).differentiable (by norm_num) x).hasFDerivAt ?_
      refine HasFDerivAt.fun_sum fun j _ => ?_
      exact ((hK j j.2 x).hasFDerivAt).const_mul (v j)
    have h2 : (fun u => F (u, v)) = fun u => F (u, 0) - ∑ j : Fin m, v j * K u j := by
      funext u; exact h u v
    rw [← fderiv_left hF, h2, h1.fderiv, ← fderiv_left hF]
    simp [ContinuousLinearMap.sum_apply]
  have h1 := grad1_hasFDerivAt hF x a e
  have h2 : HasFDerivAt (fun v : Fin m → ℝ => fderiv ℝ F (x, 0) (a, 0) -
      ∑ j : Fin m, v j * fderiv ℝ (fun u => K u j) x a)
      (0 - ∑ j : Fin m, (fderiv ℝ (fun u => K u j) x a) • (ContinuousLinearMap.proj j : (Fin m → ℝ) →L[ℝ] ℝ)) e := by
    refine HasFDerivAt.sub (hasFDerivAt_const _ _) (HasFDerivAt.fun_sum fun j _ => ?_)
    exact (ContinuousLinearMap.proj (R := ℝ) (φ := fun _ : Fin m => ℝ) j).hasFDerivAt.mul_const _
  rw [show (fun v => fderiv ℝ F (x, v) (a, 0)) = _ from funext hd] at h1
  have h3 := congrArg (fun L => L w) (h1.unique h2)
  simp only [ContinuousLinearMap.comp_apply, ContinuousLinearMap.flip_apply, ContinuousLinearMap.inr_apply, zero_sub,
    ContinuousLinearMap.neg_apply, ContinuousLinearMap.sum_apply, ContinuousLinearMap.smul_apply,
    ContinuousLinearMap.proj_apply, smul_eq_mul] at h3
  rw [h3]
  simp only [mul_comm]

section
variable {K : (Fin n → ℝ) → ℕ → ℝ} {eigh : Eigh} {objFn : Param → Param → Py Arr}
  {inputPar outputPar hyperPar : Param} {conv : Param → Param → Param × Option PyErr}
  {optInput : Option (List ℝ)} {hyperFn : Option (Param → Param → Py Arr)} {x e : List ℝ}

/-- **C145** Let the objective be tilted by the outputs, with positive curvature at the optimum.  The matrix that
`get_doutput_dhyper` returns is then a covariance matrix: symmetric and positive semidefinite, and positive definite if the
outputs do not move together to first order, that is, if no linear combination of them has derivative zero. -/
theorem C145_covariance
    (hS : SensSetting F G K eigh objFn inputPar outputPar hyperPar conv optInput hyperFn x e)
    (hpc : PositiveCurvature F (toVec n x) (toVec m e)) (hm : outputPar.vecSize = m) (ht : TiltedBy F K) :
    ∃ S, Sens.new objFn inputPar outputPar hyperPar conv optInput none hyperFn = .ok S ∧
      ∃ J, S.doutputDhyper = .ok J ∧ IsMat J m m ∧ (∀ i < m, ∀ j < m, J.at2 i j = J.at2 j i) ∧
        (∀ c : Fin m → ℝ, 0 ≤ ∑ i : Fin m, ∑ j : Fin m, c i * J.at2 i j * c j) ∧
        ∀ c : Fin m → ℝ, fderiv ℝ (fun u => ∑ j : Fin m, c j * K u j) (toVec n x) ≠ 0 →
          0 < ∑ i : Fin m, ∑ j : Fin m, c i * J.at2 i j * c j := by
  have hpd := hessArr_posDef hS.smoothF hpc
  obtain ⟨S, w, h1, -, -, h2, -, -, -, h6, -⟩ := hS.new_ok none rfl hpd
  rw [Option.getD_none] at h2
  rw [hm] at h6
  refine ⟨S, h1, ?_⟩
  set H := toMatrix n n (hessArr F (toVec n x) (toVec m e)) with hH
  let D : Matrix (Fin m) (Fin n) ℝ := Matrix.of fun i k => fderiv ℝ (fun u => K u i) (toVec n x) (basis n k)
  have hC : toMatrix n m (crossArr F (toVec n x) (toVec m e)) = -Dᵀ := by
    ext k j
    rw [toMatrix, Matrix.of_apply, crossArr, Arr.at2_ofFn2 _ _ _ k.2 j.2, ht.cross hS.smoothF (hm ▸ hS.smoothK),
      Matrix.neg_apply, Matrix.transpose_apply]
    congr 1
    change _ = fderiv ℝ (fun u => K u j) (toVec n x) (basis n k)
    rw [Finset.sum_eq_single j]
    · simp [basis]
    · intro b _ hb
      simp [basis, Fin.val_ne_of_ne hb]
    · simp
  have hsh : S.sens.shape = [n, m] := by rw [h2]; exact (sensArr_isMat _ _).2
  refine ⟨_, by rw [Sens.doutputDhyper, h6]; exact matmul_ok rfl hsh, ⟨Arr.ofFn2_WF _ _ _, rfl⟩, ?_⟩
  have hJ : ∀ i j : Fin m, (Arr.ofFn2 m m fun i k => ∑ j ∈ Finset.range n,
      (Arr.ofFn2 m n fun i j => fderiv ℝ (fun u => K u i) (toVec n x) (basis n j)).at2 i j * S.sens.at2 j k).at2 i j =
      (D * H⁻¹ * Dᵀ) i j := by
    intro i j
    rw [Arr.at2_ofFn2 _ _ _ i.2 j.2, Finset.sum_range, Matrix.mul_assoc, Matrix.mul_apply]
    refine Finset.sum_congr rfl fun k _ => ?_
    rw [Arr.at2_ofFn2 _ _ _ i.2 k.2, h2, sensArr_at2, hC, Matrix.mul_neg, Matrix.neg_apply, neg_neg]
    rfl
  have hHi : H⁻¹.PosDef := hpd.inv
  have hquad : ∀ c : Fin m → ℝ, ∑ i : Fin m, ∑ j : Fin m, c i * (D * H⁻¹ * Dᵀ) i j * c j =
      (Dᵀ *ᵥ c) ⬝ᵥ (H⁻¹ *ᵥ (Dᵀ *ᵥ c)) := by
    intro c
    have : (Dᵀ *ᵥ c) ⬝ᵥ (H⁻¹ *ᵥ (Dᵀ *ᵥ c)) = c ⬝ᵥ ((D * H⁻¹ * Dᵀ) *ᵥ c) := by
      rw [Matrix.mulVec_transpose, ← Matrix.dotProduct_mulVec, Matrix.mulVec_mulVec, ← Matrix.mulVec_transpose,
        Matrix.mulVec_mulVec]
    rw [this]
    simp only [dotProduct, Matrix.mulVec, Finset.mul_sum, mul_assoc]
  have hsym : (D * H⁻¹ * Dᵀ)ᵀ = D * H⁻¹ * Dᵀ := by
    have : H⁻¹ᵀ = H⁻¹ := by
      have := hHi.isHermitian
      rwa [Matrix.IsHermitian, Matrix.conjTranspose_eq_transpose_of_trivial] at this
    rw [Matrix.transpose_mul, Matrix.transpose_mul, Matrix.transpose_transpose, this, Matrix.mul_assoc]
  refine ⟨fun i hi j hj => ?_, fun c => ?_, fun c hc => ?_⟩
  · have e1 := hJ ⟨i, hi⟩ ⟨j, hj⟩
    have e2 := hJ ⟨j, hj⟩ ⟨i, hi⟩
    simp only at e1 e2
    rw [e1, e2]
    exact (congrFun (congrFun hsym ⟨i, hi⟩) ⟨j, hj⟩).symm
  · simp only [hJ, hquad]
    have := hHi.posSemidef.dotProduct_mulVec_nonneg (Dᵀ *ᵥ c)
    simpa using this
  · simp only [hJ, hquad]
    have hne : Dᵀ *ᵥ c ≠ 0 := by
      intro h0
      apply hc
      have hf : HasFDerivAt (fun u => ∑ j : Fin m, c j * K u j)
          (∑ j : Fin m, c j • fderiv ℝ (fun u => K u j) (toVec n x)) (toVec n x) :=
        HasFDerivAt.fun_sum fun j _ => ((hS.smoothK j (hm ▸ j.2) _).hasFDerivAt).const_mul (c j)
      rw [hf.fderiv]
      ext a
      rw [basis_expand a, map_sum]
      refine Finset.sum_eq_zero fun k _ => ?_
      have := congrFun h0 k
      simp only [Matrix.mulVec, dotProduct, Matrix.transpose_apply, Matrix.of_apply, Pi.zero_apply, D] at this
      rw [map_smul]
      simp only [_root_.sum_apply, _root_.smul_apply, smul_eq_mul]
      simp only [mul_comm (c _), this, mul_zero]
    have := hHi.dotProduct_mulVec_pos hne
    simpa using this

end

end LRVB
