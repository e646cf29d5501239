import Verif.Model.Sensitivity
import Verif.Lemmas.TaylorObj
import Verif.Props.Converter

/-! The derivative of the optimum with respect to the hyperparameter. -/

namespace LRVB

open scoped ContDiff Matrix

noncomputable section

variable {n m : ℕ} {F G : (Fin n → ℝ) × (Fin m → ℝ) → ℝ}

theorem gradF_contDiff1 (hF : ContDiff ℝ 2 F) : ContDiff ℝ 1 (gradF F) := by
  refine contDiff_pi.mpr fun i => ?_
  have : ContDiff ℝ 1 (fderiv ℝ F) := hF.fderiv_right (by norm_num)
  exact this.clm_apply contDiff_const

/-- The optimum as a function of the hyperparameter: it exists near `e`, is continuously
differentiable at `e`, and agrees near `e` with every continuous choice of optima. -/
theorem exists_optimumMap (hF : ContDiff ℝ 2 F) {x : Fin n → ℝ} {e : Fin m → ℝ}
    (hcrit : fderiv ℝ (fun u => F (u, e)) x = 0) (hpd : PositiveCurvature F x e) :
    ∃ ψ : (Fin m → ℝ) → Fin n → ℝ, ContDiffAt ℝ 1 ψ e ∧ ψ e = x ∧ OptimumMap F e ψ ∧
      ∀ opt, ContinuousAt opt e → opt e = x → OptimumMap F e opt → opt =ᶠ[nhds e] ψ := by
  let Φ : (Fin n → ℝ) × (Fin m → ℝ) → (Fin n → ℝ) × (Fin m → ℝ) := fun z => (gradF F z, z.2)
  have hΦ : ContDiff ℝ 1 Φ := (gradF_contDiff1 hF).prodMk contDiff_snd
  have hker : ∀ z, fderiv ℝ Φ (x, e) z = 0 → z = 0 := by
    intro z hz
    have hg : HasFDerivAt (gradF F) (fderiv ℝ (gradF F) (x, e)) (x, e) :=
      ((gradF_contDiff1 hF).differentiable (by norm_num) _).hasFDerivAt
    have hd2 := hg.prodMk (hasFDerivAt_snd (𝕜 := ℝ) (p := (x, e)))
    have hd3 : fderiv ℝ Φ (x, e) = _ := hd2.fderiv
    rw [hd3] at hz
    obtain ⟨v, s⟩ := z
    simp only [ContinuousLinearMap.prod_apply, ContinuousLinearMap.coe_snd', Prod.mk_eq_zero] at hz
    obtain ⟨hz1, rfl⟩ := hz
    rw [← hessArr_mulVec hF] at hz1
    have hv : v = 0 := by
      by_contra hv
      have := (hessArr_posDef hF hpd).dotProduct_mulVec_pos hv
      rw [hz1] at this
      simp at this
    rw [hv]; rfl
  let A : ((Fin n → ℝ) × (Fin m → ℝ)) ≃L[ℝ] ((Fin n → ℝ) × (Fin m → ℝ)) :=
    (LinearEquiv.ofInjectiveEndo (fderiv ℝ Φ (x, e) : ((Fin n → ℝ) × (Fin m → ℝ)) →ₗ[ℝ] _)
      ((injective_iff_map_eq_zero _).mpr hker)).toContinuousLinearEquiv
  have hA : (A : ((Fin n → ℝ) × (Fin m → ℝ)) →L[ℝ] _) = fderiv ℝ Φ (x, e) := by
    ext z <;> rfl
  have hdA : HasFDerivAt Φ (A : ((Fin n → ℝ) × (Fin m → ℝ)) →L[ℝ] _) (x, e) := by
    rw [hA]; exact (hΦ.differentiable (by norm_num) _).hasFDerivAt
  have hΦ0 : Φ (x, e) = (0, e) := by
    have : gradF F (x, e) = 0 := (gradF_zero hF).mpr hcrit
    simp [Φ, this]
  let Ψ := hΦ.contDiffAt.toOpenPartialHomeomorph Φ hdA (by simp)
  have hsrc : (x, e) ∈ Ψ.source := hΦ.contDiffAt.mem_toOpenPartialHomeomorph_source hdA (by simp)
  have htgt : ((0, e) : (Fin n → ℝ) × (Fin m → ℝ)) ∈ Ψ.target := by
    rw [← hΦ0]; exact Ψ.map_source hsrc
  have hsymm0 : Ψ.symm (0, e) = (x, e) := by
    rw [← hΦ0]; exact Ψ.left_inv hsrc
  have hline : ContDiff ℝ 1 fun v : Fin m → ℝ => ((0, v) : (Fin n → ℝ) × (Fin m → ℝ)) :=
    contDiff_const.prodMk contDiff_id
  have hcd : ContDiffAt ℝ 1 Ψ.symm (0, e) := by
    refine Ψ.contDiffAt_symm htgt (f₀' := A) ?_ hΦ.contDiffAt
    rw [hsymm0]
    exact hdA
  have hnear : ∀ᶠ v in nhds e, ((0, v) : (Fin n → ℝ) × (Fin m → ℝ)) ∈ Ψ.target :=
    (hline.continuous.tendsto e).eventually (Ψ.open_target.mem_nhds htgt)
  refine ⟨fun v => (Ψ.symm (0, v)).1, ?_, by simp [hsymm0], ?_, ?_⟩
  · exact contDiff_fst.contDiffAt.comp e (hcd.comp e hline.contDiffAt)
  · filter_upwards [hnear] with v hv
    have h1 : Φ (Ψ.symm (0, v)) = (0, v) := Ψ.right_inv hv
    have h2 : (Ψ.symm (0, v)).2 = v := congrArg Prod.snd h1
    have h3 : gradF F (Ψ.symm (0, v)) = 0 := congrArg Prod.fst h1
    have h4 : Ψ.symm (0, v) = ((Ψ.symm (0, v)).1, v) := Prod.ext rfl h2
    rw [h4] at h3
    exact (gradF_zero hF).mp h3
  · intro opt hc h0 hopt
    have hs : ∀ᶠ v in nhds e, (opt v, v) ∈ Ψ.source := by
      have : ContinuousAt (fun v => (opt v, v)) e := hc.prodMk continuousAt_id
      refine this.eventually_mem ?_
      rw [h0]
      exact Ψ.open_source.mem_nhds hsrc
    filter_upwards [hs, hopt] with v hv ho
    have h1 : Φ (opt v, v) = (0, v) := by
      have : gradF F (opt v, v) = 0 := (gradF_zero hF).mpr ho
      simp [Φ, this]
    have h2 : Ψ.symm (Φ (opt v, v)) = (opt v, v) := Ψ.left_inv hv
    rw [h1] at h2
    rw [h2]

/-- The cross Hessian autograd computes. -/
def crossArr (G : (Fin n → ℝ) × (Fin m → ℝ) → ℝ) (x : Fin n → ℝ) (e : Fin m → ℝ) : Arr :=
  Arr.ofFn2 n m fun i j => fderiv ℝ (fderiv ℝ G) (x, e) (0, basis m j) (basis n i, 0)

/-- The sensitivity computed from a Hessian and a cross Hessian. -/
def sensArr (n m : ℕ) (H C : Arr) : Arr :=
  (Arr.ofFn2 n m fun i j => if h : i < n ∧ j < m then
    ((toMatrix n n H)⁻¹ * toMatrix n m C) ⟨i, h.1⟩ ⟨j, h.2⟩ else 0).neg

theorem Arr.at2_neg (a : Arr) (i j : ℕ) : a.neg.at2 i j = -a.at2 i j := by
  unfold Arr.neg Arr.at2
  simp only [List.getD_eq_getElem?_getD, List.getElem?_map]
  cases a.data[i * a.shape[1]?.getD 0 + j]? <;> simp

theorem sensArr_at2 {H C : Arr} (i : Fin n) (j : Fin m) :
    (sensArr n m H C).at2 i j = -((toMatrix n n H)⁻¹ * toMatrix n m C) i j := by
  rw [sensArr, Arr.at2_neg, Arr.at2_ofFn2 _ _ _ i.2 j.2, dif_pos ⟨i.2, j.2⟩]

theorem toMatrix_sensArr {H C : Arr} :
    toMatrix n m (sensArr n m H C) = -((toMatrix n n H)⁻¹ * toMatrix n m C) := by
  ext i j
  rw [toMatrix, Matrix.of_apply, sensArr_at2]
  rfl

theorem sensArr_isMat (H C : Arr) : IsMat (sensArr n m H C) n m := by
  refine ⟨?_, rfl⟩
  have := Arr.ofFn2_WF n m (fun i j => if h : i < n ∧ j < m then
    ((toMatrix n n H)⁻¹ * toMatrix n m C) ⟨i, h.1⟩ ⟨j, h.2⟩ else 0)
  unfold Arr.WF at *
  simpa [sensArr, Arr.neg, Arr.size] using this

theorem choSolve_ok {l H C : Arr} (hl : l.shape = [n, n]) (hC : C.shape = [n, m])
    (h : toMatrix n n l * (toMatrix n n l)ᵀ = toMatrix n n H) :
    ∃ X, choSolve l C = .ok X ∧ X.neg = sensArr n m H C := by
  refine ⟨_, ?_, rfl⟩
  rw [choSolve, hl, hC]
  simp only [ne_eq, not_true_eq_false, if_false]
  rw [h]

theorem basis_eq_single (j : Fin m) : basis m j = Pi.single j (1 : ℝ) := by
  funext i
  simp [basis, Pi.single_apply, Fin.ext_iff, eq_comm]

/-- **Implicit differentiation** of a differentiable optimum. -/
theorem optimum_fderiv (hF : ContDiff ℝ 2 F) {x : Fin n → ℝ} {e : Fin m → ℝ}
    (hpd : PositiveCurvature F x e) {opt : (Fin m → ℝ) → Fin n → ℝ} (h0 : opt e = x)
    (hopt : OptimumMap F e opt) {A : (Fin m → ℝ) →L[ℝ] (Fin n → ℝ)} (hA : HasFDerivAt opt A e)
    (i : Fin n) (j : Fin m) :
    A (Pi.single j 1) i = (sensArr n m (hessArr F x e) (crossArr F x e)).at2 i j := by
  have hg : HasFDerivAt (gradF F) (fderiv ℝ (gradF F) (opt e, e)) (opt e, e) :=
    ((gradF_contDiff1 hF).differentiable (by norm_num) _).hasFDerivAt
  have h1 := HasFDerivAt.comp (f := fun v => (opt v, v)) e hg (hA.prodMk (hasFDerivAt_id e))
  have h2 : (gradF F ∘ fun v => (opt v, v)) =ᶠ[nhds e] fun _ => 0 := by
    filter_upwards [hopt] with v hv
    exact (gradF_zero hF).mpr hv
  have h3 := (h1.congr_of_eventuallyEq h2.symm).unique (hasFDerivAt_const (0 : Fin n → ℝ) e)
  have h4 := congrArg (fun L => L (Pi.single j (1 : ℝ))) h3
  simp only [ContinuousLinearMap.comp_apply, ContinuousLinearMap.prod_apply,
    ContinuousLinearMap.zero_apply] at h4
  rw [h0] at h4
  have h5 : ((A (Pi.single j 1), (ContinuousLinearMap.id ℝ (Fin m → ℝ)) (Pi.single j 1)) :
      (Fin n → ℝ) × (Fin m → ℝ)) = (A (Pi.single j 1), 0) + (0, Pi.single j 1) := by
    simp
  rw [h5, map_add, ← hessArr_mulVec hF] at h4
  have hdet := (hessArr_posDef hF hpd).det_pos.ne'
  have h6 : A (Pi.single j 1) = -((toMatrix n n (hessArr F x e))⁻¹ *ᵥ
      fderiv ℝ (gradF F) (x, e) (0, Pi.single j 1)) := by
    have h7 := congrArg (fun w => (toMatrix n n (hessArr F x e))⁻¹ *ᵥ w) h4
    simp only [Matrix.mulVec_add, Matrix.mulVec_mulVec, Matrix.mulVec_zero] at h7
    rw [Matrix.nonsing_inv_mul _ (isUnit_iff_ne_zero.mpr hdet), Matrix.one_mulVec] at h7
    exact eq_neg_of_add_eq_zero_left h7
  rw [h6, sensArr_at2, Pi.neg_apply, Matrix.mul_apply, Matrix.mulVec, dotProduct]
  congr 1
  refine Finset.sum_congr rfl fun k _ => ?_
  have h8 : toMatrix n m (crossArr F x e) k j =
      fderiv ℝ (fderiv ℝ F) (x, e) (0, Pi.single j 1) (basis n k, 0) := by
    rw [toMatrix, Matrix.of_apply, crossArr, Arr.at2_ofFn2 _ _ _ k.2 j.2, basis_eq_single j]
  rw [gradF_fderiv hF, h8]

/-- Functions that differ by a function of the input have the same mixed second derivatives. -/
theorem cross_dir (hF : ContDiff ℝ 2 F) (hG : ContDiff ℝ 2 G) (h : (Fin n → ℝ) → ℝ)
    (hFG : ∀ u v, F (u, v) = G (u, v) + h u) (x a : Fin n → ℝ) (e w : Fin m → ℝ) :
    fderiv ℝ (fderiv ℝ F) (x, e) (0, w) (a, 0) = fderiv ℝ (fderiv ℝ G) (x, e) (0, w) (a, 0) := by
  have hgrad : ∀ v, fderiv ℝ F (x, v) (a, 0) - fderiv ℝ G (x, v) (a, 0) =
      fderiv ℝ F (x, e) (a, 0) - fderiv ℝ G (x, e) (a, 0) := by
    intro v
    have hd : ∀ v, fderiv ℝ F (x, v) (a, 0) - fderiv ℝ G (x, v) (a, 0) = fderiv ℝ h x a := by
      intro v
      rw [← fderiv_left hF, ← fderiv_left hG]
      have e1 : h = fun u => F (u, v) - G (u, v) := by funext u; rw [hFG]; ring
      have d1 : DifferentiableAt ℝ (fun u => F (u, v)) x := (contDiff_left hF v).differentiable (by norm_num) x
      have d2 : DifferentiableAt ℝ (fun u => G (u, v)) x := (contDiff_left hG v).differentiable (by norm_num) x
      rw [e1, fderiv_fun_sub d1 d2]
      rfl
    rw [hd, hd]
  have h1 := (grad1_hasFDerivAt hF x a e).sub (grad1_hasFDerivAt hG x a e)
  have h2 : (fun v => fderiv ℝ F (x, v) (a, 0)) - (fun v => fderiv ℝ G (x, v) (a, 0)) =
      fun _ => fderiv ℝ F (x, e) (a, 0) - fderiv ℝ G (x, e) (a, 0) := by
    funext v
    exact hgrad v
  rw [h2] at h1
  have h3 := congrArg (fun L => L w) (h1.unique (hasFDerivAt_const _ e))
  simp at h3
  linarith

theorem crossArr_eq (hF : ContDiff ℝ 2 F) (hG : ContDiff ℝ 2 G) (h : (Fin n → ℝ) → ℝ)
    (hFG : ∀ u v, F (u, v) = G (u, v) + h u) (x : Fin n → ℝ) (e : Fin m → ℝ) :
    crossArr F x e = crossArr G x e := by
  unfold crossArr
  congr 1
  funext i j
  exact cross_dir hF hG h hFG x _ e _

theorem gradF_cross (hF : ContDiff ℝ 2 F) (hG : ContDiff ℝ 2 G) (h : (Fin n → ℝ) → ℝ)
    (hFG : ∀ u v, F (u, v) = G (u, v) + h u) (x : Fin n → ℝ) (e w : Fin m → ℝ) :
    fderiv ℝ (gradF F) (x, e) (0, w) = fderiv ℝ (gradF G) (x, e) (0, w) := by
  funext i
  rw [gradF_fderiv hF, gradF_fderiv hG, cross_dir hF hG h hFG]

/-- The first derivative of an optimum path. -/
theorem OptimumPath.first (hF : ContDiff ℝ 2 F) {x : Fin n → ℝ} {e d : Fin m → ℝ} {η : ℝ → Fin n → ℝ}
    (hη : OptimumPath F x e d η) (hpd : PositiveCurvature F x e) :
    -((toMatrix n n (hessArr F x e))⁻¹ *ᵥ fderiv ℝ (gradF F) (x, e) (0, d)) = iteratedDeriv 1 η 0 := by
  rw [iteratedDeriv_one]
  have hd : HasDerivAt η (deriv η 0) 0 :=
    (hη.smooth.self_of_nhds.differentiableAt (by simp)).hasDerivAt
  have hl : HasDerivAt (fun t : ℝ => e + t • d) d 0 := by
    simpa using ((hasDerivAt_id (0 : ℝ)).smul_const d).const_add e
  have h1 := hd.prodMk hl
  have hg : HasFDerivAt (gradF F) (fderiv ℝ (gradF F) (x, e)) (η 0, e + (0 : ℝ) • d) := by
    rw [hη.start, zero_smul, add_zero]
    exact ((gradF_contDiff1 hF).differentiable (by norm_num) _).hasFDerivAt
  have h2 := hg.comp_hasDerivAt (0 : ℝ) h1
  have h3 : (gradF F ∘ fun t => (η t, e + t • d)) =ᶠ[nhds 0] fun _ => 0 := by
    filter_upwards [hη.critical] with t ht
    exact (gradF_zero hF).mpr ht
  have h4 := (h2.congr_of_eventuallyEq h3.symm).unique (hasDerivAt_const (0 : ℝ) (0 : Fin n → ℝ))
  have h5 : ((deriv η 0, d) : (Fin n → ℝ) × (Fin m → ℝ)) = (deriv η 0, 0) + (0, d) := by simp
  rw [h5, map_add, ← hessArr_mulVec hF] at h4
  have hdet := (hessArr_posDef hF hpd).det_pos.ne'
  have h7 := congrArg (fun w => (toMatrix n n (hessArr F x e))⁻¹ *ᵥ w) h4
  simp only [Matrix.mulVec_add, Matrix.mulVec_mulVec, Matrix.mulVec_zero] at h7
  rw [Matrix.nonsing_inv_mul _ (isUnit_iff_ne_zero.mpr hdet), Matrix.one_mulVec] at h7
  exact (eq_neg_of_add_eq_zero_left h7).symm

/-- The first derivative method, for any base Hessian. -/
theorem Taylor.evaluateDk_one {T : Taylor} (hT : Taylor.Ready G T) (hn : 0 < n) (hm : 0 < m)
    (hin : T.base.inputVal0.length = n) (hhy : T.base.hyperVal0.length = m) {d : List ℝ}
    (hd : d.length = m) (hs : T.base.hess0.shape = [n, n]) (hdet : (toMatrix n n T.base.hess0).det ≠ 0)
    (h1 : (setPar T.inputPar T.base.inputVal0 T.inputIsFree).2 = none)
    (h2 : (setPar T.hyperPar T.base.hyperVal0 T.hyperIsFree).2 = none) (ho : 1 ≤ T.order) :
    T.evaluateDk d 1 = ({ T with
      inputPar := (setPar T.inputPar T.base.inputVal0 T.inputIsFree).1,
      hyperPar := (setPar T.hyperPar T.base.hyperVal0 T.hyperIsFree).1 },
      .ok (List.ofFn (-((toMatrix n n T.base.hess0)⁻¹ *ᵥ
        fderiv ℝ (gradF G) (toVec n T.base.inputVal0, toVec m T.base.hyperVal0) (0, toVec m d))))) := by
  obtain ⟨f, hf1, -, hf3⟩ := hT 0 (by omega)
  exact Taylor.evaluateDk_of (k := 1) hf1 (hf3 rfl T.base d hn hm hin hhy hd hs hdet) h1 h2 le_rfl ho

/-- The cross Hessian at any point; afterwards the parameters hold it. -/
theorem hessian12_base (hG : ContDiff ℝ 2 G) {p q : Param} {fn : Param → Param → Py Arr} {fi fh : Bool}
    (hev : Evaluates p q fn fi fh G) (hn : 0 < n) {x e : List ℝ} (hx : x.length = n)
    (he : e.length = m) :
    (TwoObjective.mk p q fun (_ : Unit) => fn).hessian12 x e fi fh () =
      (⟨(setPar p x fi).1, (setPar q e fh).1, fun _ => fn⟩, .ok (crossArr G (toVec n x) (toVec m e))) := by
  obtain ⟨s1, s2⟩ := TwoObjective.evalFun_ok (hev x e hx he)
  exact TwoObjective.cacheAndEval_ok _ (agHessian12_ok (F := TwoObjective.valueAt _ fi fh ()) hG
    (fun y1 y2 h1 h2 => hev y1 y2 h1 h2) hx he hn) s1 s2

namespace LinApprox

/-- `set_base_values` of the linear approximation, with a supplied or a computed Hessian. -/
theorem setBase_ok {T : LinApprox} (hfi : T.inputIsFree = true) (hfh : T.hyperIsFree = false)
    (hF : ContDiff ℝ 2 F) (hev : Evaluates T.inputPar T.hyperPar T.objFn true false F)
    (hG : ContDiff ℝ 2 G) (hevG : Evaluates T.inputPar T.hyperPar T.hyperFn true false G)
    (hn : 0 < n) {x e : List ℝ} (hx : x.length = n) (he : e.length = m) (H : Option Arr)
    (hs : (H.getD (hessArr F (toVec n x) (toVec m e))).shape = [n, n])
    (hpd : (toMatrix n n (H.getD (hessArr F (toVec n x) (toVec m e)))).PosDef) :
    ∃ l, T.setBaseValues x e H = ({ T with
      inputPar := (setPar T.inputPar x true).1, hyperPar := (setPar T.hyperPar e false).1,
      base := ⟨H.getD (hessArr F (toVec n x) (toVec m e)), x, e⟩, chol := l,
      cross := crossArr G (toVec n x) (toVec m e),
      sens := sensArr n m (H.getD (hessArr F (toVec n x) (toVec m e)))
        (crossArr G (toVec n x) (toVec m e)) }, none) := by
  obtain ⟨s1, s2⟩ := TwoObjective.evalFun_ok (hev x e hx he)
  simp only at s1 s2
  have r1 : setPar (setPar T.inputPar x true).1 x true = setPar T.inputPar x true :=
    setPar_eq (setPar_blank T.inputPar x true).symm s1
  have r2 : setPar (setPar T.hyperPar e false).1 e false = setPar T.hyperPar e false :=
    setPar_eq (setPar_blank T.hyperPar e false).symm s2
  have e1 : ({ T with base := { T.base with inputVal0 := x, hyperVal0 := e } } : LinApprox).setParToBase =
      ({ T with
        inputPar := (setPar T.inputPar x true).1, hyperPar := (setPar T.hyperPar e false).1,
        base := { T.base with inputVal0 := x, hyperVal0 := e } }, none) := by
    simp only [setParToBase, hfi, hfh, andThen, s1, s2]
  have e2 : ({ T with
      inputPar := (setPar T.inputPar x true).1, hyperPar := (setPar T.hyperPar e false).1,
      base := { T.base with inputVal0 := x, hyperVal0 := e } } : LinApprox).setHess H = ({ T with
      inputPar := (setPar T.inputPar x true).1, hyperPar := (setPar T.hyperPar e false).1,
      base := ⟨H.getD (hessArr F (toVec n x) (toVec m e)), x, e⟩ }, none) := by
    cases H with
    | some H => rfl
    | none =>
      have h0 := Taylor.funFreeHessian_base hF (Taylor.evaluates_blank hev
        (setPar_blank T.inputPar x true).symm rfl) hn hx he
      rw [r1] at h0
      simp only [setHess, objective, h0, Option.getD_none]
      rfl
  obtain ⟨l, hl1, hl2, hl3⟩ := choFactor_ok hs hpd
  obtain ⟨X, hX1, hX2⟩ := choSolve_ok (m := m) (C := crossArr G (toVec n x) (toVec m e)) hl2 rfl hl3
  have hc := hessian12_base hG (Taylor.evaluates_blank hevG (setPar_blank T.inputPar x true).symm
    (setPar_blank T.hyperPar e false).symm) hn hx he
  rw [r1, r2] at hc
  refine ⟨l, ?_⟩
  simp only [setBaseValues, e1, andThen, e2, setChol, hl1, setCross, joint,
    TwoObjective.funHessianFree1Vector2, hc, setSens, hX1, hX2]

end LinApprox

theorem clm_eq_mulVec (A : (Fin m → ℝ) →L[ℝ] (Fin n → ℝ)) (M : Matrix (Fin n) (Fin m) ℝ)
    (h : ∀ i j, M i j = A (Pi.single j 1) i) (v : Fin m → ℝ) : A v = M *ᵥ v := by
  have h1 := LinearMap.pi_apply_eq_sum_univ (A : (Fin m → ℝ) →ₗ[ℝ] (Fin n → ℝ)) v
  have h2 : A v = ∑ j, v j • A (Pi.single j 1) := by
    refine h1.trans (Finset.sum_congr rfl fun j _ => ?_)
    have : (fun k => if j = k then (1 : ℝ) else 0) = Pi.single j 1 := by
      funext k
      simp [Pi.single_apply, eq_comm]
    rw [this]
    rfl
  funext i
  rw [h2, Finset.sum_apply, Matrix.mulVec, dotProduct]
  refine Finset.sum_congr rfl fun j _ => ?_
  rw [h i j]
  simp [mul_comm]

theorem mulVec_toMatrix {S : Arr} (hS : S.shape = [n, m]) {d : List ℝ} (hd : d.length = m) :
    S.mulVec d = .ok (List.ofFn (toMatrix n m S *ᵥ toVec m d)) := by
  rw [Arr.mulVec, hS]
  simp only [hd, if_true]
  congr 1
  apply List.ext_getElem
  · simp
  · intro i h1 h2
    simp only [List.getElem_map, List.getElem_range, List.getElem_ofFn, Matrix.mulVec, dotProduct]
    rw [Finset.sum_range]
    refine Finset.sum_congr rfl fun j _ => ?_
    simp [toMatrix, toVec]

theorem vsub_toVec {a b : List ℝ} (ha : a.length = m) (hb : b.length = m) :
    ∃ d, vsub a b = .ok d ∧ d.length = m ∧ toVec m d = toVec m a - toVec m b := by
  refine ⟨List.zipWith (· - ·) a b, by rw [vsub, if_pos (by rw [ha, hb])], by simp [ha, hb], ?_⟩
  funext i
  have h1 : (i : ℕ) < a.length := by omega
  have h2 : (i : ℕ) < b.length := by omega
  simp [toVec, h1, h2]

theorem vadd_toVec {a : List ℝ} (ha : a.length = n) (v : Fin n → ℝ) :
    vadd a (List.ofFn v) = .ok (List.ofFn (toVec n a + v)) := by
  rw [vadd, if_pos (by simp [ha])]
  congr 1
  apply List.ext_getElem
  · simp [ha]
  · intro i h1 h2
    simp only [List.getElem_zipWith, List.getElem_ofFn, Pi.add_apply]
    have : i < a.length := by simp [ha] at h2; omega
    simp [toVec, this]

/-- The sensitivity from the Hessian of the objective is the linear response. -/
theorem linearResponse_of (hF : ContDiff ℝ 2 F) {x e : List ℝ} (hx : x.length = n) (he : e.length = m)
    (hpd : PositiveCurvature F (toVec n x) (toVec m e)) {S : Arr}
    (hS : S = sensArr n m (hessArr F (toVec n x) (toVec m e)) (crossArr F (toVec n x) (toVec m e))) :
    LinearResponse (n := n) (m := m) F x e S (fun new => do
      let d ← vsub new e
      vadd x (← S.mulVec d)) := by
  have hm := sensArr_isMat (n := n) (m := m) (hessArr F (toVec n x) (toVec m e))
    (crossArr F (toVec n x) (toVec m e))
  rw [← hS] at hm
  refine ⟨hm, ?_⟩
  intro opt hc h0 hopt
  have hcrit : fderiv ℝ (fun u => F (u, toVec m e)) (toVec n x) = 0 := by
    have := hopt.self_of_nhds
    rwa [h0] at this
  obtain ⟨ψ, h1, -, -, h4⟩ := exists_optimumMap hF hcrit hpd
  have hA : HasFDerivAt opt (fderiv ℝ ψ (toVec m e)) (toVec m e) :=
    (h1.differentiableAt (by norm_num)).hasFDerivAt.congr_of_eventuallyEq (h4 opt hc h0 hopt)
  have hent : ∀ (i : Fin n) (j : Fin m), S.at2 i j = fderiv ℝ ψ (toVec m e) (Pi.single j 1) i := by
    intro i j
    rw [hS]
    exact (optimum_fderiv hF hpd h0 hopt hA i j).symm
  refine ⟨_, hA, hent, ?_⟩
  intro new hnew
  obtain ⟨d, d1, d2, d3⟩ := vsub_toVec hnew he
  simp only
  rw [d1, py_ok_bind, mulVec_toMatrix hm.2 d2, py_ok_bind, vadd_toVec hx, d3,
    clm_eq_mulVec _ (toMatrix n m S) (fun i j => by rw [toMatrix, Matrix.of_apply]; exact hent i j)]

theorem TwoObjective.trace_blank {A : Type} (o : TwoObjective A) (x1 x2 : List ℝ)
    (f1 f2 t1 t2 : Bool) : (o.trace x1 x2 f1 f2 t1 t2).par1.blank = o.par1.blank ∧
      (o.trace x1 x2 f1 f2 t1 t2).par2.blank = o.par2.blank := by
  unfold TwoObjective.trace
  simp only
  split
  · exact ⟨setPar_blank _ _ _, rfl⟩
  · split <;> cases t1 <;> cases t2 <;> simp [Param.mark_blank, setPar_blank]

theorem TwoObjective.cacheAndEval_blank {A β : Type} (o : TwoObjective A) (x1 x2 : List ℝ)
    (f1 f2 t1 t2 : Bool) (ag : Py β) : (o.cacheAndEval x1 x2 f1 f2 t1 t2 ag).1.par1.blank = o.par1.blank ∧
      (o.cacheAndEval x1 x2 f1 f2 t1 t2 ag).1.par2.blank = o.par2.blank := by
  have h := o.trace_blank x1 x2 f1 f2 t1 t2
  unfold TwoObjective.cacheAndEval
  simp only
  split
  · exact h
  · split
    · exact ⟨(setPar_blank _ _ _).trans h.1, h.2⟩
    · exact ⟨(setPar_blank _ _ _).trans h.1, (setPar_blank _ _ _).trans h.2⟩

namespace LinApprox

/-- What no method changes. -/
structure Keeps (T T' : LinApprox) : Prop where
  fi : T'.inputIsFree = T.inputIsFree
  fh : T'.hyperIsFree = T.hyperIsFree
  obj : T'.objFn = T.objFn
  hyp : T'.hyperFn = T.hyperFn
  b1 : T'.inputPar.blank = T.inputPar.blank
  b2 : T'.hyperPar.blank = T.hyperPar.blank

theorem Keeps.refl (T : LinApprox) : Keeps T T := ⟨rfl, rfl, rfl, rfl, rfl, rfl⟩

theorem Keeps.trans {T T' T'' : LinApprox} (h : Keeps T T') (h' : Keeps T' T'') : Keeps T T'' :=
  ⟨h'.fi.trans h.fi, h'.fh.trans h.fh, h'.obj.trans h.obj, h'.hyp.trans h.hyp, h'.b1.trans h.b1,
    h'.b2.trans h.b2⟩

theorem Keeps.andThen {T : LinApprox} {r : LinApprox × Option PyErr}
    {k : LinApprox → LinApprox × Option PyErr} (h : Keeps T r.1) (hk : ∀ T, Keeps T (k T).1) :
    Keeps T (andThen r k).1 := by
  unfold LRVB.andThen
  split
  · exact h
  · exact h.trans (hk _)

theorem keeps_setBaseValues (T : LinApprox) (x e : List ℝ) (H : Option Arr) :
    Keeps T (T.setBaseValues x e H).1 := by
  have h0 : Keeps T { T with base := { T.base with inputVal0 := x, hyperVal0 := e } } :=
    ⟨rfl, rfl, rfl, rfl, rfl, rfl⟩
  refine Keeps.andThen (h0.trans ?_) fun T => Keeps.andThen ?_ fun T => Keeps.andThen ?_ fun T =>
    Keeps.andThen ?_ fun T => ?_
  · exact Keeps.andThen ⟨rfl, rfl, rfl, rfl, setPar_blank _ _ _, rfl⟩ fun T =>
      ⟨rfl, rfl, rfl, rfl, rfl, setPar_blank _ _ _⟩
  · unfold setHess
    split
    · exact ⟨rfl, rfl, rfl, rfl, rfl, rfl⟩
    · have hb : (T.objective.funFreeHessian T.base.inputVal0 ()).1.par.blank = T.objective.par.blank :=
        Objective.deriv_par_blank _ _ _ _ _
      simp only
      split <;> exact ⟨rfl, rfl, rfl, rfl, hb, rfl⟩
  · unfold setChol
    split
    · exact Keeps.refl _
    · exact ⟨rfl, rfl, rfl, rfl, rfl, rfl⟩
  · have hb := T.joint.cacheAndEval_blank T.base.inputVal0 T.base.hyperVal0 true false true true
      (TwoObjective.agHessian12 (T.joint.valueAt true false ()) T.base.inputVal0 T.base.hyperVal0)
    unfold setCross
    simp only
    split <;> exact ⟨rfl, rfl, rfl, rfl, hb.1, hb.2⟩
  · unfold setSens
    split
    · exact Keeps.refl _
    · exact ⟨rfl, rfl, rfl, rfl, rfl, rfl⟩

/-- The object after a call of `set_base_values`, whether or not it raised. -/
def step (T : LinApprox) (c : List ℝ × List ℝ × Option Arr) : LinApprox :=
  (T.setBaseValues c.1 c.2.1 c.2.2).1

theorem keeps_run : ∀ (cs : List (List ℝ × List ℝ × Option Arr)) (T : LinApprox),
    Keeps T (cs.foldl step T)
  | [], T => Keeps.refl T
  | c :: cs, T => (T.keeps_setBaseValues _ _ _).trans (keeps_run cs (T.step c))

/-- A constructed object has the given flags and functors, and parameters of the given structure. -/
theorem keeps_new {objFn : Param → Param → Py Arr} {inputPar hyperPar : Param} {x e : List ℝ}
    {fi fh : Bool} {hess0 : Option Arr} {hyperFn : Option (Param → Param → Py Arr)} {T : LinApprox}
    (h : LinApprox.new objFn inputPar hyperPar x e fi fh hess0 hyperFn = .ok T) :
    T.inputIsFree = fi ∧ T.hyperIsFree = fh ∧ T.objFn = objFn ∧ T.hyperFn = hyperFn.getD objFn ∧
      T.inputPar.blank = inputPar.blank ∧ T.hyperPar.blank = hyperPar.blank := by
  have hk := keeps_setBaseValues ⟨inputPar, hyperPar, fi, fh, objFn, hyperFn.getD objFn,
    ⟨⟨[0, 0], []⟩, [], []⟩, ⟨[0, 0], []⟩, ⟨[0, 0], []⟩, ⟨[0, 0], []⟩⟩ x e none
  unfold LinApprox.new at h
  simp only at h
  split at h
  · exact absurd h (by simp)
  · simp only [Except.ok.injEq] at h
    rw [h] at hk
    exact ⟨hk.fi, hk.fh, hk.obj, hk.hyp, hk.b1, hk.b2⟩

end LinApprox

/-! ### ParametricSensitivity -/

/-- The Jacobian of a conversion, explicitly. -/
theorem Converter.jacobian_base {eigh : Eigh} (he : EighContract eigh) (c : Converter)
    (hc : ∀ p q, (c.conv p q).1.blank = q.blank) (hb : Built eigh c.parOut)
    (hp : c.parOut.HasParams) (hv : c.parOut.Proper) (freeIn freeOut : Bool) {r : ℕ} (hr : 0 < r)
    {K : (Fin n → ℝ) → ℕ → ℝ} (hK : ∀ i < r, Differentiable ℝ fun u => K u i)
    (hval : ∀ y : List ℝ, y.length = n →
      (c.convert freeIn freeOut y).2 = .ok ((List.range r).map (K (toVec n y))))
    {x : List ℝ} (hx : x.length = n) :
    ∃ w q, c.parOut.getVector = .ok w ∧ w.length = c.parOut.vecSize ∧ q.getVector = .ok w ∧
      q.blank = c.parOut.blank ∧ (c.parOut.Plain → q = (c.parOut.setVector w).1) ∧
      c.jacobian freeIn freeOut x = (⟨(setPar c.parIn x freeIn).1, q, c.conv⟩,
        .ok (Arr.ofFn2 r n fun i j => fderiv ℝ (fun u => K u i) (toVec n x) (basis n j))) := by
  obtain ⟨w, hw, hwl⟩ := Param.getVector_proper c.parOut (hb.wf he) hp hv
  have hin := Converter.convert_ok (hval x hx)
  have bIn : (c.trace freeIn freeOut x).parIn.blank = c.parIn.blank := by
    simp only [Converter.trace, hin, Param.mark_blank, c.convert_parIn]
  have bOut : (c.trace freeIn freeOut x).parOut.blank = c.parOut.blank := by
    simp only [Converter.trace, hin, Param.mark_blank, c.convert_parOut hc]
  have hcv : (c.trace freeIn freeOut x).conv = c.conv := by
    have : (c.convert freeIn freeOut x).1.conv = c.conv := by
      simp only [Converter.convert, hin]
      split <;> rfl
    simp only [Converter.trace, hin, this]
  have eIn := setPar_eq bIn.symm hin
  have hout : (c.parOut.setVector w).2 = none := by
    rw [c.parOut.setVector_ok (hb.wf he) w hwl]
  have eOut : (c.trace freeIn freeOut x).parOut.setVector w = c.parOut.setVector w :=
    setPar_eq (free := false) bOut.symm hout
  have hJ := agJac_ok (F := c.valueAt freeIn freeOut) (g := fun i u => K u i) hK
    (fun y hy => by rw [Converter.valueAt, hval y hy]; rfl) hx hr
  refine ⟨w, if c.parOut.hasBox then (c.parOut.setVector w).1.mark true else (c.parOut.setVector w).1, hw, hwl, ?_, ?_,
    fun h => by rw [Param.hasBox_plain.2 h]; rfl, ?_⟩
  · have : (c.parOut.setVector w).1.getVector = .ok w := by
      rw [c.parOut.setVector_ok (hb.wf he) w hwl]
      exact c.parOut.getVector_vecP (hb.wf he) hp w hwl
    split
    · rw [Param.mark_getVector]; exact this
    · exact this
  · split
    · rw [Param.mark_blank]; exact Param.setVector_blank _ _
    · exact Param.setVector_blank _ _
  · simp only [Converter.jacobian, hw, hJ, eIn, hin, eOut, hout, hcv]

theorem converts_blank {p p' q q' : Param} {conv} {r : ℕ} {K : (Fin n → ℝ) → ℕ → ℝ}
    (h : Converts p q conv r K) (hp : p.blank = p'.blank) (hq : q'.blank = q.blank) :
    Converts p' q' conv r K := by
  intro o ho y hy
  have h1 := h o (ho.trans hq) y hy
  have hin := Converter.convert_ok h1
  simp only at hin
  simp only [Converter.convert] at h1 ⊢
  rw [setPar_eq hp hin]
  exact h1

namespace Sens

theorem setOptimal_ok {eigh : Eigh} (hei : EighContract eigh) {S : Sens}
    (hF : ContDiff ℝ 2 F) (hev : Evaluates S.inputPar S.hyperPar S.objFn true false F)
    (hG : ContDiff ℝ 2 G) (hevG : Evaluates S.inputPar S.hyperPar S.hyperFn true false G)
    (hn : 0 < n) {x e : List ℝ} (hx : x.length = n) (he : e.length = m)
    (hc : ∀ p q, (S.conv p q).1.blank = q.blank) (hb : Built eigh S.outputPar)
    (hp : S.outputPar.HasParams) (hv : S.outputPar.Proper) {r : ℕ} (hr : 0 < r)
    {K : (Fin n → ℝ) → ℕ → ℝ} (hK : ∀ i < r, Differentiable ℝ fun u => K u i)
    (hconv : Converts S.inputPar S.outputPar S.conv r K)
    (hhy : S.hyperPar.setVector e = (S.hyperPar, none)) (hhg : S.hyperPar.getVector = .ok e)
    {optInput : Option (List ℝ)}
    (hopt : optInput = some x ∨ optInput = none ∧ S.inputPar.getFree = .ok x)
    (H : Option Arr)
    (hs : (H.getD (hessArr F (toVec n x) (toVec m e))).shape = [n, n])
    (hpd : (toMatrix n n (H.getD (hessArr F (toVec n x) (toVec m e)))).PosDef) :
    ∃ l w q, S.outputPar.getVector = .ok w ∧ w.length = S.outputPar.vecSize ∧ q.getVector = .ok w ∧
      q.blank = S.outputPar.blank ∧ (S.outputPar.Plain → q = (S.outputPar.setVector w).1) ∧
      S.setOptimal optInput H = ({ S with
        inputPar := (setPar S.inputPar x true).1, outputPar := q,
        optInput := x, optHyper := e, optOutput := w,
        hess := H.getD (hessArr F (toVec n x) (toVec m e)), chol := l,
        doutDin := Arr.ofFn2 r n fun i j => fderiv ℝ (fun u => K u i) (toVec n x) (basis n j),
        cross := crossArr G (toVec n x) (toVec m e),
        sens := sensArr n m (H.getD (hessArr F (toVec n x) (toVec m e)))
          (crossArr G (toVec n x) (toVec m e)) }, none) := by
  obtain ⟨s1, s2⟩ := TwoObjective.evalFun_ok (hev x e hx he)
  simp only at s1 s2
  have hhy' : setPar S.hyperPar e false = (S.hyperPar, none) := hhy
  have e1 : S.setInput optInput = ({ S with optInput := x }, none) := by
    rcases hopt with rfl | ⟨rfl, h⟩
    · rfl
    · simp only [setInput, h]
  obtain ⟨p', hp', e2⟩ : ∃ p' : Param, p'.blank = S.inputPar.blank ∧
      ({ S with optInput := x } : Sens).setHess H = ({ S with
        inputPar := p', optInput := x, hess := H.getD (hessArr F (toVec n x) (toVec m e)) }, none) := by
    cases H with
    | some H => exact ⟨S.inputPar, rfl, rfl⟩
    | none =>
      refine ⟨(setPar S.inputPar x true).1, setPar_blank _ _ _, ?_⟩
      have h0 := Taylor.funFreeHessian_base hF hev hn hx he
      rw [hhy'] at h0
      simp only [setHess, objective, h0, Option.getD_none]
      rfl
  obtain ⟨l, hl1, hl2, hl3⟩ := choFactor_ok hs hpd
  obtain ⟨X, hX1, hX2⟩ := choSolve_ok (m := m) (C := crossArr G (toVec n x) (toVec m e)) hl2 rfl hl3
  obtain ⟨w, q, w1, w2, w3, w4, w6, w5⟩ := Converter.jacobian_base hei ⟨p', S.outputPar, S.conv⟩ hc hb hp
    hv true false hr hK (fun y hy => converts_blank hconv hp'.symm rfl _ rfl y hy) hx
  have r1 : setPar p' x true = setPar S.inputPar x true := setPar_eq hp'.symm s1
  have hcr := hessian12_base hG (Taylor.evaluates_blank hevG (p' := (setPar S.inputPar x true).1)
    (q' := S.hyperPar) (setPar_blank S.inputPar x true).symm rfl) hn hx he
  rw [setPar_eq (setPar_blank S.inputPar x true).symm s1, hhy'] at hcr
  simp only at w1 w2 w3 w4 w5
  rw [r1] at w5
  refine ⟨l, w, q, w1, w2, w3, w4, w6, ?_⟩
  simp only [setOptimal, e1, andThen, e2, setChol, hl1, setDout, converter, w5, setHyper, hhg, setCross,
    joint, TwoObjective.funHessianFree1Vector2, hcr, setOutput, w3, setSens, hX1, hX2]

end Sens

end

end LRVB
