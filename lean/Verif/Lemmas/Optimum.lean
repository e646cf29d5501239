import Verif.Spec.Optimum
import Verif.Lemmas.Terms6
import Verif.Props.Ld
import Mathlib.Analysis.Calculus.BumpFunction.Basic
import Mathlib.Analysis.Calculus.BumpFunction.InnerProduct
import Mathlib.Analysis.Calculus.InverseFunctionTheorem.ContDiff
import Mathlib.Analysis.Normed.Module.FiniteDimension

/-! Optimum paths: the Hessian, existence, and reduction to globally smooth paths. -/

namespace LRVB

open scoped ContDiff Matrix

noncomputable section

variable {n m : ℕ} {F : (Fin n → ℝ) × (Fin m → ℝ) → ℝ}

theorem two_le_infty : (2 : WithTop ℕ∞) ≤ ∞ := WithTop.coe_le_coe.mpr (le_top : (2 : ℕ∞) ≤ ⊤)

/-- The gradient in the first argument. -/
def gradF (F : (Fin n → ℝ) × (Fin m → ℝ) → ℝ) (p : (Fin n → ℝ) × (Fin m → ℝ)) : Fin n → ℝ :=
  fun i => fderiv ℝ F p (basis n i, 0)

theorem gradF_contDiff (hF : ContDiff ℝ ∞ F) : ContDiff ℝ ∞ (gradF F) := by
  refine contDiff_pi.mpr fun i => ?_
  have : ContDiff ℝ ∞ (fderiv ℝ F) := hF.fderiv_right (by simp)
  exact this.clm_apply contDiff_const

theorem gradF_fderiv (hF : ContDiff ℝ 2 F) (p q : (Fin n → ℝ) × (Fin m → ℝ)) (i : Fin n) :
    fderiv ℝ (gradF F) p q i = fderiv ℝ (fderiv ℝ F) p q (basis n i, 0) := by
  have h : HasFDerivAt (gradF F) (ContinuousLinearMap.pi fun i : Fin n =>
      (fderiv ℝ (fderiv ℝ F) p).flip (basis n i, 0)) p :=
    hasFDerivAt_pi.mpr fun i => fderiv2_hasFDerivAt hF p (basis n i, 0)
  rw [h.fderiv]
  simp

theorem basis_expand (u : Fin n → ℝ) : u = ∑ j : Fin n, u j • basis n j := by
  ext i
  simp [basis, Fin.ext_iff, Finset.sum_apply]
  rw [Finset.sum_eq_single i]
  · simp
  · intro j _ hj
    rw [if_neg]
    intro h; exact hj (Fin.ext h.symm)
  · simp

theorem linear_first (L : (Fin n → ℝ) × (Fin m → ℝ) →L[ℝ] ℝ) (u : Fin n → ℝ) :
    L (u, 0) = ∑ j : Fin n, L (basis n j, 0) * u j := by
  have h := map_sum (L.comp (ContinuousLinearMap.inl ℝ (Fin n → ℝ) (Fin m → ℝ)))
    (fun j : Fin n => u j • basis n j) Finset.univ
  rw [← basis_expand u] at h
  simp only [ContinuousLinearMap.comp_apply, map_smul, smul_eq_mul] at h
  simp only [ContinuousLinearMap.inl_apply] at h
  rw [h]
  exact Finset.sum_congr rfl fun j _ => mul_comm _ _

theorem curvature_eq (hF : ContDiff ℝ 2 F) (x u : Fin n → ℝ) (e : Fin m → ℝ) :
    iteratedDeriv 2 (fun t : ℝ => F (x + t • u, e)) 0 =
      fderiv ℝ (fderiv ℝ F) (x, e) (u, 0) (u, 0) := by
  have hline : ∀ t : ℝ, HasDerivAt (fun t : ℝ => ((x + t • u, e) : (Fin n → ℝ) × (Fin m → ℝ)))
      (u, 0) t := by
    intro t
    have h1 : HasDerivAt (fun t : ℝ => x + t • u) u t := by
      simpa using ((hasDerivAt_id t).smul_const u).const_add x
    exact h1.prodMk (hasDerivAt_const t e)
  have h1 : deriv (fun t : ℝ => F (x + t • u, e)) = fun t => fderiv ℝ F (x + t • u, e) (u, 0) := by
    funext t
    have := (hF.differentiable (by norm_num) (x + t • u, e)).hasFDerivAt.comp_hasDerivAt t (hline t)
    exact this.deriv
  rw [iteratedDeriv_succ, iteratedDeriv_one, h1]
  have h2 := (fderiv2_hasFDerivAt hF (x + (0 : ℝ) • u, e) (u, 0)).comp_hasDerivAt
    (0 : ℝ) (hline 0)
  have h3 : deriv (fun t : ℝ => fderiv ℝ F (x + t • u, e) (u, 0)) 0 = _ := h2.deriv
  rw [h3]
  simp

/-- The Hessian autograd computes. -/
def hessArr (F : (Fin n → ℝ) × (Fin m → ℝ) → ℝ) (x : Fin n → ℝ) (e : Fin m → ℝ) : Arr :=
  Arr.ofFn2 n n fun i j => fderiv ℝ (fderiv ℝ F) (x, e) (basis n j, 0) (basis n i, 0)

theorem fderiv2_left (hF : ContDiff ℝ 2 F) (x a b : Fin n → ℝ) (e : Fin m → ℝ) :
    fderiv ℝ (fderiv ℝ fun u => F (u, e)) x a b = fderiv ℝ (fderiv ℝ F) (x, e) (a, 0) (b, 0) := by
  have hF2 := hF
  have hc := contDiff_left hF2 e
  have hdd : DifferentiableAt ℝ (fderiv ℝ fun u => F (u, e)) x :=
    (hc.fderiv_right (m := 1) (by norm_num)).differentiable (by norm_num) x
  have h1 := hdd.hasFDerivAt.clm_apply (hasFDerivAt_const b x)
  have h2 : (fun u => fderiv ℝ (fun u => F (u, e)) u b) = fun u => fderiv ℝ F (u, e) (b, 0) := by
    funext u; exact fderiv_left hF2 u b e
  rw [h2] at h1
  have h3 := (fderiv2_hasFDerivAt hF2 (x, e) (b, 0)).comp (f := fun u => (u, e)) x
    ((hasFDerivAt_id x).prodMk (hasFDerivAt_const e x))
  have := congrArg (fun L => L a) (h1.unique h3)
  simpa using this

theorem toMatrix_hessArr (i j : Fin n) (x : Fin n → ℝ) (e : Fin m → ℝ) :
    toMatrix n n (hessArr F x e) i j = fderiv ℝ (fderiv ℝ F) (x, e) (basis n j, 0) (basis n i, 0) := by
  rw [toMatrix, Matrix.of_apply, hessArr, Arr.at2_ofFn2 _ _ _ i.2 j.2]

theorem hessArr_mulVec (hF : ContDiff ℝ 2 F) (x u : Fin n → ℝ) (e : Fin m → ℝ) :
    toMatrix n n (hessArr F x e) *ᵥ u = fderiv ℝ (gradF F) (x, e) (u, 0) := by
  funext i
  rw [gradF_fderiv hF]
  have := linear_first ((fderiv ℝ (fderiv ℝ F) (x, e)).flip (basis n i, 0)) u
  simp only [ContinuousLinearMap.flip_apply] at this
  rw [this, Matrix.mulVec, dotProduct]
  refine Finset.sum_congr rfl fun j _ => ?_
  rw [toMatrix_hessArr]

theorem hessArr_symm (hF : ContDiff ℝ 2 F) (x : Fin n → ℝ) (e : Fin m → ℝ) (a b : ℕ) :
    fderiv ℝ (fderiv ℝ F) (x, e) (basis n a, 0) (basis n b, 0) =
      fderiv ℝ (fderiv ℝ F) (x, e) (basis n b, 0) (basis n a, 0) :=
  (hF.contDiffAt.isSymmSndFDerivAt (by simp)).eq _ _

theorem hessArr_posDef (hF : ContDiff ℝ 2 F) {x : Fin n → ℝ} {e : Fin m → ℝ}
    (h : PositiveCurvature F x e) : (toMatrix n n (hessArr F x e)).PosDef := by
  rw [Matrix.posDef_iff_dotProduct_mulVec]
  constructor
  · ext i j
    rw [Matrix.conjTranspose_apply, star_trivial, toMatrix_hessArr, toMatrix_hessArr,
      hessArr_symm hF]
  · intro u hu
    have h0 := h u hu
    rw [curvature_eq hF] at h0
    rw [hessArr_mulVec hF, linear_first] at *
    simp only [dotProduct, star_trivial, gradF_fderiv hF]
    simp only [mul_comm (u _)]
    exact h0

theorem choFactor_ok {H : Arr} (hs : H.shape = [n, n]) (hpd : (toMatrix n n H).PosDef) :
    ∃ l, choFactor H = .ok l ∧ l.shape = [n, n] ∧
      toMatrix n n l * (toMatrix n n l)ᵀ = toMatrix n n H := by
  have hsym : ∀ i j : Fin n, H.at2 i j = H.at2 j i := by
    intro i j
    have := congrFun (congrFun hpd.isHermitian i) j
    rw [Matrix.conjTranspose_apply, star_trivial] at this
    simpa [toMatrix] using this.symm
  have hpd' : (toMat n fun i j => H.at2 j i).PosDef := by
    have : (toMat n fun i j => H.at2 j i) = toMatrix n n H := by
      ext i j
      simp only [toMat, toMatrix, Matrix.of_apply]
      exact hsym j i
    rwa [this]
  have hp := posDef_pivots hpd'
  refine ⟨Arr.ofFn2 n n (cholEntry fun i j => H.at2 j i), ?_, rfl, ?_⟩
  · rw [choFactor, hs]
    simp only [ne_eq, not_true_eq_false, if_false]
    rw [Arr.transpose, hs]
    exact (cholesky_ok_iff n _).1 hp
  · have e : toMatrix n n (Arr.ofFn2 n n (cholEntry fun i j => H.at2 j i)) =
        Matrix.of fun i j : Fin n => cholEntry (fun i j => H.at2 j i) i j := by
      ext i j
      rw [toMatrix, Matrix.of_apply, Arr.at2_ofFn2 _ _ _ i.2 j.2, Matrix.of_apply]
    rw [e]
    ext i j
    rw [Matrix.mul_apply]
    simp only [Matrix.transpose_apply, Matrix.of_apply]
    rw [Fin.sum_univ_eq_sum_range (fun k => cholEntry (fun i j => H.at2 j i) i k *
      cholEntry (fun i j => H.at2 j i) j k)]
    rcases le_total (j : ℕ) i with h | h
    · rw [chol_mul _ n hp h i.2]
      simp only [toMatrix, Matrix.of_apply]
      exact hsym j i
    · simp only [mul_comm (cholEntry _ (i : ℕ) _)]
      rw [chol_mul _ n hp h j.2]
      rfl

theorem gradF_zero (hF : ContDiff ℝ 2 F) {u : Fin n → ℝ} {v : Fin m → ℝ} :
    gradF F (u, v) = 0 ↔ fderiv ℝ (fun u => F (u, v)) u = 0 := by
  have hF2 := hF
  constructor
  · intro h
    ext w
    rw [fderiv_left hF2, linear_first]
    have : ∀ j : Fin n, fderiv ℝ F (u, v) (basis n j, 0) = 0 := fun j => congrFun h j
    simp [this]
  · intro h
    funext i
    rw [gradF, ← fderiv_left hF2, h]
    rfl

/-- A path which is smooth near 0 agrees near 0 with a smooth one. -/
theorem exists_smooth {η : ℝ → Fin n → ℝ} (h : ∀ᶠ t in nhds (0 : ℝ), ContDiffAt ℝ ∞ η t) :
    ∃ η' : ℝ → Fin n → ℝ, ContDiff ℝ ∞ η' ∧ η' =ᶠ[nhds 0] η := by
  obtain ⟨ε, hε, hb⟩ := Metric.eventually_nhds_iff_ball.mp h
  let χ : ContDiffBump (0 : ℝ) := ⟨ε / 4, ε / 2, by linarith, by linarith⟩
  refine ⟨fun t => χ t • η t, contDiff_iff_contDiffAt.mpr fun t => ?_, ?_⟩
  · by_cases ht : t ∈ Metric.ball (0 : ℝ) ε
    · exact χ.contDiff.contDiffAt.smul (hb t ht)
    · have h1 : t ∉ tsupport χ := by
        rw [χ.tsupport_eq]
        intro hc
        apply ht
        simp only [Metric.mem_closedBall, Metric.mem_ball] at hc ⊢
        have : χ.rOut = ε / 2 := rfl
        linarith
      have h2 : (fun s => χ s • η s) =ᶠ[nhds t] fun _ => 0 := by
        filter_upwards [notMem_tsupport_iff_eventuallyEq.mp h1] with s hs
        rw [hs]; simp
      exact contDiffAt_const.congr_of_eventuallyEq h2
  · filter_upwards [χ.eventuallyEq_one] with t ht
    rw [ht]; simp

/-- An optimum path is a path in the sense of the term calculus, with the same derivatives. -/
theorem OptimumPath.path (hF : ContDiff ℝ ∞ F) {b : Base} {d : List ℝ} {η : ℝ → Fin n → ℝ}
    (hn : 0 < n) (hm : 0 < m) (hin : b.inputVal0.length = n) (hhy : b.hyperVal0.length = m)
    (hd : d.length = m) (hs : b.hess0.shape = [n, n])
    (hH : toMatrix n n b.hess0 = toMatrix n n (hessArr F (toVec n b.inputVal0) (toVec m b.hyperVal0)))
    (hdet : (toMatrix n n b.hess0).det ≠ 0)
    (h : OptimumPath F (toVec n b.inputVal0) (toVec m b.hyperVal0) (toVec m d) η) :
    ∃ η', Path (gradF F) b d η' ∧ ∀ k, iteratedDeriv k η' 0 = iteratedDeriv k η 0 := by
  obtain ⟨η', h1, h2⟩ := exists_smooth h.smooth
  refine ⟨η', ⟨hn, hm, hin, hhy, hd, h1, ?_, ?_, hs, ?_, hdet⟩, fun k => h2.iteratedDeriv_eq k⟩
  · rw [h2.self_of_nhds, h.start]
  · filter_upwards [h2, h.critical] with t ht hc
    rw [ht]
    exact (gradF_zero (hF.of_le two_le_infty)).mpr hc
  · intro u
    rw [hH, hessArr_mulVec (hF.of_le two_le_infty)]

/-- **Existence** of the optimum path: from every critical point with positive curvature, in every
direction. -/
theorem exists_optimumPath (hF : ContDiff ℝ ∞ F) {x : Fin n → ℝ} {e : Fin m → ℝ}
    (hcrit : fderiv ℝ (fun u => F (u, e)) x = 0) (hpd : PositiveCurvature F x e) (d : Fin m → ℝ) :
    ∃ η, OptimumPath F x e d η := by
  let Φ : (Fin n → ℝ) × ℝ → (Fin n → ℝ) × ℝ := fun z => (gradF F (z.1, e + z.2 • d), z.2)
  have hin : ContDiff ℝ ∞ fun z : (Fin n → ℝ) × ℝ => (z.1, e + z.2 • d) :=
    contDiff_fst.prodMk (contDiff_const.add (contDiff_snd.smul contDiff_const))
  have hΦ : ContDiff ℝ ∞ Φ := ((gradF_contDiff hF).comp hin).prodMk contDiff_snd
  -- the derivative at the base point
  have hker : ∀ z, fderiv ℝ Φ (x, 0) z = 0 → z = 0 := by
    intro z hz
    have hd1 : HasFDerivAt (fun z : (Fin n → ℝ) × ℝ => (z.1, e + z.2 • d))
        ((ContinuousLinearMap.fst ℝ (Fin n → ℝ) ℝ).prod
          ((ContinuousLinearMap.snd ℝ (Fin n → ℝ) ℝ).smulRight d)) (x, (0 : ℝ)) :=
      hasFDerivAt_fst.prodMk ((hasFDerivAt_snd.smul_const d).const_add e)
    have hg : HasFDerivAt (gradF F) (fderiv ℝ (gradF F) (x, e + (0 : ℝ) • d)) (x, e + (0 : ℝ) • d) :=
      ((gradF_contDiff hF).differentiable (by simp) _).hasFDerivAt
    have hd2 := (HasFDerivAt.comp (g := gradF F) (x, (0 : ℝ)) hg hd1).prodMk
      (hasFDerivAt_snd (𝕜 := ℝ) (p := (x, (0 : ℝ))))
    have hd3 : fderiv ℝ Φ (x, 0) = _ := hd2.fderiv
    rw [hd3] at hz
    obtain ⟨v, s⟩ := z
    simp only [ContinuousLinearMap.prod_apply, ContinuousLinearMap.comp_apply,
      ContinuousLinearMap.coe_fst', ContinuousLinearMap.coe_snd', ContinuousLinearMap.smulRight_apply,
      Prod.mk_eq_zero, zero_smul, add_zero] at hz
    obtain ⟨hz1, rfl⟩ := hz
    rw [zero_smul, ← hessArr_mulVec (hF.of_le two_le_infty)] at hz1
    have hv : v = 0 := by
      by_contra hv
      have := (hessArr_posDef (hF.of_le two_le_infty) hpd).dotProduct_mulVec_pos hv
      rw [hz1] at this
      simp at this
    rw [hv]; rfl
  let A : ((Fin n → ℝ) × ℝ) ≃L[ℝ] ((Fin n → ℝ) × ℝ) :=
    (LinearEquiv.ofInjectiveEndo (fderiv ℝ Φ (x, 0) : ((Fin n → ℝ) × ℝ) →ₗ[ℝ] _)
      ((injective_iff_map_eq_zero _).mpr hker)).toContinuousLinearEquiv
  have hA : (A : ((Fin n → ℝ) × ℝ) →L[ℝ] _) = fderiv ℝ Φ (x, 0) := by
    ext z <;> rfl
  have hdA : HasFDerivAt Φ (A : ((Fin n → ℝ) × ℝ) →L[ℝ] _) (x, 0) := by
    rw [hA]; exact (hΦ.differentiable (by simp) _).hasFDerivAt
  have hΦ0 : Φ (x, 0) = (0, 0) := by
    have : gradF F (x, e) = 0 := (gradF_zero (hF.of_le two_le_infty)).mpr hcrit
    simp [Φ, this]
  let Ψ := hΦ.contDiffAt.toOpenPartialHomeomorph Φ hdA (by simp)
  have hΨ : ∀ z, Ψ z = Φ z := fun z => rfl
  have hsrc : (x, (0 : ℝ)) ∈ Ψ.source := hΦ.contDiffAt.mem_toOpenPartialHomeomorph_source hdA (by simp)
  have htgt : ((0, 0) : (Fin n → ℝ) × ℝ) ∈ Ψ.target := by
    rw [← hΦ0]; exact Ψ.map_source hsrc
  have hsymm0 : Ψ.symm (0, 0) = (x, 0) := by
    rw [← hΦ0]; exact Ψ.left_inv hsrc
  have hline : ContDiff ℝ ∞ fun t : ℝ => ((0, t) : (Fin n → ℝ) × ℝ) := contDiff_const.prodMk contDiff_id
  have hnear : ∀ᶠ y in nhds ((0, 0) : (Fin n → ℝ) × ℝ), y ∈ Ψ.target ∧ ContDiffAt ℝ ∞ Ψ.symm y := by
    have h1 : ∀ᶠ y in nhds ((0, 0) : (Fin n → ℝ) × ℝ), y ∈ Ψ.target :=
      Ψ.open_target.mem_nhds htgt
    have h2 : ∀ᶠ z in nhds (x, (0 : ℝ)), fderiv ℝ Φ z ∈
        Set.range ((↑) : (((Fin n → ℝ) × ℝ) ≃L[ℝ] ((Fin n → ℝ) × ℝ)) → _) := by
      have hc : ContinuousAt (fderiv ℝ Φ) (x, 0) := (hΦ.continuous_fderiv (by simp)).continuousAt
      refine hc.eventually_mem ?_
      rw [← hA]
      exact ContinuousLinearEquiv.nhds A
    have h3 : Filter.Tendsto Ψ.symm (nhds (0, 0)) (nhds (x, (0 : ℝ))) := by
      rw [← hsymm0]; exact Ψ.continuousAt_symm htgt
    filter_upwards [h1, h3.eventually h2] with y hy1 hy2
    obtain ⟨B, hB⟩ := hy2
    refine ⟨hy1, Ψ.contDiffAt_symm hy1 (f₀' := B) ?_ hΦ.contDiffAt⟩
    rw [hB]
    exact (hΦ.differentiable (by simp) _).hasFDerivAt
  have hnear' : ∀ᶠ t in nhds (0 : ℝ), ((0, t) : (Fin n → ℝ) × ℝ) ∈ Ψ.target ∧
      ContDiffAt ℝ ∞ Ψ.symm ((0, t) : (Fin n → ℝ) × ℝ) :=
    (hline.continuous.tendsto 0).eventually hnear
  refine ⟨fun t => (Ψ.symm (0, t)).1, ?_, by simp [hsymm0], ?_⟩
  · filter_upwards [hnear'] with t ht
    exact contDiff_fst.contDiffAt.comp t (ht.2.comp t hline.contDiffAt)
  · filter_upwards [hnear'] with t ht
    have h1 : Φ (Ψ.symm (0, t)) = (0, t) := Ψ.right_inv ht.1
    have h2 : (Ψ.symm (0, t)).2 = t := congrArg Prod.snd h1
    have h3 : gradF F ((Ψ.symm (0, t)).1, e + (Ψ.symm (0, t)).2 • d) = 0 := congrArg Prod.fst h1
    rw [h2] at h3
    exact (gradF_zero (hF.of_le two_le_infty)).mp h3

end

end LRVB
