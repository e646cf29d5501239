import Verif.Lemmas.Sens
import Mathlib.Analysis.Calculus.BumpFunction.FiniteDimension
import Mathlib.Analysis.Calculus.Taylor
import Mathlib.Analysis.Calculus.IteratedDeriv.Lemmas
import Mathlib.Analysis.Calculus.ContDiff.Basic

/-! How far the optimum is from its Taylor polynomials. -/

namespace LRVB

open scoped ContDiff Matrix Topology

noncomputable section

variable {n m : ℕ} {F : (Fin n → ℝ) × (Fin m → ℝ) → ℝ}

theorem gradF_contDiff_nat {r : ℕ} (hF : ContDiff ℝ (r + 1 : ℕ) F) : ContDiff ℝ r (gradF F) := by
  refine contDiff_pi.mpr fun i => ?_
  have : ContDiff ℝ r (fderiv ℝ F) := hF.fderiv_right (by norm_cast)
  exact this.clm_apply contDiff_const

/-- The optimum as a function of the hyperparameter, as smooth as the gradient, and the only critical
point nearby. -/
theorem exists_optimumMap_near {r : ℕ} (hr : 1 ≤ r) (hF : ContDiff ℝ (r + 1 : ℕ) F) {x : Fin n → ℝ}
    {e : Fin m → ℝ} (hcrit : fderiv ℝ (fun u => F (u, e)) x = 0) (hpd : PositiveCurvature F x e) :
    ∃ ψ : (Fin m → ℝ) → Fin n → ℝ, ContDiffAt ℝ r ψ e ∧ ψ e = x ∧ OptimumMap F e ψ ∧
      ∀ᶠ z in 𝓝 (x, e), fderiv ℝ (fun u => F (u, z.2)) z.1 = 0 → z.1 = ψ z.2 := by
  have hF2 : ContDiff ℝ 2 F := hF.of_le (by exact_mod_cast (by omega : 2 ≤ r + 1))
  have hr0 : (r : WithTop ℕ∞) ≠ 0 := by exact_mod_cast (by omega : r ≠ 0)
  let Φ : (Fin n → ℝ) × (Fin m → ℝ) → (Fin n → ℝ) × (Fin m → ℝ) := fun z => (gradF F z, z.2)
  have hΦ : ContDiff ℝ r Φ := (gradF_contDiff_nat hF).prodMk contDiff_snd
  have hker : ∀ z, fderiv ℝ Φ (x, e) z = 0 → z = 0 := by
    intro z hz
    have hg : HasFDerivAt (gradF F) (fderiv ℝ (gradF F) (x, e)) (x, e) :=
      ((gradF_contDiff1 hF2).differentiable (by norm_num) _).hasFDerivAt
    have hd2 := hg.prodMk (hasFDerivAt_snd (𝕜 := ℝ) (p := (x, e)))
    have hd3 : fderiv ℝ Φ (x, e) = _ := hd2.fderiv
    rw [hd3] at hz
    obtain ⟨v, s⟩ := z
    simp only [ContinuousLinearMap.prod_apply, ContinuousLinearMap.coe_snd', Prod.mk_eq_zero] at hz
    obtain ⟨hz1, rfl⟩ := hz
    rw [← hessArr_mulVec hF2] at hz1
    have hv : v = 0 := by
      by_contra hv
      have := (hessArr_posDef hF2 hpd).dotProduct_mulVec_pos hv
      rw [hz1] at this
      simp at this
    rw [hv]; rfl
  let A : ((Fin n → ℝ) × (Fin m → ℝ)) ≃L[ℝ] ((Fin n → ℝ) × (Fin m → ℝ)) :=
    (LinearEquiv.ofInjectiveEndo (fderiv ℝ Φ (x, e) : ((Fin n → ℝ) × (Fin m → ℝ)) →ₗ[ℝ] _)
      ((injective_iff_map_eq_zero _).mpr hker)).toContinuousLinearEquiv
  have hA : (A : ((Fin n → ℝ) × (Fin m → ℝ)) →L[ℝ] _) = fderiv ℝ Φ (x, e) := by
    ext z <;> rfl
  have hdA : HasFDerivAt Φ (A : ((Fin n → ℝ) × (Fin m → ℝ)) →L[ℝ] _) (x, e) := by
    rw [hA]; exact (hΦ.differentiable hr0 _).hasFDerivAt
  have hΦ0 : Φ (x, e) = (0, e) := by
    have : gradF F (x, e) = 0 := (gradF_zero hF2).mpr hcrit
    simp [Φ, this]
  let Ψ := hΦ.contDiffAt.toOpenPartialHomeomorph Φ hdA hr0
  have hsrc : (x, e) ∈ Ψ.source := hΦ.contDiffAt.mem_toOpenPartialHomeomorph_source hdA hr0
  have htgt : ((0, e) : (Fin n → ℝ) × (Fin m → ℝ)) ∈ Ψ.target := by
    rw [← hΦ0]; exact Ψ.map_source hsrc
  have hsymm0 : Ψ.symm (0, e) = (x, e) := by
    rw [← hΦ0]; exact Ψ.left_inv hsrc
  have hline : ContDiff ℝ r fun v : Fin m → ℝ => ((0, v) : (Fin n → ℝ) × (Fin m → ℝ)) :=
    contDiff_const.prodMk contDiff_id
  have hcd : ContDiffAt ℝ r Ψ.symm (0, e) := by
    refine Ψ.contDiffAt_symm htgt (f₀' := A) ?_ hΦ.contDiffAt
    rw [hsymm0]
    exact hdA
  have hnear : ∀ᶠ v in 𝓝 e, ((0, v) : (Fin n → ℝ) × (Fin m → ℝ)) ∈ Ψ.target :=
    (hline.continuous.tendsto e).eventually (Ψ.open_target.mem_nhds htgt)
  refine ⟨fun v => (Ψ.symm (0, v)).1, ?_, by simp [hsymm0], ?_, ?_⟩
  · exact contDiff_fst.contDiffAt.comp e (hcd.comp e hline.contDiffAt)
  · filter_upwards [hnear] with v hv
    have h1 : Φ (Ψ.symm (0, v)) = (0, v) := Ψ.right_inv hv
    have h2 : (Ψ.symm (0, v)).2 = v := congrArg Prod.snd h1
    have h3 : gradF F (Ψ.symm (0, v)) = 0 := congrArg Prod.fst h1
    have h4 : Ψ.symm (0, v) = ((Ψ.symm (0, v)).1, v) := Prod.ext rfl h2
    rw [h4] at h3
    exact (gradF_zero hF2).mp h3
  · filter_upwards [Ψ.open_source.mem_nhds hsrc] with z hz ho
    have h1 : Φ z = (0, z.2) := by
      have : gradF F (z.1, z.2) = 0 := (gradF_zero hF2).mpr ho
      simp only [Prod.mk.eta] at this
      simp [Φ, this]
    have h2 : Ψ.symm (Φ z) = z := Ψ.left_inv hz
    rw [h1] at h2
    rw [h2]

/-- A map which is differentiable near a point agrees near it with a map which is so everywhere. -/
theorem exists_contDiff {r : ℕ} {ψ : (Fin m → ℝ) → Fin n → ℝ} {e : Fin m → ℝ}
    (h : ContDiffAt ℝ r ψ e) : ∃ ψ' : (Fin m → ℝ) → Fin n → ℝ, ContDiff ℝ r ψ' ∧ ψ' =ᶠ[𝓝 e] ψ := by
  obtain ⟨ε, hε, hb⟩ := Metric.eventually_nhds_iff_ball.mp
    (h.eventually (WithTop.coe_injective.ne (ENat.coe_ne_top r)))
  let χ : ContDiffBump e := ⟨ε / 4, ε / 2, by linarith, by linarith⟩
  refine ⟨fun t => χ t • ψ t, contDiff_iff_contDiffAt.mpr fun t => ?_, ?_⟩
  · by_cases ht : t ∈ Metric.ball e ε
    · exact χ.contDiff.contDiffAt.smul (hb t ht)
    · have h1 : t ∉ tsupport χ := by
        rw [χ.tsupport_eq]
        intro hc
        apply ht
        simp only [Metric.mem_closedBall, Metric.mem_ball] at hc ⊢
        have : χ.rOut = ε / 2 := rfl
        linarith
      have h2 : (fun s => χ s • ψ s) =ᶠ[𝓝 t] fun _ => 0 := by
        filter_upwards [notMem_tsupport_iff_eventuallyEq.mp h1] with s hs
        rw [hs]; simp
      exact contDiffAt_const.congr_of_eventuallyEq h2
  · filter_upwards [χ.eventuallyEq_one] with t ht
    rw [ht]; simp

theorem iteratedDeriv_line {r : ℕ} {ψ : (Fin m → ℝ) → Fin n → ℝ} (h : ContDiff ℝ r ψ)
    (e d : Fin m → ℝ) (t : ℝ) {k : ℕ} (hk : k ≤ r) :
    iteratedDeriv k (fun t : ℝ => ψ (e + t • d)) t = iteratedFDeriv ℝ k ψ (e + t • d) fun _ => d := by
  have h1 : (fun t : ℝ => ψ (e + t • d)) =
      (fun y => ψ (e + y)) ∘ (ContinuousLinearMap.toSpanSingleton ℝ d) := by
    funext t; simp
  have h2 : ContDiff ℝ r fun y => ψ (e + y) := h.comp (contDiff_const.add contDiff_id)
  rw [iteratedDeriv_eq_iteratedFDeriv, h1,
    ContinuousLinearMap.iteratedFDeriv_comp_right _ h2 t (by exact_mod_cast hk),
    iteratedFDeriv_comp_add_left]
  simp

/-- Taylor's theorem in several variables, along lines, with a bound which is uniform over directions. -/
theorem taylor_lines {k : ℕ} {ψ : (Fin m → ℝ) → Fin n → ℝ} {e : Fin m → ℝ}
    (h : ContDiffAt ℝ (k + 1 : ℕ) ψ e) :
    ∃ C, ∀ᶠ d in 𝓝 (0 : Fin m → ℝ),
      ‖ψ (e + d) - (ψ e + ∑ j ∈ Finset.Icc 1 k, (1 / (j.factorial : ℝ)) •
        iteratedDeriv j (fun t : ℝ => ψ (e + t • d)) 0)‖ ≤ C * ‖d‖ ^ (k + 1) := by
  obtain ⟨φ, hφ, heq⟩ := exists_contDiff h
  obtain ⟨M, hM⟩ := (isCompact_closedBall e 1).exists_bound_of_continuousOn
    (hφ.continuous_iteratedFDeriv le_rfl).continuousOn
  refine ⟨M / k.factorial, ?_⟩
  have hadd : Filter.Tendsto (fun d : Fin m → ℝ => e + d) (𝓝 0) (𝓝 e) := by
    have : Continuous fun d : Fin m → ℝ => e + d := by fun_prop
    simpa using this.tendsto 0
  filter_upwards [hadd.eventually heq, Metric.closedBall_mem_nhds (0 : Fin m → ℝ) one_pos] with d hd hd1
  have hline : (fun t : ℝ => φ (e + t • d)) =ᶠ[𝓝 0] fun t : ℝ => ψ (e + t • d) := by
    have : Filter.Tendsto (fun t : ℝ => e + t • d) (𝓝 0) (𝓝 e) := by
      have : Continuous fun t : ℝ => e + t • d := by fun_prop
      simpa using this.tendsto 0
    exact this.eventually heq
  have hf : ContDiff ℝ (k + 1 : ℕ) fun t : ℝ => φ (e + t • d) :=
    hφ.comp (contDiff_const.add (contDiff_id.smul contDiff_const))
  have hu : UniqueDiffOn ℝ (Set.Icc (0 : ℝ) 1) := uniqueDiffOn_Icc one_pos
  have hw : ∀ j ≤ k + 1, ∀ y ∈ Set.Icc (0 : ℝ) 1,
      iteratedDerivWithin j (fun t : ℝ => φ (e + t • d)) (Set.Icc 0 1) y =
        iteratedDeriv j (fun t : ℝ => φ (e + t • d)) y := fun j hj y hy =>
    iteratedDerivWithin_eq_iteratedDeriv hu (hf.contDiffAt.of_le (by exact_mod_cast hj)) hy
  have hb := taylor_mean_remainder_bound (f := fun t : ℝ => φ (e + t • d)) (a := 0) (b := 1) (x := 1)
    (C := M * ‖d‖ ^ (k + 1)) (n := k) zero_le_one (by exact_mod_cast hf.contDiffOn) (by simp) (by
      intro y hy
      rw [hw _ le_rfl y hy, iteratedDeriv_line hφ e d y le_rfl]
      have hy1 : e + y • d ∈ Metric.closedBall e 1 := by
        rw [mem_closedBall_iff_norm, add_sub_cancel_left, norm_smul, Real.norm_eq_abs, abs_of_nonneg hy.1]
        rw [mem_closedBall_iff_norm, sub_zero] at hd1
        nlinarith [hy.2, norm_nonneg d]
      refine (ContinuousMultilinearMap.le_opNorm _ _).trans ?_
      rw [Finset.prod_const, Finset.card_univ, Fintype.card_fin]
      exact mul_le_mul_of_nonneg_right (hM _ hy1) (by positivity))
  rw [taylor_within_apply, Finset.sum_range_succ'] at hb
  simp only [one_smul, sub_zero, one_pow, mul_one, iteratedDerivWithin_zero, Nat.factorial_zero,
    Nat.cast_one, inv_one, zero_smul, add_zero, pow_zero] at hb
  have hsum : ∑ j ∈ Finset.range k, (((j + 1).factorial : ℝ))⁻¹ •
      iteratedDerivWithin (j + 1) (fun t : ℝ => φ (e + t • d)) (Set.Icc 0 1) 0 =
      ∑ j ∈ Finset.Icc 1 k, (1 / (j.factorial : ℝ)) •
        iteratedDeriv j (fun t : ℝ => ψ (e + t • d)) 0 := by
    rw [show Finset.Icc 1 k = Finset.Ico 1 (k + 1) by ext; simp, Finset.sum_Ico_eq_sum_range]
    refine Finset.sum_congr rfl fun j hj => ?_
    rw [hw _ (by have := Finset.mem_range.mp hj; omega) 0 (by simp), hline.iteratedDeriv_eq,
      add_comm 1 j, one_div]
  rw [hsum, hd, heq.self_of_nhds] at hb
  rw [add_comm (ψ e), div_mul_eq_mul_div]
  exact hb

end

end LRVB
