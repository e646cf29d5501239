import Verif.Props.TaylorError
import Mathlib.Analysis.Calculus.ContDiff.RCLike

/-!
# C153: the error of predicted outputs
-/

namespace LRVB

open scoped ContDiff Matrix Topology
open Flt Taylor Filter

noncomputable section

variable {n m : ℕ} {F G : (Fin n → ℝ) × (Fin m → ℝ) → ℝ}

/-- The predictions `predict d` of the `r` outputs `K` of the optimum at `e + d`, for the optimum through `x`, have an error
of at most a constant times `‖d‖ ^ p`, for all `d` near zero. -/
def PredictsOutput (F : (Fin n → ℝ) × (Fin m → ℝ) → ℝ) (K : (Fin n → ℝ) → ℕ → ℝ) (r : ℕ) (x e : List ℝ)
    (predict : List ℝ → Py (List ℝ)) (p : ℕ) : Prop :=
  ∀ opt, ContinuousAt opt (toVec m e) → opt (toVec m e) = toVec n x → OptimumMap F (toVec m e) opt →
    ∃ C, ∃ δ > 0, ∀ d : List ℝ, d.length = m → ‖toVec m d‖ ≤ δ →
      ∃ s, predict d = .ok s ∧ s.length = r ∧
        ∀ i < r, |K (opt (toVec m e + toVec m d)) i - s.getD i 0| ≤ C * ‖toVec m d‖ ^ p

theorem toVec_zipWith {e d : List ℝ} (he : e.length = m) (hd : d.length = m) :
    toVec m (List.zipWith (· + ·) e d) - toVec m e = toVec m d := by
  funext i
  simp [toVec, List.getD_eq_getElem?_getD, he, hd]

/-- The first order Taylor polynomial has an error of second order. -/
theorem linear_error {r : ℕ} {g : (Fin m → ℝ) → Fin r → ℝ} {e : Fin m → ℝ} (hg : ContDiffAt ℝ 2 g e)
    {A : (Fin m → ℝ) →L[ℝ] (Fin r → ℝ)} (hA : HasFDerivAt g A e) :
    ∃ C, ∀ᶠ d in 𝓝 (0 : Fin m → ℝ), ‖g (e + d) - (g e + A d)‖ ≤ C * ‖d‖ ^ 2 := by
  obtain ⟨C, hC⟩ := taylor_lines (k := 1) (by exact_mod_cast hg)
  refine ⟨C, hC.mono fun d h => ?_⟩
  have hline : HasDerivAt (fun t : ℝ => g (e + t • d)) (A d) 0 := by
    have hl : HasDerivAt (fun t : ℝ => e + t • d) d 0 := by
      simpa using ((hasDerivAt_id (0 : ℝ)).smul_const d).const_add e
    refine HasFDerivAt.comp_hasDerivAt (0 : ℝ) ?_ hl
    simpa using hA
  simpa [hline.deriv] using h

section
variable {K : (Fin n → ℝ) → ℕ → ℝ} {eigh : Eigh} {objFn : Param → Param → Py Arr}
  {inputPar outputPar hyperPar : Param} {conv : Param → Param → Param × Option PyErr}
  {optInput : Option (List ℝ)} {hyperFn : Option (Param → Param → Py Arr)} {x e : List ℝ}

/-- **C153** for the predicted outputs of `ParametricSensitivity`: with `linear=False` their error at `e + d` is at most a constant
times `‖d‖²`, if the output is continuously differentiable in the input; with `linear=True` also, if the output is twice
continuously differentiable and the output parameter held the output at the optimum when the object was built (see C50). -/
theorem C153_output_error (hF : ContDiff ℝ 3 F)
    (hS : SensSetting F G K eigh objFn inputPar outputPar hyperPar conv optInput hyperFn x e)
    (hpc : PositiveCurvature F (toVec n x) (toVec m e)) :
    ∃ S, Sens.new objFn inputPar outputPar hyperPar conv optInput none hyperFn = .ok S ∧
      ((∀ i < outputPar.vecSize, ContDiff ℝ 1 fun u => K u i) →
        PredictsOutput F K outputPar.vecSize x e
          (fun d => (S.predictOutput (List.zipWith (· + ·) e d) false).2) 2) ∧
      ((∀ i < outputPar.vecSize, ContDiff ℝ 2 fun u => K u i) →
        outputPar.getVector = .ok ((List.range outputPar.vecSize).map (K (toVec n x))) →
        PredictsOutput F K outputPar.vecSize x e
          (fun d => (S.predictOutput (List.zipWith (· + ·) e d) true).2) 2) := by
  obtain ⟨S, w, h1, hw, hwl, h2, h3, h4, h5, h6, h7⟩ := hS.new_ok none rfl (hessArr_posDef hS.smoothF hpc)
  obtain ⟨S2, h1', hLR, J, hJ, hJm, hJd⟩ := C51_parametric_sensitivity hS hpc
  obtain rfl : S = S2 := by rw [h1] at h1'; exact Except.ok.inj h1'
  have hpred := hLR.predicts hF hS.lenE hpc
  set r := outputPar.vecSize with hr
  have hadd : Tendsto (fun d : Fin m → ℝ => toVec m e + d) (𝓝 0) (𝓝 (toVec m e)) := by
    have : Continuous fun d : Fin m → ℝ => toVec m e + d := by fun_prop
    simpa using this.tendsto 0
  refine ⟨S, h1, fun hK opt hc h0 hopt => ?_, fun hK hout opt hc h0 hopt => ?_⟩
  · obtain ⟨C, δ, hδ, hb⟩ := hpred opt hc h0 hopt
    let Kv : (Fin n → ℝ) → Fin r → ℝ := fun u i => K u i
    have hKv : ContDiff ℝ 1 Kv := contDiff_pi.mpr fun i => hK i i.2
    obtain ⟨L, t, ht, hL⟩ := hKv.contDiffAt (x := toVec n x) |>.exists_lipschitzOnWith
    obtain ⟨ε, hε, hball⟩ := Metric.mem_nhds_iff.mp ht
    have hopt' : Tendsto (fun d : Fin m → ℝ => opt (toVec m e + d)) (𝓝 0) (𝓝 (toVec n x)) := by
      have := hc.tendsto.comp hadd
      rwa [h0] at this
    have hsmall : Tendsto (fun d : Fin m → ℝ => C * ‖d‖ ^ 2) (𝓝 0) (𝓝 0) := by
      have : Continuous fun d : Fin m → ℝ => C * ‖d‖ ^ 2 := by fun_prop
      simpa using this.tendsto 0
    obtain ⟨δ', hδ', hb'⟩ := Metric.eventually_nhds_iff_ball.mp
      ((hopt'.eventually (Metric.ball_mem_nhds _ (half_pos hε))).and (hsmall.eventually (gt_mem_nhds (half_pos hε))))
    refine ⟨L * C, min δ (δ' / 2), by positivity, fun d hd hdd => ?_⟩
    obtain ⟨s, s1, s2, s3⟩ := hb d hd (hdd.trans (min_le_left _ _))
    obtain ⟨b1, b2⟩ := hb' (toVec m d) (by
      rw [Metric.mem_ball, dist_zero_right]
      have := hdd.trans (min_le_right _ _)
      linarith)
    refine ⟨(List.range r).map (K (toVec n s)), ?_, by simp, fun i hi => ?_⟩
    · simp only at s1
      simp only [Sens.predictOutput, s1, Bool.false_eq_true, if_false, Sens.converter]
      rw [h7 _ rfl _ s2]
    · have m1 : opt (toVec m e + toVec m d) ∈ t := hball (Metric.ball_subset_ball (by linarith) b1)
      have m2 : toVec n s ∈ t := by
        apply hball
        rw [Metric.mem_ball]
        have b1' : dist (opt (toVec m e + toVec m d)) (toVec n x) < ε / 2 := b1
        have h9 : dist (toVec n s) (opt (toVec m e + toVec m d)) ≤ C * ‖toVec m d‖ ^ 2 := by
          rw [dist_comm, dist_eq_norm]; exact s3
        have := dist_triangle (toVec n s) (opt (toVec m e + toVec m d)) (toVec n x)
        linarith
      have h8 := hL.dist_le_mul _ m1 _ m2
      rw [dist_eq_norm, dist_eq_norm] at h8
      have h9 : |K (opt (toVec m e + toVec m d)) i - K (toVec n s) i| ≤
          ‖Kv (opt (toVec m e + toVec m d)) - Kv (toVec n s)‖ :=
        norm_le_pi_norm (Kv (opt (toVec m e + toVec m d)) - Kv (toVec n s)) ⟨i, hi⟩
      have e1 : ((List.range r).map (K (toVec n s))).getD i 0 = K (toVec n s) i := by
        simp [List.getD_eq_getElem?_getD, hi]
      rw [e1, mul_assoc]
      exact (h9.trans h8).trans (mul_le_mul_of_nonneg_left s3 L.2)
  · have hcrit : fderiv ℝ (fun u => F (u, toVec m e)) (toVec n x) = 0 := by
      rw [← h0]; exact hopt.self_of_nhds
    obtain ⟨ψ, p1, p2, p3, -⟩ := optimum_near (r := 2) (by omega) (by exact_mod_cast hF) hcrit hpc
    have heq := p3 opt hc h0 hopt
    let Kv : (Fin n → ℝ) → Fin r → ℝ := fun u i => K u i
    have hKv : ContDiff ℝ 2 Kv := contDiff_pi.mpr fun i => hK i i.2
    have hoptC : ContDiffAt ℝ 2 opt (toVec m e) := by
      have p1' : ContDiffAt ℝ 2 ψ (toVec m e) := by exact_mod_cast p1
      exact p1'.congr_of_eventuallyEq heq
    have hg : ContDiffAt ℝ 2 (fun v => Kv (opt v)) (toVec m e) := hKv.contDiffAt.comp _ hoptC
    choose B hB1 hB2 using fun i : Fin r => hJd opt hc h0 hopt i i.2
    have hgA : HasFDerivAt (fun v => Kv (opt v)) (ContinuousLinearMap.pi B) (toVec m e) := hasFDerivAt_pi.mpr hB1
    obtain ⟨C, hC⟩ := linear_error hg hgA
    obtain ⟨δ, hδ, hb⟩ := Metric.eventually_nhds_iff_ball.mp hC
    refine ⟨C, δ / 2, by positivity, fun d hd hdd => ?_⟩
    have hb1 := hb (toVec m d) (by rw [Metric.mem_ball, dist_zero_right]; linarith)
    obtain rfl : w = _ := Except.ok.inj (hw.symm.trans hout)
    have hval : (S.predictOutput (List.zipWith (· + ·) e d) true).2 =
        .ok (List.ofFn (Kv (toVec n x) + ContinuousLinearMap.pi B (toVec m d))) := by
      have hz : (List.zipWith (· + ·) e d).length = m := by simp [hS.lenE, hd]
      obtain ⟨d', d1, d2, d3⟩ := vsub_toVec hz hS.lenE
      rw [toVec_zipWith hS.lenE hd] at d3
      have hJ' : S.doutDin.matmul S.sens = .ok J := hJ
      simp only [Sens.predictOutput, if_true]
      rw [h4, h5, d1, py_ok_bind, hJ', py_ok_bind, mulVec_toMatrix hJm.2 d2, py_ok_bind, vadd_toVec hwl, d3]
      congr 3
      · funext i
        simp [toVec, Kv, List.getD_eq_getElem?_getD]
      · refine (clm_eq_mulVec (ContinuousLinearMap.pi B) (toMatrix r m J) (fun i j => ?_) (toVec m d)).symm
        rw [toMatrix, Matrix.of_apply, hB2 i j]
        rfl
    refine ⟨_, hval, by simp, fun i hi => ?_⟩
    have e1 : (List.ofFn (Kv (toVec n x) + ContinuousLinearMap.pi B (toVec m d))).getD i 0 =
        (Kv (toVec n x) + ContinuousLinearMap.pi B (toVec m d)) ⟨i, hi⟩ := by
      simp [List.getD_eq_getElem?_getD, hi]
    rw [e1]
    simp only [h0] at hb1
    refine le_trans ?_ hb1
    exact norm_le_pi_norm (Kv (opt (toVec m e + toVec m d)) -
      (Kv (toVec n x) + ContinuousLinearMap.pi B (toVec m d))) ⟨i, hi⟩

end

/-- The hypotheses are met with both settings of `linear`, with an output parameter that holds 0. -/
example : ∃ eigh, EighContract eigh ∧
    SensSetting exHF exHF (fun u _ => 2 * u 0) eigh (scFn exH) (scPar ninf) ((scPar ninf).vecP [0])
      ((scPar ninf).vecP [0]) doubling (some [0]) none [0] [0] ∧
    ((scPar ninf).vecP [0]).getVector =
      .ok ((List.range ((scPar ninf).vecP [0]).vecSize).map ((fun u _ => 2 * u 0) (toVec 1 [0]))) := by
  obtain ⟨eigh, he⟩ := exists_eigh
  have h := doubling_setting eigh he
  have hw : (scPar ninf).WF := by simp [scPar, Param.WF, Kind.Legal]
  have hb : Built eigh ((scPar ninf).vecP [0]) := by
    have h0 := (scPar ninf).setVector_ok hw [0] rfl
    have := Built.step (.setVector [0]) h.built
    simpa only [Param.step, h0] using this
  refine ⟨eigh, he, ⟨he, h.smoothF, h.smoothG, h.part, one_pos, h.evF, h.evG, rfl, rfl, h.assigns, hb, trivial, ?_, one_pos,
    h.smoothK, converts_blank h.converts rfl rfl, h.holdsE, h.optimum⟩, ?_⟩
  · simp [scPar, Param.vecP, Param.Proper, Leaf.Proper, Arr.WF, Arr.size, Arr.scalar, vectorVal, Arr.vec]
  · rw [(scPar ninf).getVector_vecP hw trivial [0] rfl]
    simp [scPar, Param.vecP, Param.vecSize, Leaf.vecSize, Kind.vecSize, toVec]

end

end LRVB
