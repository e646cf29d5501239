import Verif.Props.Taylor
import Verif.Props.Sensitivity
import Verif.Lemmas.OptimumSmooth

/-!
# C153: how far predictions are from the optimum

`OptimumMap`, `PositiveCurvature` and `PredictsToOrder` are in `Spec/Optimum.lean`.
-/

namespace LRVB

open scoped ContDiff Matrix Topology
open Flt Taylor

noncomputable section

variable {n m : ℕ} {F G : (Fin n → ℝ) × (Fin m → ℝ) → ℝ}

theorem toVec_ofFn' (v : Fin n → ℝ) : toVec n (List.ofFn v) = v := by
  funext i
  simp [toVec]

/-- A smooth choice of the optimum, with every other choice and every path equal to it nearby. -/
theorem optimum_near {r : ℕ} (hr : 1 ≤ r) (hF : ContDiff ℝ (r + 1 : ℕ) F) {x : Fin n → ℝ} {e : Fin m → ℝ}
    (hcrit : fderiv ℝ (fun u => F (u, e)) x = 0) (hpd : PositiveCurvature F x e) :
    ∃ ψ : (Fin m → ℝ) → Fin n → ℝ, ContDiffAt ℝ r ψ e ∧ ψ e = x ∧
      (∀ opt, ContinuousAt opt e → opt e = x → OptimumMap F e opt → opt =ᶠ[𝓝 e] ψ) ∧
      ∀ d η, OptimumPath F x e d η → η =ᶠ[𝓝 0] fun t => ψ (e + t • d) := by
  obtain ⟨ψ, h1, h2, -, h4⟩ := exists_optimumMap_near hr hF hcrit hpd
  refine ⟨ψ, h1, h2, fun opt hc h0 hopt => ?_, fun d η hη => ?_⟩
  · have : Filter.Tendsto (fun v => (opt v, v)) (𝓝 e) (𝓝 (x, e)) := by
      have : ContinuousAt (fun v => (opt v, v)) e := hc.prodMk continuousAt_id
      rw [ContinuousAt, h0] at this
      exact this
    filter_upwards [this.eventually h4, hopt] with v hv ho
    exact hv ho
  · have : Filter.Tendsto (fun t : ℝ => (η t, e + t • d)) (𝓝 0) (𝓝 (x, e)) := by
      have hc : ContinuousAt (fun t : ℝ => (η t, e + t • d)) 0 :=
        hη.smooth.self_of_nhds.continuousAt.prodMk (by fun_prop)
      rw [ContinuousAt, hη.start, zero_smul, add_zero] at hc
      exact hc
    filter_upwards [this.eventually h4, hη.critical] with t ht ho
    exact ht ho

theorem Taylor.Based.predicts (hF : ContDiff ℝ ∞ F) (hn : 0 < n) (hm : 0 < m) {fi fh : Bool}
    {T : Taylor} {x e : List ℝ} (hB : Based F x e T) (hI : Inv F fi fh T)
    (hx : x.length = n) (he : e.length = m) (hpc : PositiveCurvature F (toVec n x) (toVec m e))
    {deg : ℕ} (hdeg : 1 ≤ deg) (hdo : deg ≤ T.order) (mo : Option ℤ) (hmo : mo.getD T.order = deg) :
    PredictsToOrder F x e (fun d => (T.evaluateSeries d true mo).2) (deg + 1) := by
  intro opt hc h0 hopt
  have hcrit : fderiv ℝ (fun u => F (u, toVec m e)) (toVec n x) = 0 := by
    rw [← h0]; exact hopt.self_of_nhds
  have hFk : ContDiff ℝ (deg + 1 + 1 : ℕ) F := hF.of_le (by exact_mod_cast le_top)
  obtain ⟨ψ, h1, h2, h3, h4⟩ := optimum_near (by omega) hFk hcrit hpc
  obtain ⟨C, hC⟩ := taylor_lines h1
  have hadd : Filter.Tendsto (fun d : Fin m → ℝ => toVec m e + d) (𝓝 0) (𝓝 (toVec m e)) := by
    have : Continuous fun d : Fin m → ℝ => toVec m e + d := by fun_prop
    simpa using this.tendsto 0
  obtain ⟨δ, hδ, hb⟩ := Metric.eventually_nhds_iff_ball.mp
    (hC.and (hadd.eventually (h3 opt hc h0 hopt)))
  refine ⟨C, δ / 2, by positivity, fun d hd hdδ => ?_⟩
  obtain ⟨η, hη⟩ := exists_optimumPath hF hcrit hpc (toVec m d)
  obtain ⟨g1, g2⟩ := hb (toVec m d) (by rw [Metric.mem_ball, dist_zero_right]; linarith)
  refine ⟨_, (hB.evaluateSeries hF hn hm hI hx he hpc hd hη hdeg hdo mo hmo).1, by simp, ?_⟩
  rw [toVec_ofFn', g2]
  have : taylorPoly η deg = ∑ j ∈ Finset.Icc 1 deg, (1 / (j.factorial : ℝ)) •
        iteratedDeriv j (fun t : ℝ => ψ (toVec m e + t • toVec m d)) 0 :=
    Finset.sum_congr rfl fun j _ => by rw [(h4 _ η hη).iteratedDeriv_eq]
  rw [this, ← h2]
  exact g1

/-- **C153** Let the objective compute a smooth `F(input, hyper)`, with positive curvature in the input
at the base values.  The constructor succeeds, and for every degree up to the declared order the error
of `evaluate_taylor_series(d, max_order=deg)` as a prediction of the optimum at the hyperparameter
`e + d` is at most a constant times `‖d‖ ^ (deg + 1)`, for all `d` near zero. -/
theorem C153_taylor_error (hF : ContDiff ℝ ∞ F) (hn : 0 < n) (hm : 0 < m)
    (objFn : Param → Param → Py Arr) (inputPar hyperPar : Param) (hyperIsFree : Bool)
    (hev : Evaluates inputPar hyperPar objFn true hyperIsFree F)
    (x e : List ℝ) (hx : x.length = n) (he : e.length = m)
    (hpc : PositiveCurvature F (toVec n x) (toVec m e)) (order : ℕ) (ho : 1 ≤ order)
    (hess0 : Option Arr) :
    ∃ T, Taylor.new objFn inputPar hyperPar x e order true hyperIsFree hess0 none = .ok T ∧
      (∀ deg : ℕ, 1 ≤ deg → deg ≤ order →
        PredictsToOrder F x e (fun d => (T.evaluateSeries d true (some deg)).2) (deg + 1)) ∧
      PredictsToOrder F x e (fun d => (T.evaluateSeries d true none).2) (order + 1) := by
  obtain ⟨T, h1, h2, h3, h4, -, -, -, -⟩ := Taylor.new_ok hF hn hev hx he hpc ho hess0
  exact ⟨T, h1, fun deg hdeg hdo => h3.predicts hF hn hm h2 hx he hpc hdeg (by omega) (some deg) rfl,
    h3.predicts hF hn hm h2 hx he hpc ho (by omega) none (by simp [h4])⟩

/-- The linear response has an error of second order when the objective is three times continuously
differentiable. -/
theorem LinearResponse.predicts (hF : ContDiff ℝ 3 F) {x e : List ℝ} (he : e.length = m)
    (hpc : PositiveCurvature F (toVec n x) (toVec m e)) {J : Arr} {predict : List ℝ → Py (List ℝ)}
    (h : LinearResponse F x e J predict) :
    PredictsToOrder F x e (fun d => predict (List.zipWith (· + ·) e d)) 2 := by
  intro opt hc h0 hopt
  have hcrit : fderiv ℝ (fun u => F (u, toVec m e)) (toVec n x) = 0 := by
    rw [← h0]; exact hopt.self_of_nhds
  obtain ⟨ψ, h1, h2, h3, -⟩ := optimum_near (r := 2) (by omega) (by exact_mod_cast hF) hcrit hpc
  obtain ⟨C, hC⟩ := taylor_lines (k := 1) h1
  obtain ⟨A, hA, -, hp⟩ := h.2 opt hc h0 hopt
  have hadd : Filter.Tendsto (fun d : Fin m → ℝ => toVec m e + d) (𝓝 0) (𝓝 (toVec m e)) := by
    have : Continuous fun d : Fin m → ℝ => toVec m e + d := by fun_prop
    simpa using this.tendsto 0
  have heq := h3 opt hc h0 hopt
  obtain ⟨δ, hδ, hb⟩ := Metric.eventually_nhds_iff_ball.mp (hC.and (hadd.eventually heq))
  refine ⟨C, δ / 2, by positivity, fun d hd hdδ => ?_⟩
  obtain ⟨g1, g2⟩ := hb (toVec m d) (by rw [Metric.mem_ball, dist_zero_right]; linarith)
  refine ⟨_, hp (List.zipWith (· + ·) e d) (by simp [he, hd]), by simp, ?_⟩
  have hdiff : toVec m (List.zipWith (· + ·) e d) - toVec m e = toVec m d := by
    funext i
    have hi : (i : ℕ) < m := i.2
    simp [toVec, List.getD_eq_getElem?_getD, he, hd]
  have hψ : HasFDerivAt ψ A (toVec m e) := hA.congr_of_eventuallyEq heq.symm
  have hline : HasDerivAt (fun t : ℝ => ψ (toVec m e + t • toVec m d)) (A (toVec m d)) 0 := by
    have hl : HasDerivAt (fun t : ℝ => toVec m e + t • toVec m d) (toVec m d) 0 := by
      simpa using ((hasDerivAt_id (0 : ℝ)).smul_const (toVec m d)).const_add (toVec m e)
    refine HasFDerivAt.comp_hasDerivAt (0 : ℝ) ?_ hl
    simpa using hψ
  rw [toVec_ofFn', g2, hdiff, ← h2]
  simp only [Finset.Icc_self, Finset.sum_singleton, Nat.factorial_one, Nat.cast_one, div_one, one_smul,
    iteratedDeriv_one, hline.deriv] at g1
  exact g1

/-- **C153** for the linear approximation: in the setting of C51, with
a three times continuously differentiable objective, the error of
`predict_input_par_from_hyperparameters` at `e + d` is at most a constant times `‖d‖²`. -/
theorem C153_linear_error (hF : ContDiff ℝ 3 F) (hG : ContDiff ℝ 2 G) (h : (Fin n → ℝ) → ℝ)
    (hFG : ∀ u v, F (u, v) = G (u, v) + h u) (hn : 0 < n)
    (objFn : Param → Param → Py Arr) (hyperFn : Option (Param → Param → Py Arr))
    (inputPar hyperPar : Param) (hev : Evaluates inputPar hyperPar objFn true false F)
    (hevG : Evaluates inputPar hyperPar (hyperFn.getD objFn) true false G)
    (x e : List ℝ) (hx : x.length = n) (he : e.length = m)
    (hpc : PositiveCurvature F (toVec n x) (toVec m e)) (hess0 : Option Arr) :
    ∃ T, LinApprox.new objFn inputPar hyperPar x e true false hess0 hyperFn = .ok T ∧
      PredictsToOrder F x e (fun d => T.predictInput (List.zipWith (· + ·) e d)) 2 := by
  obtain ⟨T, h1, h2, -⟩ := C51_linear_approximation (hF.of_le (by norm_num)) hG h hFG hn objFn hyperFn inputPar
    hyperPar hev hevG x e hx he hpc hess0
  exact ⟨T, h1, h2.predicts hF he hpc⟩

/-- ... and for `ParametricSensitivity`. -/
theorem C153_parametric_sensitivity_error (hF : ContDiff ℝ 3 F) {K : (Fin n → ℝ) → ℕ → ℝ} {eigh : Eigh}
    {objFn : Param → Param → Py Arr} {inputPar outputPar hyperPar : Param}
    {conv : Param → Param → Param × Option PyErr} {optInput : Option (List ℝ)}
    {hyperFn : Option (Param → Param → Py Arr)} {x e : List ℝ}
    (hS : SensSetting F G K eigh objFn inputPar outputPar hyperPar conv optInput hyperFn x e)
    (hpc : PositiveCurvature F (toVec n x) (toVec m e)) :
    ∃ S, Sens.new objFn inputPar outputPar hyperPar conv optInput none hyperFn = .ok S ∧
      PredictsToOrder F x e (fun d => S.predictInput (List.zipWith (· + ·) e d)) 2 := by
  obtain ⟨S, h1, h2, -⟩ := C51_parametric_sensitivity hS hpc
  exact ⟨S, h1, h2.predicts hF hS.lenE hpc⟩

/-- The hypotheses of C153 are met by the objective of `exHF_case` at `(0, 0)`, which has an optimum
there. -/
example : (∃ T, Taylor.new (scFn exH) (scPar ninf) (scPar ninf) [0] [0] 3 true false none none = .ok T ∧
      PredictsToOrder exHF [0] [0] (fun d => (T.evaluateSeries d true none).2) 4) ∧
    (∃ T, LinApprox.new (scFn exH) (scPar ninf) (scPar ninf) [0] [0] true false none none = .ok T ∧
      PredictsToOrder exHF [0] [0] (fun d => T.predictInput (List.zipWith (· + ·) [0] d)) 2) ∧
    ∃ opt : (Fin 1 → ℝ) → Fin 1 → ℝ, ContinuousAt opt (toVec 1 [0]) ∧ opt (toVec 1 [0]) = toVec 1 [0] ∧
      OptimumMap exHF (toVec 1 [0]) opt := by
  obtain ⟨h1, h2, h3⟩ := exHF_case
  refine ⟨?_, ?_, ?_⟩
  · obtain ⟨T, g1, -, g2⟩ := C153_taylor_error exHF_smooth one_pos one_pos _ _ _ _ h1 [0] [0] rfl rfl h3 3
      (by omega) none
    exact ⟨T, g1, g2⟩
  · exact C153_linear_error (exHF_smooth.of_le (WithTop.coe_le_coe.mpr (le_top : (3 : ℕ∞) ≤ ⊤)))
      (exHF_smooth.of_le two_le_infty) (fun _ => 0) (fun u v => by simp) one_pos (scFn exH) none
      _ _ h1 h1 [0] [0] rfl rfl h3 none
  · obtain ⟨ψ, g1, g2, g3, -⟩ := C51_optimum_exists (exHF_smooth.of_le two_le_infty) [0] [0] h2 h3
    exact ⟨ψ, g1.continuousAt, g2, g3⟩

end

end LRVB
