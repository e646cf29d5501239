import Verif.Props.SensAgree
import Verif.Props.TaylorError
import Verif.Props.HyperChain
import Verif.Lemmas.AgJac
import Verif.Spec.Stationary

/-!
# C184: only the stationary points of the objective matter
-/

namespace LRVB

open scoped ContDiff Matrix Topology
open Flt Taylor Filter

noncomputable section

variable {n m : ℕ} {F F' G G' : (Fin n → ℝ) × (Fin m → ℝ) → ℝ}

theorem SameStationary.map {x : Fin n → ℝ} {e : Fin m → ℝ} (h : SameStationary F F' x e)
    {opt : (Fin m → ℝ) → Fin n → ℝ} (hc : ContinuousAt opt e) (h0 : opt e = x) (ho : OptimumMap F e opt) :
    OptimumMap F' e opt := by
  have ht : Tendsto (fun v => (opt v, v)) (𝓝 e) (𝓝 (x, e)) := by
    have : ContinuousAt (fun v => (opt v, v)) e := hc.prodMk continuousAt_id
    rw [ContinuousAt, h0] at this
    exact this
  filter_upwards [ht.eventually h, ho] with v h1 h2
  exact h1.mp h2

theorem SameStationary.path {x : Fin n → ℝ} {e d : Fin m → ℝ} (h : SameStationary F F' x e)
    {η : ℝ → Fin n → ℝ} (hη : OptimumPath F x e d η) : OptimumPath F' x e d η := by
  refine ⟨hη.smooth, hη.start, ?_⟩
  have ht : Tendsto (fun t : ℝ => (η t, e + t • d)) (𝓝 0) (𝓝 (x, e)) := by
    have hc : ContinuousAt (fun t : ℝ => (η t, e + t • d)) 0 :=
      (hη.smooth.self_of_nhds.continuousAt).prodMk (by fun_prop)
    rw [ContinuousAt] at hc
    simpa [hη.start] using hc
  filter_upwards [ht.eventually h, hη.critical] with t h1 h2
  exact h1.mp h2

/-- Two linear responses of objectives with the same stationary points are equal. -/
theorem LinearResponse.unique (hF : ContDiff ℝ 2 F) {x e : List ℝ} (hcrit : fderiv ℝ (fun u => F (u, toVec m e)) (toVec n x) = 0)
    (hpc : PositiveCurvature F (toVec n x) (toVec m e)) (h : SameStationary F F' (toVec n x) (toVec m e))
    {J J' : Arr} {p p' : List ℝ → Py (List ℝ)} (hJ : LinearResponse F x e J p) (hJ' : LinearResponse F' x e J' p') :
    J = J' ∧ ∀ new : List ℝ, new.length = m → p new = p' new := by
  obtain ⟨ψ, h1, h2, h3, -⟩ := exists_optimumMap hF hcrit hpc
  have hc := h1.continuousAt
  obtain ⟨A, a1, a2, a3⟩ := hJ.2 ψ hc h2 h3
  obtain ⟨A', b1, b2, b3⟩ := hJ'.2 ψ hc h2 (h.map hc h2 h3)
  obtain rfl := a1.unique b1
  refine ⟨Arr.mat_ext hJ.1 hJ'.1 fun i hi j hj => (a2 ⟨i, hi⟩ ⟨j, hj⟩).trans (b2 ⟨i, hi⟩ ⟨j, hj⟩).symm,
    fun new hn => (a3 new hn).trans (b3 new hn).symm⟩

/-- **C184** Let two objectives have the same stationary points in the input near the base values, which are one of them, with
positive curvature there for both.  The linear approximations built from them have the same sensitivity and make the same
predictions, whatever functors are given for the dependence on the hyperparameter, and in whatever parameters. -/
theorem C184_linear_approximation (hF : ContDiff ℝ 2 F) (hG : ContDiff ℝ 2 G) (h : (Fin n → ℝ) → ℝ)
    (hFG : ∀ u v, F (u, v) = G (u, v) + h u) (hF' : ContDiff ℝ 2 F') (hG' : ContDiff ℝ 2 G') (h' : (Fin n → ℝ) → ℝ)
    (hFG' : ∀ u v, F' (u, v) = G' (u, v) + h' u) (hn : 0 < n)
    (objFn objFn' : Param → Param → Py Arr) (hyperFn hyperFn' : Option (Param → Param → Py Arr))
    (inputPar hyperPar inputPar' hyperPar' : Param) (hev : Evaluates inputPar hyperPar objFn true false F)
    (hevG : Evaluates inputPar hyperPar (hyperFn.getD objFn) true false G)
    (hev' : Evaluates inputPar' hyperPar' objFn' true false F')
    (hevG' : Evaluates inputPar' hyperPar' (hyperFn'.getD objFn') true false G')
    (x e : List ℝ) (hx : x.length = n) (he : e.length = m)
    (hcrit : fderiv ℝ (fun u => F (u, toVec m e)) (toVec n x) = 0)
    (hpc : PositiveCurvature F (toVec n x) (toVec m e)) (hpc' : PositiveCurvature F' (toVec n x) (toVec m e))
    (hsame : SameStationary F F' (toVec n x) (toVec m e)) (hess0 hess0' : Option Arr) :
    ∃ T T', LinApprox.new objFn inputPar hyperPar x e true false hess0 hyperFn = .ok T ∧
      LinApprox.new objFn' inputPar' hyperPar' x e true false hess0' hyperFn' = .ok T' ∧
      T.dinputDhyper = T'.dinputDhyper ∧
      ∀ new : List ℝ, new.length = m → T.predictInput new = T'.predictInput new := by
  obtain ⟨T, t1, t2, -⟩ := C51_linear_approximation hF hG h hFG hn objFn hyperFn inputPar hyperPar hev hevG x e hx he
    hpc hess0
  obtain ⟨T', t1', t2', -⟩ := C51_linear_approximation hF' hG' h' hFG' hn objFn' hyperFn' inputPar' hyperPar' hev' hevG' x e
    hx he hpc' hess0'
  obtain ⟨a, b⟩ := t2.unique hF hcrit hpc hsame t2'
  exact ⟨T, T', t1, t1', a, b⟩

/-- **C184** for `ParametricSensitivity`: the derivatives of the input and of the output and all predictions are the same. -/
theorem C184_parametric_sensitivity {K : (Fin n → ℝ) → ℕ → ℝ} {eigh eigh' : Eigh} {objFn objFn' : Param → Param → Py Arr}
    {inputPar outputPar hyperPar hyperPar' : Param} {conv : Param → Param → Param × Option PyErr}
    {optInput optInput' : Option (List ℝ)} {hyperFn hyperFn' : Option (Param → Param → Py Arr)} {x e : List ℝ}
    (hS : SensSetting F G K eigh objFn inputPar outputPar hyperPar conv optInput hyperFn x e)
    (hS' : SensSetting F' G' K eigh' objFn' inputPar outputPar hyperPar' conv optInput' hyperFn' x e)
    (hcrit : fderiv ℝ (fun u => F (u, toVec m e)) (toVec n x) = 0)
    (hpc : PositiveCurvature F (toVec n x) (toVec m e)) (hpc' : PositiveCurvature F' (toVec n x) (toVec m e))
    (hsame : SameStationary F F' (toVec n x) (toVec m e)) :
    ∃ S S', Sens.new objFn inputPar outputPar hyperPar conv optInput none hyperFn = .ok S ∧
      Sens.new objFn' inputPar outputPar hyperPar' conv optInput' none hyperFn' = .ok S' ∧
      S.dinputDhyper = S'.dinputDhyper ∧ S.doutputDhyper = S'.doutputDhyper ∧
      ∀ new : List ℝ, new.length = m → S.predictInput new = S'.predictInput new ∧
        ∀ linear, (S.predictOutput new linear).2 = (S'.predictOutput new linear).2 := by
  obtain ⟨S, w, h1, hw, hwl, h2, h3, h4, h5, h6, h7⟩ := hS.new_ok none rfl (hessArr_posDef hS.smoothF hpc)
  obtain ⟨S', w', h1', hw', -, h2', h3', h4', h5', h6', h7'⟩ := hS'.new_ok none rfl (hessArr_posDef hS'.smoothF hpc')
  rw [Option.getD_none] at h2 h2'
  obtain rfl : w = w' := by rw [hw] at hw'; exact Except.ok.inj hw'
  have hL := linearResponse_of hS.smoothF hS.lenX hS.lenE hpc h2
  have hL' := linearResponse_of hS'.smoothF hS.lenX hS.lenE hpc' h2'
  obtain ⟨a, b⟩ := hL.unique hS.smoothF hcrit hpc hsame hL'
  have hpi : ∀ new : List ℝ, S.predictInput new = S'.predictInput new := by
    intro new
    simp only [Sens.predictInput, h3, h4, h3', h4', a]
  refine ⟨S, S', h1, h1', a, by simp only [Sens.doutputDhyper, h6, h6', a], fun new hnew => ⟨hpi new, fun linear => ?_⟩⟩
  cases linear with
  | true => simp only [Sens.predictOutput, if_true, h4, h4', h5, h5', h6, h6', a]
  | false =>
    obtain ⟨y, hy, hp⟩ : ∃ y : List ℝ, y.length = n ∧ S.predictInput new = .ok y := by
      have hpr := predict_eq (S := S.sens) (by rw [h2]; rfl) hS.lenX hS.lenE hnew
      rw [← h3, ← h4] at hpr
      exact ⟨_, List.length_ofFn, hpr⟩
    have hp' := (hpi new).symm.trans hp
    simp only [Sens.predictOutput, hp, hp', Bool.false_eq_true, if_false, Sens.converter]
    rw [h7 _ rfl _ hy, h7' _ rfl _ hy]

/-- **C184** for the Taylor expansion: all derivatives and all Taylor series are the same. -/
theorem C184_taylor (hF : ContDiff ℝ ∞ F) (hF' : ContDiff ℝ ∞ F') (hn : 0 < n) (hm : 0 < m)
    (objFn objFn' : Param → Param → Py Arr) (inputPar hyperPar inputPar' hyperPar' : Param)
    (hyperIsFree hyperIsFree' : Bool)
    (hev : Evaluates inputPar hyperPar objFn true hyperIsFree F)
    (hev' : Evaluates inputPar' hyperPar' objFn' true hyperIsFree' F')
    (x e : List ℝ) (hx : x.length = n) (he : e.length = m)
    (hcrit : fderiv ℝ (fun u => F (u, toVec m e)) (toVec n x) = 0)
    (hpc : PositiveCurvature F (toVec n x) (toVec m e)) (hpc' : PositiveCurvature F' (toVec n x) (toVec m e))
    (hsame : SameStationary F F' (toVec n x) (toVec m e)) (order order' : ℕ) (ho : 1 ≤ order) (ho' : 1 ≤ order')
    (hess0 hess0' : Option Arr) :
    ∃ T T', Taylor.new objFn inputPar hyperPar x e order true hyperIsFree hess0 none = .ok T ∧
      Taylor.new objFn' inputPar' hyperPar' x e order' true hyperIsFree' hess0' none = .ok T' ∧
      ∀ d : List ℝ, d.length = m → ∀ k : ℕ, 1 ≤ k → k ≤ order → k ≤ order' →
        (∃ s, (T.evaluateDk d k).2 = .ok s ∧ (T'.evaluateDk d k).2 = .ok s) ∧
        ∀ off, ∃ s, (T.evaluateSeries d off (some k)).2 = .ok s ∧ (T'.evaluateSeries d off (some k)).2 = .ok s := by
  obtain ⟨T, t1, t2⟩ := C55_derivatives_exist hF hn hm objFn inputPar hyperPar hyperIsFree hev x e hx he
    hcrit hpc order ho hess0
  obtain ⟨T2, s1, s2, -⟩ := C56_taylor_series hF hn hm objFn inputPar hyperPar hyperIsFree hev x e hx he
    hpc order ho hess0
  obtain ⟨T', t1', t2'⟩ := C55_kth_derivative hF' hn hm objFn' inputPar' hyperPar' hyperIsFree' hev' x e hx he
    hpc' order' ho' hess0'
  obtain ⟨T2', s1', s2', -⟩ := C56_taylor_series hF' hn hm objFn' inputPar' hyperPar' hyperIsFree' hev' x e hx he
    hpc' order' ho' hess0'
  obtain rfl : T = T2 := by rw [t1] at s1; exact Except.ok.inj s1
  obtain rfl : T' = T2' := by rw [t1'] at s1'; exact Except.ok.inj s1'
  refine ⟨T, T', t1, t1', fun d hd k k1 k2 k3 => ?_⟩
  obtain ⟨η, hη, hk⟩ := t2 d hd
  have hη' := hsame.path hη
  refine ⟨⟨_, hk k k1 k2, ?_⟩, fun off => ?_⟩
  · obtain ⟨T3, h3, -⟩ := t2' d hd η hη' k k1 k3
    rw [h3]
  · cases off with
    | true => exact ⟨_, ((s2 d hd η hη).1 k k1 k2).1, ((s2' d hd η hη').1 k k1 k3).1⟩
    | false => exact ⟨_, ((s2 d hd η hη).1 k k1 k2).2, ((s2' d hd η hη').1 k k1 k3).2⟩

/-- A product of which one factor vanishes and the other one is continuous. -/
theorem hasDerivAt_mul_zero {f g : ℝ → ℝ} {g' t : ℝ} (hf : ContinuousAt f t) (hg : HasDerivAt g g' t) (h0 : g t = 0) :
    HasDerivAt (fun s => f s * g s) (f t * g') t := by
  rw [hasDerivAt_iff_tendsto_slope] at hg ⊢
  have h1 := (hf.tendsto.mono_left (nhdsWithin_le_nhds (s := {t}ᶜ))).mul hg
  refine h1.congr fun s => ?_
  simp only [slope_def_field, h0]
  ring

/-- **C184**, which objectives have this in common: on another scale (strictly increasing, possibly different for each value of
the hyperparameter) an objective has the same stationary points, and positive curvature at them if it had. -/
theorem C184_rescaled {φ φ' : ℝ → (Fin m → ℝ) → ℝ} (h : Rescaled F F' φ φ') (hF : ContDiff ℝ 2 F)
    (x : Fin n → ℝ) (e : Fin m → ℝ) (hcrit : fderiv ℝ (fun u => F (u, e)) x = 0) (hpc : PositiveCurvature F x e) :
    fderiv ℝ (fun u => F' (u, e)) x = 0 ∧ PositiveCurvature F' x e ∧ SameStationary F F' x e := by
  have hd : ∀ u w, fderiv ℝ (fun u => F' (u, w)) u = φ' (F (u, w)) w • fderiv ℝ (fun u => F (u, w)) u := by
    intro u w
    have h1 : (fun u => F' (u, w)) = (fun s => φ s w) ∘ fun u => F (u, w) := by funext u; exact h.eq u w
    rw [h1]
    exact ((h.deriv (F (u, w)) w).comp_hasFDerivAt u
      ((contDiff_left hF w).differentiable (by norm_num) u).hasFDerivAt).fderiv
  refine ⟨by rw [hd, hcrit, smul_zero], fun u hu => ?_, Filter.Eventually.of_forall fun z => ?_⟩
  · have h1 := hpc u hu
    set g : ℝ → ℝ := fun t => F (x + t • u, e) with hg
    have hgs : ContDiff ℝ 2 g := hF.comp ((contDiff_const.add (contDiff_id.smul contDiff_const)).prodMk contDiff_const)
    have hgd : Differentiable ℝ g := hgs.differentiable (by norm_num)
    have h2 : (fun t : ℝ => F' (x + t • u, e)) = fun t => φ (g t) e := by funext t; exact h.eq _ e
    have h3 : deriv (fun t : ℝ => φ (g t) e) = fun t => φ' (g t) e * deriv g t := by
      funext t
      exact ((h.deriv (g t) e).comp t (hgd t).hasDerivAt).deriv
    have h0 : deriv g 0 = 0 := by
      have hl : HasDerivAt (fun t : ℝ => x + t • u) u 0 := by
        simpa using ((hasDerivAt_id (0 : ℝ)).smul_const u).const_add x
      have hf : HasFDerivAt (fun u => F (u, e)) (0 : (Fin n → ℝ) →L[ℝ] ℝ) (x + (0 : ℝ) • u) := by
        rw [zero_smul, add_zero, ← hcrit]
        exact ((contDiff_left hF e).differentiable (by norm_num) x).hasFDerivAt
      have h5 : HasDerivAt g ((0 : (Fin n → ℝ) →L[ℝ] ℝ) u) 0 :=
        HasFDerivAt.comp_hasDerivAt (f := fun t : ℝ => x + t • u) (0 : ℝ) hf hl
      simpa using h5.deriv
    have hgd2 : HasDerivAt (deriv g) (deriv (deriv g) 0) 0 := by
      have : Differentiable ℝ (deriv g) := by
        have h4 : ContDiff ℝ 1 (deriv g) := (contDiff_succ_iff_deriv (n := 1).mp (by simpa [one_add_one_eq_two] using hgs)).2.2
        exact h4.differentiable (by norm_num)
      exact (this 0).hasDerivAt
    rw [iteratedDeriv_succ, iteratedDeriv_one] at h1 ⊢
    rw [h2, h3, (hasDerivAt_mul_zero (f := fun t => φ' (g t) e)
      ((h.cont e).comp hgd.continuous).continuousAt hgd2 h0).deriv]
    exact mul_pos (h.pos _ _) h1
  · rw [hd, smul_eq_zero_iff_right (h.pos _ _).ne']

/-! ### The hypotheses are met -/

/-- The exponential of `x² / 2 + x³ / 6 - ε x`, plus `ε²`. -/
def exHexp (x ε : ℝ) : ℝ := Real.exp (exH x ε) + ε ^ 2

theorem exHexp_rescaled : Rescaled exHF (fun z : (Fin 1 → ℝ) × (Fin 1 → ℝ) => exHexp (z.1 0) (z.2 0))
    (fun s w => Real.exp s + w 0 ^ 2) (fun s _ => Real.exp s) where
  eq _ _ := rfl
  deriv s _ := (Real.hasDerivAt_exp s).add_const _
  pos s _ := Real.exp_pos s
  cont _ := Real.continuous_exp

theorem exHexp_smooth : ContDiff ℝ ∞ fun z : (Fin 1 → ℝ) × (Fin 1 → ℝ) => exHexp (z.1 0) (z.2 0) := by
  have h1 : ContDiff ℝ ∞ fun z : (Fin 1 → ℝ) × (Fin 1 → ℝ) => Real.exp (exHF z) := exHF_smooth.exp
  have h2 : ContDiff ℝ ∞ fun z : (Fin 1 → ℝ) × (Fin 1 → ℝ) => z.2 0 ^ 2 := by fun_prop
  exact h1.add h2

/-- An objective and its exponential: the linear approximations and Taylor expansions agree. -/
example : ∃ T T', LinApprox.new (scFn exH) (scPar ninf) (scPar ninf) [0] [0] true false none none = .ok T ∧
    LinApprox.new (scFn exHexp) (scPar ninf) (scPar ninf) [0] [0] true false none none = .ok T' ∧
    T.dinputDhyper = T'.dinputDhyper ∧
    ∃ E E', Taylor.new (scFn exH) (scPar ninf) (scPar ninf) [0] [0] 3 true false none none = .ok E ∧
      Taylor.new (scFn exHexp) (scPar ninf) (scPar ninf) [0] [0] 3 true false none none = .ok E' ∧
      ∃ s, (E.evaluateDk [1] (3 : ℕ)).2 = .ok s ∧ (E'.evaluateDk [1] (3 : ℕ)).2 = .ok s := by
  obtain ⟨h1, h2, h3⟩ := exHF_case
  obtain ⟨-, g2, g3⟩ := C184_rescaled exHexp_rescaled (exHF_smooth.of_le two_le_infty) _ _ h2 h3
  have hs := exHexp_smooth.of_le two_le_infty
  have hs0 := exHF_smooth.of_le two_le_infty
  have hev := scFn_real exHexp true false
  obtain ⟨T, T', t1, t2, t3, -⟩ := C184_linear_approximation hs0 hs0 (fun _ => 0) (fun u v => by simp) hs hs (fun _ => 0)
    (fun u v => by simp) one_pos (scFn exH) (scFn exHexp) none none _ _ _ _ h1 h1 hev hev [0] [0] rfl rfl h2 h3 g2 g3 none none
  obtain ⟨E, E', e1, e2, e3⟩ := C184_taylor exHF_smooth exHexp_smooth one_pos one_pos _ _ _ _ _ _ _ _ h1 hev [0] [0] rfl rfl
    h2 h3 g2 g3 3 3 (by omega) (by omega) none none
  exact ⟨T, T', t1, t2, t3, E, E', e1, e2, (e3 [1] rfl 3 (by omega) (by omega) (by omega)).1⟩

/-- The hypotheses of `C184_parametric_sensitivity` are met. -/
example : ∃ eigh, EighContract eigh ∧
    SensSetting exHF exHF (fun u _ => 2 * u 0) eigh (scFn exH) (scPar ninf) (scPar ninf)
      ((scPar ninf).vecP [0]) doubling (some [0]) none [0] [0] ∧
    SensSetting (fun z : (Fin 1 → ℝ) × (Fin 1 → ℝ) => exHexp (z.1 0) (z.2 0))
      (fun z : (Fin 1 → ℝ) × (Fin 1 → ℝ) => exHexp (z.1 0) (z.2 0)) (fun u _ => 2 * u 0) eigh (scFn exHexp) (scPar ninf)
      (scPar ninf) ((scPar ninf).vecP [0]) doubling (some [0]) none [0] [0] ∧
    SameStationary exHF (fun z : (Fin 1 → ℝ) × (Fin 1 → ℝ) => exHexp (z.1 0) (z.2 0)) (toVec 1 [0]) (toVec 1 [0]) := by
  obtain ⟨eigh, he⟩ := exists_eigh
  have h := doubling_setting eigh he
  have hs := exHexp_smooth.of_le two_le_infty
  have hev : Evaluates (n := 1) (m := 1) (scPar ninf) ((scPar ninf).vecP [0]) (scFn exHexp) true false
      fun z => exHexp (z.1 0) (z.2 0) := Taylor.evaluates_blank (scFn_real exHexp true false) rfl rfl
  exact ⟨eigh, he, h, ⟨he, hs, hs, ⟨0, fun u v => by simp⟩, one_pos, hev, hev, rfl, rfl, h.assigns, h.built,
    h.params, h.proper, h.outPos, h.smoothK, h.converts, h.holdsE, h.optimum⟩,
    (C184_rescaled exHexp_rescaled h.smoothF _ _ exHF_case.2.1 exHF_case.2.2).2.2⟩

end

end LRVB
