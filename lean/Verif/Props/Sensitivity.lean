import Verif.Lemmas.Sens
import Verif.Props.Taylor

/-!
# C50, C51: linear sensitivity

`LinearResponse`, `OptimumMap` and `PositiveCurvature` are in `Spec/Optimum.lean`.
-/

namespace LRVB

open scoped ContDiff Matrix
open Flt

noncomputable section

variable {n m : ℕ} {F G : (Fin n → ℝ) × (Fin m → ℝ) → ℝ}

/-! ### C51: `ParametricSensitivityLinearApproximation` -/

/-- **C51** Let the objective compute a twice continuously differentiable `F(input, hyper)` from the
free value of the input and the vector value of the hyperparameter, with positive curvature in the
input at the base values; if another functor is given for the dependence on the hyperparameter, let it
compute `G` with `F(u, v) = G(u, v) + h(u)`.  The constructor succeeds, `get_dinput_dhyper` is the
derivative of the optimum, and the prediction is its first order Taylor polynomial.  The parameters
hold the base values, as plain numbers. -/
theorem C51_linear_approximation (hF : ContDiff ℝ 2 F) (hG : ContDiff ℝ 2 G) (h : (Fin n → ℝ) → ℝ)
    (hFG : ∀ u v, F (u, v) = G (u, v) + h u) (hn : 0 < n)
    (objFn : Param → Param → Py Arr) (hyperFn : Option (Param → Param → Py Arr))
    (inputPar hyperPar : Param) (hev : Evaluates inputPar hyperPar objFn true false F)
    (hevG : Evaluates inputPar hyperPar (hyperFn.getD objFn) true false G)
    (x e : List ℝ) (hx : x.length = n) (he : e.length = m)
    (hpc : PositiveCurvature F (toVec n x) (toVec m e)) (hess0 : Option Arr) :
    ∃ T, LinApprox.new objFn inputPar hyperPar x e true false hess0 hyperFn = .ok T ∧
      LinearResponse F x e T.dinputDhyper T.predictInput ∧
      inputPar.setFree x = (T.inputPar, none) ∧ hyperPar.setVector e = (T.hyperPar, none) ∧
      T.inputPar.Plain ∧ T.hyperPar.Plain := by
  obtain ⟨s1, s2⟩ := TwoObjective.evalFun_ok (hev x e hx he)
  simp only at s1 s2
  obtain ⟨l, hl⟩ := LinApprox.setBase_ok (T := ⟨inputPar, hyperPar, true, false, objFn,
    hyperFn.getD objFn, ⟨⟨[0, 0], []⟩, [], []⟩, ⟨[0, 0], []⟩, ⟨[0, 0], []⟩, ⟨[0, 0], []⟩⟩) rfl rfl
    hF hev hG hevG hn hx he none rfl (hessArr_posDef hF hpc)
  refine ⟨_, by simp only [LinApprox.new, hl]; rfl, ?_, Prod.ext rfl s1, Prod.ext rfl s2,
    setPar_plain _ _ _ s1, setPar_plain _ _ _ s2⟩
  refine linearResponse_of hF hx he hpc ?_
  simp only [LinApprox.dinputDhyper, Option.getD_none]
  rw [crossArr_eq hF hG h hFG]

/-- The optimum exists: from every critical point with positive curvature there is a continuously
differentiable optimum, and every continuous one agrees with it near the base value. -/
theorem C51_optimum_exists (hF : ContDiff ℝ 2 F) (x e : List ℝ)
    (hcrit : fderiv ℝ (fun u => F (u, toVec m e)) (toVec n x) = 0)
    (hpc : PositiveCurvature F (toVec n x) (toVec m e)) :
    ∃ ψ, ContDiffAt ℝ 1 ψ (toVec m e) ∧ ψ (toVec m e) = toVec n x ∧ OptimumMap F (toVec m e) ψ ∧
      ∀ opt, ContinuousAt opt (toVec m e) → opt (toVec m e) = toVec n x → OptimumMap F (toVec m e) opt →
        opt =ᶠ[nhds (toVec m e)] ψ :=
  exists_optimumMap hF hcrit hpc

/-- **C51** for every history: take any constructed object, call `set_base_values` any number of
times with any arguments, whether or not it raises, and then with base values of positive curvature.
The object then holds the linear response at the new base values. -/
theorem C51_history (hF : ContDiff ℝ 2 F) (hG : ContDiff ℝ 2 G) (h : (Fin n → ℝ) → ℝ)
    (hFG : ∀ u v, F (u, v) = G (u, v) + h u) (hn : 0 < n)
    (objFn : Param → Param → Py Arr) (hyperFn : Option (Param → Param → Py Arr))
    (inputPar hyperPar : Param) (hev : Evaluates inputPar hyperPar objFn true false F)
    (hevG : Evaluates inputPar hyperPar (hyperFn.getD objFn) true false G)
    (x0 e0 : List ℝ) (hess0 : Option Arr) (T0 : LinApprox)
    (hnew : LinApprox.new objFn inputPar hyperPar x0 e0 true false hess0 hyperFn = .ok T0)
    (calls : List (List ℝ × List ℝ × Option Arr))
    (x e : List ℝ) (hx : x.length = n) (he : e.length = m)
    (hpc : PositiveCurvature F (toVec n x) (toVec m e)) :
    ∃ T, (calls.foldl LinApprox.step T0).setBaseValues x e none = (T, none) ∧
      LinearResponse F x e T.dinputDhyper T.predictInput ∧
      inputPar.setFree x = (T.inputPar, none) ∧ hyperPar.setVector e = (T.hyperPar, none) ∧
      T.inputPar.Plain ∧ T.hyperPar.Plain := by
  obtain ⟨k1, k2, k3, k4, k5, k6⟩ := LinApprox.keeps_new hnew
  obtain ⟨r1, r2, r3, r4, r5, r6⟩ := LinApprox.keeps_run calls T0
  have b1 := r5.trans k5
  have b2 := r6.trans k6
  obtain ⟨s1, s2⟩ := TwoObjective.evalFun_ok (hev x e hx he)
  simp only at s1 s2
  obtain ⟨l, hl⟩ := LinApprox.setBase_ok (T := calls.foldl LinApprox.step T0) (r1.trans k1)
    (r2.trans k2) hF (by rw [r3, k3]; exact Taylor.evaluates_blank hev b1.symm b2.symm) hG
    (by rw [r4, k4]; exact Taylor.evaluates_blank hevG b1.symm b2.symm) hn hx he none rfl
    (hessArr_posDef hF hpc)
  rw [setPar_eq b1.symm s1, setPar_eq b2.symm s2] at hl
  refine ⟨_, hl, ?_, Prod.ext rfl s1, Prod.ext rfl s2,
    setPar_plain _ _ _ s1, setPar_plain _ _ _ s2⟩
  refine linearResponse_of hF hx he hpc ?_
  simp only [LinApprox.dinputDhyper, Option.getD_none]
  rw [crossArr_eq hF hG h hFG]

/-- The hypotheses of C51 are met by the objective of `exHF_case`, with the part that depends on the
hyperparameter as a separate functor. -/
example : Evaluates (scPar ninf) (scPar ninf) (scFn exH) true false exHF ∧
    Evaluates (n := 1) (m := 1) (scPar ninf) (scPar ninf) ((some (scFn fun x ε => -(ε * x))).getD (scFn exH))
      true false (fun z => -(z.2 0 * z.1 0)) ∧
    (∀ u v, exHF (u, v) = -(v 0 * u 0) + (u 0 ^ 2 / 2 + u 0 ^ 3 / 6)) ∧
    PositiveCurvature exHF (toVec 1 [0]) (toVec 1 [0]) :=
  ⟨scFn_real exH true false, scFn_real (fun x ε => -(ε * x)) true false,
    fun u v => by simp [exHF, exH]; ring, exHF_case.2.2⟩

/-! ### C51, C50: `ParametricSensitivity` -/

/-- The settings in which a `ParametricSensitivity` is used: the objective computes `F` from the free
input and the vector of the hyperparameter, the functor for the hyperparameter `G`, which differs from
`F` by a function of the input; the converter assigns values to the output parameter and computes the
differentiable `K`; the hyperparameter holds `e`; the optimal input `x` is given or held by the input
parameter. -/
structure SensSetting (F G : (Fin n → ℝ) × (Fin m → ℝ) → ℝ) (K : (Fin n → ℝ) → ℕ → ℝ) (eigh : Eigh)
    (objFn : Param → Param → Py Arr) (inputPar outputPar hyperPar : Param)
    (conv : Param → Param → Param × Option PyErr) (optInput : Option (List ℝ))
    (hyperFn : Option (Param → Param → Py Arr)) (x e : List ℝ) : Prop where
  contract : EighContract eigh
  smoothF : ContDiff ℝ 2 F
  smoothG : ContDiff ℝ 2 G
  part : ∃ h : (Fin n → ℝ) → ℝ, ∀ u v, F (u, v) = G (u, v) + h u
  pos : 0 < n
  evF : Evaluates inputPar hyperPar objFn true false F
  evG : Evaluates inputPar hyperPar (hyperFn.getD objFn) true false G
  lenX : x.length = n
  lenE : e.length = m
  assigns : ∀ p q, (conv p q).1.blank = q.blank
  built : Built eigh outputPar
  params : outputPar.HasParams
  proper : outputPar.Proper
  outPos : 0 < outputPar.vecSize
  smoothK : ∀ i < outputPar.vecSize, Differentiable ℝ fun u => K u i
  converts : Converts inputPar outputPar conv outputPar.vecSize K
  holdsE : hyperPar.setVector e = (hyperPar, none) ∧ hyperPar.getVector = .ok e
  optimum : optInput = some x ∨ optInput = none ∧ inputPar.getFree = .ok x

section
variable {K : (Fin n → ℝ) → ℕ → ℝ} {eigh : Eigh} {objFn : Param → Param → Py Arr}
  {inputPar outputPar hyperPar : Param} {conv : Param → Param → Param × Option PyErr}
  {optInput : Option (List ℝ)} {hyperFn : Option (Param → Param → Py Arr)} {x e : List ℝ}

theorem SensSetting.new_ok
    (hS : SensSetting F G K eigh objFn inputPar outputPar hyperPar conv optInput hyperFn x e)
    (H : Option Arr) (hs : (H.getD (hessArr F (toVec n x) (toVec m e))).shape = [n, n])
    (hpd : (toMatrix n n (H.getD (hessArr F (toVec n x) (toVec m e)))).PosDef) :
    ∃ S w, Sens.new objFn inputPar outputPar hyperPar conv optInput H hyperFn = .ok S ∧
      outputPar.getVector = .ok w ∧ w.length = outputPar.vecSize ∧
      S.sens = sensArr n m (H.getD (hessArr F (toVec n x) (toVec m e)))
        (crossArr F (toVec n x) (toVec m e)) ∧
      S.optInput = x ∧ S.optHyper = e ∧ S.optOutput = w ∧
      S.doutDin = (Arr.ofFn2 outputPar.vecSize n fun i j =>
        fderiv ℝ (fun u => K u i) (toVec n x) (basis n j)) ∧
      Converts S.inputPar S.outputPar S.conv outputPar.vecSize K := by
  obtain ⟨h, hFG⟩ := hS.part
  obtain ⟨l, w, q, w1, w2, w3, w4, -, hl⟩ := Sens.setOptimal_ok hS.contract
    (S := ⟨inputPar, outputPar, hyperPar, conv, objFn, hyperFn.getD objFn, [], [], [],
      ⟨[0, 0], []⟩, ⟨[0, 0], []⟩, ⟨[0, 0], []⟩, ⟨[0, 0], []⟩, ⟨[0, 0], []⟩⟩) hS.smoothF hS.evF
    hS.smoothG hS.evG hS.pos hS.lenX hS.lenE hS.assigns hS.built hS.params hS.proper hS.outPos
    hS.smoothK hS.converts hS.holdsE.1 hS.holdsE.2 hS.optimum H hs hpd
  refine ⟨_, w, by simp only [Sens.new, hl]; rfl, w1, w2, ?_, rfl, rfl, rfl, rfl, ?_⟩
  · simp only
    rw [crossArr_eq hS.smoothF hS.smoothG h hFG]
  · exact converts_blank hS.converts (setPar_blank _ _ _).symm w4

/-- **C51** for `ParametricSensitivity`: the constructor succeeds; `get_dinput_dhyper` and
`predict_input_par_from_hyperparameters` are the linear response of the optimum; `get_doutput_dhyper`
is the derivative of the output at the optimum with respect to the hyperparameter. -/
theorem C51_parametric_sensitivity
    (hS : SensSetting F G K eigh objFn inputPar outputPar hyperPar conv optInput hyperFn x e)
    (hpc : PositiveCurvature F (toVec n x) (toVec m e)) :
    ∃ S, Sens.new objFn inputPar outputPar hyperPar conv optInput none hyperFn = .ok S ∧
      LinearResponse F x e S.dinputDhyper S.predictInput ∧
      ∃ J, S.doutputDhyper = .ok J ∧ IsMat J outputPar.vecSize m ∧
        ∀ opt, ContinuousAt opt (toVec m e) → opt (toVec m e) = toVec n x →
          OptimumMap F (toVec m e) opt →
          ∀ i < outputPar.vecSize, ∃ B : (Fin m → ℝ) →L[ℝ] ℝ,
            HasFDerivAt (fun v => K (opt v) i) B (toVec m e) ∧
            ∀ j : Fin m, J.at2 i j = B (Pi.single j 1) := by
  obtain ⟨S, w, h1, -, -, h2, h3, h4, h5, h6, -⟩ := hS.new_ok none rfl (hessArr_posDef hS.smoothF hpc)
  rw [Option.getD_none] at h2
  have hLR := linearResponse_of hS.smoothF hS.lenX hS.lenE hpc h2
  have hLR' : LinearResponse F x e S.dinputDhyper S.predictInput := by
    subst h3 h4
    exact hLR
  refine ⟨S, h1, hLR', ?_⟩
  have hsh : S.sens.shape = [n, m] := hLR.1.2
  refine ⟨_, by rw [Sens.doutputDhyper, h6]; exact matmul_ok rfl hsh, ⟨Arr.ofFn2_WF _ _ _, rfl⟩, ?_⟩
  intro opt hc h0 ho i hi
  obtain ⟨A, hA, hent, -⟩ := hLR.2 opt hc h0 ho
  have hKi := (hS.smoothK i hi (opt (toVec m e))).hasFDerivAt
  refine ⟨_, HasFDerivAt.comp (toVec m e) hKi hA, fun j => ?_⟩
  rw [Arr.at2_ofFn2 _ _ _ hi j.2, ContinuousLinearMap.comp_apply, h0, Finset.sum_range]
  have hexp : A (Pi.single j 1) = ∑ k : Fin n, A (Pi.single j 1) k • basis n k := basis_expand _
  rw [hexp, map_sum]
  refine Finset.sum_congr rfl fun k _ => ?_
  rw [Arr.at2_ofFn2 _ _ _ hi k.2, hent k j, map_smul, smul_eq_mul, mul_comm]

/-- **C50, the part that holds**: at the base hyperparameter the prediction of the output without
linearization is the output converted from the optimal input.  With `linear=True` the prediction is the
value `w` that the output parameter held before the object was built, whatever the converter computes.
Missing: that the prediction with `linear=True` is the converted output; see the counterexample. -/
theorem C50_base_prediction_partial
    (hS : SensSetting F G K eigh objFn inputPar outputPar hyperPar conv optInput hyperFn x e)
    (hess : Option Arr)
    (hh : match hess with
      | none => PositiveCurvature F (toVec n x) (toVec m e)
      | some H => H.shape = [n, n] ∧ (toMatrix n n H).PosDef) :
    ∃ S w, Sens.new objFn inputPar outputPar hyperPar conv optInput hess hyperFn = .ok S ∧
      S.predictInput e = .ok x ∧
      (S.predictOutput e false).2 = ((Converter.mk inputPar outputPar conv).convert true false x).2 ∧
      outputPar.getVector = .ok w ∧ (S.predictOutput e true).2 = .ok w := by
  obtain ⟨S, w, h1, h2, h3, h4, h5, h6, h7, h8, h9⟩ := hS.new_ok hess
    (by cases hess with
      | none => rfl
      | some H => exact hh.1)
    (by cases hess with
      | none => exact hessArr_posDef hS.smoothF hh
      | some H => exact hh.2)
  have hsh : S.sens.shape = [n, m] := by rw [h4]; rfl
  obtain ⟨d, d1, d2, d3⟩ := vsub_toVec hS.lenE hS.lenE
  rw [sub_self] at d3
  have hpi : S.predictInput e = .ok x := by
    rw [Sens.predictInput, h5, h6, d1, py_ok_bind, mulVec_toMatrix hsh d2, py_ok_bind,
      vadd_toVec hS.lenX, d3, Matrix.mulVec_zero, add_zero]
    congr 1
    exact ofFn_toVec hS.lenX
  refine ⟨S, w, h1, hpi, ?_, h2, ?_⟩
  · simp only [Sens.predictOutput, hpi, Bool.false_eq_true, if_false, Sens.converter]
    rw [h9 _ rfl x hS.lenX, hS.converts _ rfl x hS.lenX]
  · have hmm := matmul_ok (a := S.doutDin) (b := S.sens) (by rw [h8]; rfl) hsh
    simp only [Sens.predictOutput, if_true]
    rw [h6, h7, d1, py_ok_bind, hmm, py_ok_bind, mulVec_toMatrix (n := outputPar.vecSize) rfl d2,
      py_ok_bind, vadd_toVec h3, d3, Matrix.mulVec_zero, add_zero]
    congr 1
    exact ofFn_toVec h3

end

/-- The converter that assigns twice the input to the output. -/
def doubling (p q : Param) : Param × Option PyErr :=
  match p.getVector with
  | .error e => (q, some e)
  | .ok v => q.setVector (v.map (2 * ·))

/-- `SensSetting` is met by the objective of `exHF_case` with scalar parameters, the output held 1. -/
theorem doubling_setting (eigh : Eigh) (he : EighContract eigh) :
    SensSetting exHF exHF (fun u _ => 2 * u 0) eigh (scFn exH) (scPar ninf) (scPar ninf)
      ((scPar ninf).vecP [0]) doubling (some [0]) none [0] [0] := by
  have hw : (scPar ninf).WF := by simp [scPar, Param.WF, Kind.Legal]
  have hsm : ContDiff ℝ 2 exHF := exHF_smooth.of_le two_le_infty
  have hbl : ((scPar ninf).vecP [0]).blank = (scPar ninf).blank := rfl
  have hev : Evaluates (scPar ninf) ((scPar ninf).vecP [0]) (scFn exH) true false exHF :=
    Taylor.evaluates_blank exHF_case.1 rfl hbl.symm
  refine ⟨he, hsm, hsm, ⟨0, fun u v => by simp⟩, one_pos, hev, hev, rfl, rfl, ?_, ?_, trivial, ?_,
    one_pos, ?_, ?_, ⟨?_, ?_⟩, Or.inl rfl⟩
  · intro p q
    unfold doubling
    split
    · rfl
    · exact Param.setVector_blank _ _
  · exact .leaf ⟨_, [], .scalar (name := "s") (lb := ninf) (ub := pinf) (val := some (Arr.scalar 1))
      (by simp [mkScalar, checkBoundsScalar, Leaf.set]), rfl⟩ trivial
  · simp [scPar, Param.Proper, Leaf.Proper, Arr.WF, Arr.size, Arr.scalar]
  · intro i _
    fun_prop
  · intro q hq y hy
    obtain ⟨a, rfl⟩ := List.length_eq_one_iff.mp hy
    obtain ⟨s1, g1⟩ := scPar_getVector ninf ninf_lt_pinf true a
    rw [if_pos rfl, constrainFn_real] at g1
    have hset : q.setVector [2 * a] = ((scPar ninf).vecP [2 * a], none) := by
      have h0 := (scPar ninf).setVector_ok hw [2 * a] rfl
      have := setPar_eq (free := false) (p := scPar ninf) (q := q) (x := [2 * a]) hq.symm
        (by simp only [setPar]; rw [if_neg (by simp), h0])
      simp only [setPar] at this
      rw [if_neg (by simp), if_neg (by simp)] at this
      rw [this, h0]
    simp only [Converter.convert, s1, doubling, g1, List.map_cons, List.map_nil, hset]
    simp only [Converter.readOut]
    rw [if_neg (by simp), (scPar ninf).getVector_vecP hw trivial [2 * a] rfl]
    rfl
  · have h0 := (scPar ninf).setVector_ok hw [0] rfl
    have := setPar_eq (free := false) (p := scPar ninf) (q := (scPar ninf).vecP [0]) (x := [0]) rfl
      (by simp only [setPar]; rw [if_neg (by simp), h0])
    simp only [setPar] at this
    rw [if_neg (by simp), if_neg (by simp)] at this
    rw [this, h0]
  · exact (scPar ninf).getVector_vecP hw trivial [0] rfl

/-- **C50 fails with `linear=True`**: the output parameter held 1 when the object was built; at the
base hyperparameter the linear prediction is 1, although the converter gives 0 at the optimal input
(which is the prediction with `linear=False`). -/
theorem C50_linear_counterexample :
    ∃ S, Sens.new (scFn exH) (scPar ninf) (scPar ninf) ((scPar ninf).vecP [0]) doubling (some [0]) none
        none = .ok S ∧
      ((Converter.mk (scPar ninf) (scPar ninf) doubling).convert true false [0]).2 = .ok [0] ∧
      (S.predictOutput [0] false).2 = .ok [0] ∧ (S.predictOutput [0] true).2 = .ok [1] := by
  obtain ⟨eigh, he⟩ := exists_eigh
  obtain ⟨S, w, h1, -, h3, h4, h5⟩ := C50_base_prediction_partial (doubling_setting eigh he) none
    exHF_case.2.2
  have hc : ((Converter.mk (scPar ninf) (scPar ninf) doubling).convert true false [0]).2 = .ok [0] := by
    rw [(doubling_setting eigh he).converts _ rfl [0] rfl]
    simp [scPar, Param.vecSize, Leaf.vecSize, Kind.vecSize, toVec]
  have hw : w = [1] := by
    have : (scPar ninf).getVector = .ok [1] := by
      simp [scPar, Param.getVector, Leaf.getVector, Arr.scalar, Arr.size]
    rw [this] at h4
    exact (Except.ok.inj h4).symm
  exact ⟨S, h1, hc, by rw [h3, hc], by rw [h5, hw]⟩

end

end LRVB
