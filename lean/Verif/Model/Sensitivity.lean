import Verif.Model.Taylor

/-!
# Linear sensitivity — `ModelSensitivity.py:553-612` and `SparseObjectives.py:487-573`
-/

namespace LRVB

open Classical

noncomputable section

/-- Run `k` on the object unless an exception was raised. -/
def andThen {σ : Type} (r : σ × Option PyErr) (k : σ → σ × Option PyErr) : σ × Option PyErr :=
  match r.2 with
  | some e => (r.1, some e)
  | none => k r.1

/-! ### ParametricSensitivityLinearApproximation -/

/-- `ParametricSensitivityLinearApproximation`. -/
structure LinApprox where
  inputPar : Param
  hyperPar : Param
  inputIsFree : Bool
  hyperIsFree : Bool
  objFn : Param → Param → Py Arr
  hyperFn : Param → Param → Py Arr
  base : Base
  chol : Arr
  cross : Arr
  sens : Arr

namespace LinApprox

/-- The `TwoParameterObjective` of the object: `ModelSensitivity.py:575-576`. -/
def joint (T : LinApprox) : TwoObjective Unit :=
  ⟨T.inputPar, T.hyperPar, fun _ p q => T.hyperFn p q⟩

/-- The `Objective` of the object; its function reads the hyperparameter as well:
`ModelSensitivity.py:573-574`. -/
def objective (T : LinApprox) : Objective Unit :=
  Objective.new T.inputPar fun _ p => T.objFn p T.hyperPar

/-- `set_par_to_base_values`: `ModelSensitivity.py:580-582`. -/
def setParToBase (T : LinApprox) : LinApprox × Option PyErr :=
  let r1 := setPar T.inputPar T.base.inputVal0 T.inputIsFree
  andThen ({ T with inputPar := r1.1 }, r1.2) fun T =>
    let r2 := setPar T.hyperPar T.base.hyperVal0 T.hyperIsFree
    ({ T with hyperPar := r2.1 }, r2.2)

/-- The Hessian: `ModelSensitivity.py:589-592`. -/
def setHess (T : LinApprox) (hess0 : Option Arr) : LinApprox × Option PyErr :=
  match hess0 with
  | some H => ({ T with base := { T.base with hess0 := H } }, none)
  | none =>
    let q := T.objective.funFreeHessian T.base.inputVal0 ()
    match q.2 with
    | .error e => ({ T with inputPar := q.1.par }, some e)
    | .ok H => ({ T with inputPar := q.1.par, base := { T.base with hess0 := H } }, none)

/-- The Cholesky factorization: `ModelSensitivity.py:593`. -/
def setChol (T : LinApprox) : LinApprox × Option PyErr :=
  match choFactor T.base.hess0 with
  | .error e => (T, some e)
  | .ok l => ({ T with chol := l }, none)

/-- The cross Hessian: `ModelSensitivity.py:595-597`. -/
def setCross (T : LinApprox) : LinApprox × Option PyErr :=
  let q := T.joint.funHessianFree1Vector2 T.base.inputVal0 T.base.hyperVal0 ()
  match q.2 with
  | .error e => ({ T with inputPar := q.1.par1, hyperPar := q.1.par2 }, some e)
  | .ok C => ({ T with inputPar := q.1.par1, hyperPar := q.1.par2, cross := C }, none)

/-- The sensitivity: `ModelSensitivity.py:599-601`. -/
def setSens (T : LinApprox) : LinApprox × Option PyErr :=
  match choSolve T.chol T.cross with
  | .error e => (T, some e)
  | .ok X => ({ T with sens := X.neg }, none)

/-- `set_base_values(input_val0, hyper_val0, hess0)`: `ModelSensitivity.py:584-601`. -/
def setBaseValues (T : LinApprox) (inputVal0 hyperVal0 : List ℝ) (hess0 : Option Arr) :
    LinApprox × Option PyErr :=
  let T1 : LinApprox :=
    { T with base := { T.base with inputVal0 := inputVal0, hyperVal0 := hyperVal0 } }
  andThen T1.setParToBase fun T => andThen (T.setHess hess0) fun T =>
    andThen T.setChol fun T => andThen T.setCross fun T => T.setSens

/-- `__init__`: `ModelSensitivity.py:554-578`.  The argument `hess0` is not used. -/
def new (objFn : Param → Param → Py Arr) (inputPar hyperPar : Param) (inputVal0 hyperVal0 : List ℝ)
    (inputIsFree hyperIsFree : Bool) (_hess0 : Option Arr)
    (hyperFn : Option (Param → Param → Py Arr)) : Py LinApprox :=
  let T : LinApprox := ⟨inputPar, hyperPar, inputIsFree, hyperIsFree, objFn, hyperFn.getD objFn,
    ⟨⟨[0, 0], []⟩, [], []⟩, ⟨[0, 0], []⟩, ⟨[0, 0], []⟩, ⟨[0, 0], []⟩⟩
  let r := T.setBaseValues inputVal0 hyperVal0 none
  match r.2 with
  | some e => .error e
  | none => .ok r.1

/-- `get_dinput_dhyper()`: `ModelSensitivity.py:604-605`. -/
def dinputDhyper (T : LinApprox) : Arr := T.sens

/-- `predict_input_par_from_hyperparameters(new_hyper_par_value)`: `ModelSensitivity.py:607-611`. -/
def predictInput (T : LinApprox) (newHyper : List ℝ) : Py (List ℝ) := do
  let d ← vsub newHyper T.base.hyperVal0
  vadd T.base.inputVal0 (← T.sens.mulVec d)

end LinApprox

/-! ### ParametricSensitivity -/

/-- `ParametricSensitivity`.  `conv` is `input_to_output_converter`. -/
structure Sens where
  inputPar : Param
  outputPar : Param
  hyperPar : Param
  conv : Param → Param → Param × Option PyErr
  objFn : Param → Param → Py Arr
  hyperFn : Param → Param → Py Arr
  optInput : List ℝ
  optHyper : List ℝ
  optOutput : List ℝ
  hess : Arr
  chol : Arr
  doutDin : Arr
  cross : Arr
  sens : Arr

namespace Sens

/-- `self.parameter_converter`: `SparseObjectives.py:516-517`. -/
def converter (S : Sens) : Converter := ⟨S.inputPar, S.outputPar, S.conv⟩

/-- `self.objective`: `SparseObjectives.py:518`. -/
def objective (S : Sens) : Objective Unit :=
  Objective.new S.inputPar fun _ p => S.objFn p S.hyperPar

/-- `self.sensitivity_objective`: `SparseObjectives.py:519-520`. -/
def joint (S : Sens) : TwoObjective Unit := ⟨S.inputPar, S.hyperPar, fun _ p q => S.hyperFn p q⟩

/-- `SparseObjectives.py:529-532`. -/
def setInput (S : Sens) (optInput : Option (List ℝ)) : Sens × Option PyErr :=
  match optInput with
  | some x => ({ S with optInput := x }, none)
  | none =>
    match S.inputPar.getFree with
    | .error e => (S, some e)
    | .ok x => ({ S with optInput := x }, none)

/-- `SparseObjectives.py:534-538`. -/
def setHess (S : Sens) (hess : Option Arr) : Sens × Option PyErr :=
  match hess with
  | some H => ({ S with hess := H }, none)
  | none =>
    let q := S.objective.funFreeHessian S.optInput ()
    match q.2 with
    | .error e => ({ S with inputPar := q.1.par }, some e)
    | .ok H => ({ S with inputPar := q.1.par, hess := H }, none)

/-- `SparseObjectives.py:539`. -/
def setChol (S : Sens) : Sens × Option PyErr :=
  match choFactor S.hess with
  | .error e => (S, some e)
  | .ok l => ({ S with chol := l }, none)

/-- `self.dout_din = self.parameter_converter.free_to_vec_jacobian(...)`:
`SparseObjectives.py:541-542`. -/
def setDout (S : Sens) : Sens × Option PyErr :=
  let q := S.converter.jacobian true false S.optInput
  match q.2 with
  | .error e => ({ S with inputPar := q.1.parIn, outputPar := q.1.parOut }, some e)
  | .ok J => ({ S with inputPar := q.1.parIn, outputPar := q.1.parOut, doutDin := J }, none)

/-- `SparseObjectives.py:544`. -/
def setHyper (S : Sens) : Sens × Option PyErr :=
  match S.hyperPar.getVector with
  | .error e => (S, some e)
  | .ok v => ({ S with optHyper := v }, none)

/-- `SparseObjectives.py:545-547`. -/
def setCross (S : Sens) : Sens × Option PyErr :=
  let q := S.joint.funHessianFree1Vector2 S.optInput S.optHyper ()
  match q.2 with
  | .error e => ({ S with inputPar := q.1.par1, hyperPar := q.1.par2 }, some e)
  | .ok C => ({ S with inputPar := q.1.par1, hyperPar := q.1.par2, cross := C }, none)

/-- `self.optimal_output_par = self.output_par.get_vector()`: `SparseObjectives.py:549`. -/
def setOutput (S : Sens) : Sens × Option PyErr :=
  match S.outputPar.getVector with
  | .error e => (S, some e)
  | .ok v => ({ S with optOutput := v }, none)

/-- `SparseObjectives.py:550-552`. -/
def setSens (S : Sens) : Sens × Option PyErr :=
  match choSolve S.chol S.cross with
  | .error e => (S, some e)
  | .ok X => ({ S with sens := X.neg }, none)

/-- `set_optimal_input_par(optimal_input_par, objective_hessian)`:
`SparseObjectives.py:524-552`. -/
def setOptimal (S : Sens) (optInput : Option (List ℝ)) (hess : Option Arr) : Sens × Option PyErr :=
  andThen (S.setInput optInput) fun S => andThen (S.setHess hess) fun S =>
    andThen S.setChol fun S => andThen S.setDout fun S => andThen S.setHyper fun S =>
      andThen S.setCross fun S => andThen S.setOutput fun S => S.setSens

/-- `__init__`: `SparseObjectives.py:488-522`; the deprecation warning is not modelled. -/
def new (objFn : Param → Param → Py Arr) (inputPar outputPar hyperPar : Param)
    (conv : Param → Param → Param × Option PyErr) (optInput : Option (List ℝ)) (hess : Option Arr)
    (hyperFn : Option (Param → Param → Py Arr)) : Py Sens :=
  let e : Arr := ⟨[0, 0], []⟩
  let S : Sens := ⟨inputPar, outputPar, hyperPar, conv, objFn, hyperFn.getD objFn, [], [], [],
    e, e, e, e, e⟩
  let r := S.setOptimal optInput hess
  match r.2 with
  | some e => .error e
  | none => .ok r.1

/-- `get_dinput_dhyper()`: `SparseObjectives.py:554-555`. -/
def dinputDhyper (S : Sens) : Arr := S.sens

/-- `get_doutput_dhyper()`: `SparseObjectives.py:557-558`. -/
def doutputDhyper (S : Sens) : Py Arr := S.doutDin.matmul S.sens

/-- `predict_input_par_from_hyperparameters(new_hyper_par)`: `SparseObjectives.py:560-563`. -/
def predictInput (S : Sens) (newHyper : List ℝ) : Py (List ℝ) := do
  let d ← vsub newHyper S.optHyper
  vadd S.optInput (← S.sens.mulVec d)

/-- `predict_output_par_from_hyperparameters(new_hyper_par, linear)`:
`SparseObjectives.py:565-573`. -/
def predictOutput (S : Sens) (newHyper : List ℝ) (linear : Bool) : Sens × Py (List ℝ) :=
  if linear then
    (S, do
      let d ← vsub newHyper S.optHyper
      vadd S.optOutput (← (← S.doutDin.matmul S.sens).mulVec d))
  else
    match S.predictInput newHyper with
    | .error e => (S, .error e)
    | .ok x =>
      let q := S.converter.convert true false x
      ({ S with inputPar := q.1.parIn, outputPar := q.1.parOut }, q.2)

end Sens

end

end LRVB
