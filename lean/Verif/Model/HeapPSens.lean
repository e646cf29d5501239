import Verif.Model.HeapSens

/-!
# `ParametricSensitivity` with references — `SparseObjectives.py:487-573`

`Model/Sensitivity` says what the methods compute when the object has copies of everything.  Here its
three parameters and its base values are references to objects and arrays.
-/

namespace LRVB

open Classical

noncomputable section

/-- A `ParametricSensitivity`: `SparseObjectives.py:505-520`.  The Cholesky factor, the Jacobian of the
converter and the cross Hessian are new arrays that no method returns; they are kept as values.  The
user's converter is a program that acts on objects. -/
structure HSens where
  inputPar : ℕ
  outputPar : ℕ
  hyperPar : ℕ
  conv : Store → Store × Py Unit
  objFn : Param → Param → Py Arr
  hyperFn : Param → Param → Py Arr
  optInput : List ℕ
  optHyper : List ℕ
  optOutput : List ℕ
  hess : Ref
  chol : Arr
  doutDin : Arr
  cross : Arr
  sens : Ref

/-- The store and the object. -/
structure SWorld where
  st : Store
  o : HSens

namespace SWorld

/-- `self.parameter_converter`: `SparseObjectives.py:516-517`. -/
def converter (w : SWorld) : HConverter := ⟨w.o.inputPar, w.o.outputPar, w.o.conv⟩

/-- `self.sensitivity_objective`: `SparseObjectives.py:519-520`. -/
def joint (w : SWorld) : HTwo Unit := ⟨w.o.inputPar, w.o.hyperPar, fun _ p q => w.o.hyperFn p q⟩

/-- What this class has in common with a linear approximation (`Model/HeapSens`): the objective and the
point at which its Hessian is taken. -/
def lin (w : SWorld) : LWorld := ⟨w.st, w.o.inputPar, w.o.hyperPar, true, false, w.o.objFn, w.o.hyperFn,
  w.o.optInput, w.o.optHyper, w.o.hess, w.o.chol, w.o.cross, w.o.sens⟩

/-- The input: `SparseObjectives.py:529-532`: a new array (`get_free`), or a copy of the argument. -/
def setInput (depth : ℕ) (w : SWorld) (x : Option (List ℕ)) : SWorld × Py Unit :=
  match x with
  | some x =>
    let s := w.st.newVec (w.st.mem.vals x)
    (⟨s.1, { w.o with optInput := s.2 }⟩, .ok ())
  | none =>
    let g := w.st.getFree depth w.o.inputPar
    match g.2 with
    | .error e => (⟨g.1, w.o⟩, .error e)
    | .ok x => (⟨g.1, { w.o with optInput := x }⟩, .ok ())

/-- The Hessian: `SparseObjectives.py:534-538`: an argument is kept by reference. -/
def setHess (depth : ℕ) (w : SWorld) (hess : Option Ref) : SWorld × Py Unit :=
  match hess with
  | some H => (⟨w.st, { w.o with hess := H }⟩, .ok ())
  | none =>
    let q := w.lin.objHessian depth
    match q.2 with
    | .error e => (⟨q.1, w.o⟩, .error e)
    | .ok H => (⟨⟨(q.1.mem.alloc H).1, q.1.objs⟩, { w.o with hess := (q.1.mem.alloc H).2 }⟩, .ok ())

/-- The Cholesky factorization: `SparseObjectives.py:539`. -/
def setChol (w : SWorld) : SWorld × Py Unit :=
  match choFactor (w.st.mem.read w.o.hess) with
  | .error e => (w, .error e)
  | .ok l => (⟨w.st, { w.o with chol := l }⟩, .ok ())

/-- The Jacobian of the converter: `SparseObjectives.py:541-542`. -/
def setDout (depth : ℕ) (w : SWorld) : SWorld × Py Unit :=
  let q := w.converter.jacobian depth w.st true false w.o.optInput
  match q.2 with
  | .error e => (⟨q.1, w.o⟩, .error e)
  | .ok J => (⟨q.1, { w.o with doutDin := J }⟩, .ok ())

/-- The hyperparameter, not copied: `SparseObjectives.py:544`. -/
def setHyper (depth : ℕ) (w : SWorld) : SWorld × Py Unit :=
  let g := w.st.getVector depth w.o.hyperPar
  match g.2 with
  | .error e => (⟨g.1, w.o⟩, .error e)
  | .ok v => (⟨g.1, { w.o with optHyper := v }⟩, .ok ())

/-- The cross Hessian: `SparseObjectives.py:545-547`. -/
def setCross (depth : ℕ) (w : SWorld) : SWorld × Py Unit :=
  let q := w.joint.hessian12 depth w.st w.o.optInput w.o.optHyper true false ()
  match q.2 with
  | .error e => (⟨q.1, w.o⟩, .error e)
  | .ok C => (⟨q.1, { w.o with cross := C }⟩, .ok ())

/-- The output, not copied: `SparseObjectives.py:549`. -/
def setOutput (depth : ℕ) (w : SWorld) : SWorld × Py Unit :=
  let g := w.st.getVector depth w.o.outputPar
  match g.2 with
  | .error e => (⟨g.1, w.o⟩, .error e)
  | .ok v => (⟨g.1, { w.o with optOutput := v }⟩, .ok ())

/-- The sensitivity, a new array: `SparseObjectives.py:550-552`. -/
def setSens (w : SWorld) : SWorld × Py Unit :=
  match choSolve w.o.chol w.o.cross with
  | .error e => (w, .error e)
  | .ok X => (⟨⟨(w.st.mem.alloc X.neg).1, w.st.objs⟩, { w.o with sens := (w.st.mem.alloc X.neg).2 }⟩, .ok ())

/-- `set_optimal_input_par(optimal_input_par, objective_hessian)`: `SparseObjectives.py:524-552`. -/
def setOptimal (depth : ℕ) (w : SWorld) (x : Option (List ℕ)) (hess : Option Ref) : SWorld × Py Unit :=
  thenDo (w.setInput depth x) fun w => thenDo (w.setHess depth hess) fun w => thenDo w.setChol fun w =>
    thenDo (w.setDout depth) fun w => thenDo (w.setHyper depth) fun w => thenDo (w.setCross depth) fun w =>
      thenDo (w.setOutput depth) fun w => w.setSens

/-- `__init__`: `SparseObjectives.py:488-522`; the deprecation warning is not modelled. -/
def new (depth : ℕ) (st : Store) (objFn : Param → Param → Py Arr) (inputPar outputPar hyperPar : ℕ)
    (conv : Store → Store × Py Unit) (x : Option (List ℕ)) (hess : Option Ref)
    (hyperFn : Option (Param → Param → Py Arr)) : SWorld × Py Unit :=
  let w : SWorld := ⟨st, inputPar, outputPar, hyperPar, conv, objFn, hyperFn.getD objFn, [], [], [],
    ⟨[0, 0], []⟩, ⟨[0, 0], []⟩, ⟨[0, 0], []⟩, ⟨[0, 0], []⟩, ⟨[0, 0], []⟩⟩
  w.setOptimal depth x hess

/-- `get_dinput_dhyper()`: `SparseObjectives.py:554-555`: the array itself. -/
def dinputDhyper (w : SWorld) : Ref := w.o.sens

/-- `predict_input_par_from_hyperparameters(new_hyper_par)`: `SparseObjectives.py:560-563`: a new array. -/
def predictInput (w : SWorld) (newHyper : List ℕ) : SWorld × Py (List ℕ) :=
  match (do
    let d ← vsub (w.st.mem.vals newHyper) (w.st.mem.vals w.o.optHyper)
    vadd (w.st.mem.vals w.o.optInput) (← (w.st.mem.read w.o.sens).mulVec d)) with
  | .error e => (w, .error e)
  | .ok v => (⟨(w.st.newVec v).1, w.o⟩, .ok (w.st.newVec v).2)

/-- `predict_output_par_from_hyperparameters(new_hyper_par, linear)`: `SparseObjectives.py:565-573`: with
`linear=True` a new array; otherwise the result of the converter, which may be the array that the output
parameter holds. -/
def predictOutput (depth : ℕ) (w : SWorld) (newHyper : List ℕ) (linear : Bool) : SWorld × Py (List ℕ) :=
  if linear then
    match (do
      let d ← vsub (w.st.mem.vals newHyper) (w.st.mem.vals w.o.optHyper)
      vadd (w.st.mem.vals w.o.optOutput) (← (← w.o.doutDin.matmul (w.st.mem.read w.o.sens)).mulVec d)) with
    | .error e => (w, .error e)
    | .ok v => (⟨(w.st.newVec v).1, w.o⟩, .ok (w.st.newVec v).2)
  else
    let r := w.predictInput newHyper
    match r.2 with
    | .error e => (r.1, .error e)
    | .ok x =>
      let q := w.converter.convert depth r.1.st true false x
      (⟨q.1, w.o⟩, q.2)

end SWorld

end

end LRVB
