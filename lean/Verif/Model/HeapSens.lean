import Verif.Model.HeapTwo
import Verif.Model.Sensitivity

/-!
# Linear approximations that hold references — `ModelSensitivity.py:555-612`

`Model/Sensitivity` says what the methods compute when the object has copies of everything.  Here its
parameters and base values are references to objects and arrays.
-/

namespace LRVB

open Classical

noncomputable section

/-- Run `k` unless an exception was raised. -/
def thenDo {σ : Type} (r : σ × Py Unit) (k : σ → σ × Py Unit) : σ × Py Unit :=
  match r.2 with
  | .error e => (r.1, .error e)
  | .ok () => k r.1

/-- A `ParametricSensitivityLinearApproximation`.  The Cholesky factor and the cross Hessian are new
arrays that no method returns; they are kept as values. -/
structure HLin where
  inputPar : ℕ
  hyperPar : ℕ
  inputIsFree : Bool
  hyperIsFree : Bool
  objFn : Param → Param → Py Arr
  hyperFn : Param → Param → Py Arr
  inputVal0 : List ℕ
  hyperVal0 : List ℕ
  hess0 : Ref
  chol : Arr
  cross : Arr
  sens : Ref

/-- The store and the object. -/
structure LWorld where
  st : Store
  o : HLin

namespace LWorld

/-- `self.objective`, seen as a function of both parameters: `ModelSensitivity.py:574-575`. -/
def objective (w : LWorld) : HTwo Unit := ⟨w.o.inputPar, w.o.hyperPar, fun _ p q => w.o.objFn p q⟩

/-- `self.joint_objective`: `ModelSensitivity.py:576-577`. -/
def joint (w : LWorld) : HTwo Unit := ⟨w.o.inputPar, w.o.hyperPar, fun _ p q => w.o.hyperFn p q⟩

/-- `set_par_to_base_values`: `ModelSensitivity.py:581-583`. -/
def setParToBase (depth : ℕ) (w : LWorld) : LWorld × Py Unit :=
  let r1 := w.st.setPar depth w.o.inputPar w.o.inputVal0 w.o.inputIsFree
  match r1.2 with
  | .error e => (⟨r1.1, w.o⟩, .error e)
  | .ok () =>
    let r2 := r1.1.setPar depth w.o.hyperPar w.o.hyperVal0 w.o.hyperIsFree
    (⟨r2.1, w.o⟩, r2.2)

/-- What `self.objective.fun_free` computes from the numbers in its argument. -/
def objValue (depth : ℕ) (w : LWorld) (y : List ℝ) : Py Arr :=
  let s := w.st.newVec y
  let r := s.1.setPar depth w.o.inputPar s.2 true
  match r.2 with
  | .error e => .error e
  | .ok () => w.objective.callFn depth r.1 ()

/-- `self.objective.fun_free_hessian(self.input_val0)`: `ModelSensitivity.py:591` with
`SparseObjectives.py:142-145,156-158`. -/
def objHessian (depth : ℕ) (w : LWorld) : Store × Py Arr :=
  let st1 := w.st.traceSet depth w.o.inputPar w.o.inputVal0 true
  match agHess (w.objValue depth) (w.st.mem.vals w.o.inputVal0) with
  | .error e => (st1, .error e)
  | .ok H =>
    let r := st1.setPar depth w.o.inputPar w.o.inputVal0 true
    match r.2 with
    | .error e => (r.1, .error e)
    | .ok () => (r.1, .ok H)

/-- The Hessian: `ModelSensitivity.py:590-593`: an argument is kept by reference. -/
def setHess (depth : ℕ) (w : LWorld) (hess0 : Option Ref) : LWorld × Py Unit :=
  match hess0 with
  | some H => (⟨w.st, { w.o with hess0 := H }⟩, .ok ())
  | none =>
    let q := w.objHessian depth
    match q.2 with
    | .error e => (⟨q.1, w.o⟩, .error e)
    | .ok H => (⟨⟨(q.1.mem.alloc H).1, q.1.objs⟩, { w.o with hess0 := (q.1.mem.alloc H).2 }⟩, .ok ())

/-- The Cholesky factorization: `ModelSensitivity.py:594`. -/
def setChol (w : LWorld) : LWorld × Py Unit :=
  match choFactor (w.st.mem.read w.o.hess0) with
  | .error e => (w, .error e)
  | .ok l => (⟨w.st, { w.o with chol := l }⟩, .ok ())

/-- The cross Hessian: `ModelSensitivity.py:596-598`. -/
def setCross (depth : ℕ) (w : LWorld) : LWorld × Py Unit :=
  let q := w.joint.hessian12 depth w.st w.o.inputVal0 w.o.hyperVal0 true false ()
  match q.2 with
  | .error e => (⟨q.1, w.o⟩, .error e)
  | .ok C => (⟨q.1, { w.o with cross := C }⟩, .ok ())

/-- The sensitivity, a new array: `ModelSensitivity.py:600-602`. -/
def setSens (w : LWorld) : LWorld × Py Unit :=
  match choSolve w.o.chol w.o.cross with
  | .error e => (w, .error e)
  | .ok X => (⟨⟨(w.st.mem.alloc X.neg).1, w.st.objs⟩, { w.o with sens := (w.st.mem.alloc X.neg).2 }⟩, .ok ())

/-- `set_base_values(input_val0, hyper_val0, hess0)`: `ModelSensitivity.py:585-602`: copies of the base
values. -/
def setBaseValues (depth : ℕ) (w : LWorld) (x h : List ℕ) (hess0 : Option Ref) : LWorld × Py Unit :=
  let s1 := w.st.newVec (w.st.mem.vals x)
  let s2 := s1.1.newVec (s1.1.mem.vals h)
  let w1 : LWorld := ⟨s2.1, { w.o with inputVal0 := s1.2, hyperVal0 := s2.2 }⟩
  thenDo (w1.setParToBase depth) fun w => thenDo (w.setHess depth hess0) fun w =>
    thenDo w.setChol fun w => thenDo (w.setCross depth) fun w => w.setSens

/-- `__init__`: `ModelSensitivity.py:556-579`.  The argument `hess0` is not used. -/
def new (depth : ℕ) (st : Store) (objFn : Param → Param → Py Arr) (inputPar hyperPar : ℕ) (x h : List ℕ)
    (inputIsFree hyperIsFree : Bool) (_hess0 : Option Ref) (hyperFn : Option (Param → Param → Py Arr)) :
    LWorld × Py Unit :=
  let w : LWorld := ⟨st, inputPar, hyperPar, inputIsFree, hyperIsFree, objFn, hyperFn.getD objFn, [], [],
    ⟨[0, 0], []⟩, ⟨[0, 0], []⟩, ⟨[0, 0], []⟩, ⟨[0, 0], []⟩⟩
  w.setBaseValues depth x h none

/-- `get_dinput_dhyper()`: `ModelSensitivity.py:605-606`: the array itself. -/
def dinputDhyper (w : LWorld) : Ref := w.o.sens

/-- `predict_input_par_from_hyperparameters(new_hyper_par_value)`: `ModelSensitivity.py:608-612`: a new
array. -/
def predict (w : LWorld) (newHyper : List ℕ) : LWorld × Py (List ℕ) :=
  match (do
    let d ← vsub (w.st.mem.vals newHyper) (w.st.mem.vals w.o.hyperVal0)
    vadd (w.st.mem.vals w.o.inputVal0) (← (w.st.mem.read w.o.sens).mulVec d)) with
  | .error e => (w, .error e)
  | .ok v => (⟨(w.st.newVec v).1, w.o⟩, .ok (w.st.newVec v).2)

end LWorld

end

end LRVB
