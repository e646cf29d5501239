import Verif.Model.Objective
import Verif.Model.Solve

/-!
# Optimization — `OptimizationUtils.py`

`np.linalg.eigh` and `scipy.optimize.minimize` are parameters of the model.  These functions pass no
extra arguments to the objective.
-/

namespace LRVB

open Classical Matrix

noncomputable section

/-- The thresholding of one eigenvalue: `OptimizationUtils.py:10-13`. -/
def thresholdEv (evMin evMax : Option ℝ) (w : ℝ) : ℝ :=
  let w1 := match evMin with
    | none => w
    | some m => if w ≤ m then m else w
  match evMax with
  | none => w1
  | some M => if w1 ≥ M then M else w1

/-- A square Mathlib matrix as a 2-d array. -/
def ofMatrix {d : ℕ} (M : Matrix (Fin d) (Fin d) ℝ) : Arr :=
  Arr.ofFn2 d d fun i j => if h : i < d ∧ j < d then M ⟨i, h.1⟩ ⟨j, h.2⟩ else 0

/-- `get_sym_matrix_inv_sqrt(hessian, ev_min, ev_max)`: `OptimizationUtils.py:6-20`, for 2-d arrays.
When a thresholded eigenvalue is not positive, numpy puts `inf` or `nan` in the result; the model
returns the marker `nonFinite`.  A row or a column, which numpy would broadcast, is not modelled. -/
def getSymMatrixInvSqrt (eigh : Eigh) (hessian : Arr) (evMin evMax : Option ℝ) : Py (Arr × Arr) :=
  match hessian.shape with
  | [d, c] =>
    if d ≠ c then (if d = 1 ∨ c = 1 then .error .unmodelled else .error .valueError)
    else
      let H := toMatrix d d hessian
      let sym := (0.5 : ℝ) • (H + Hᵀ)
      let eigVal := fun i => thresholdEv evMin evMax ((eigh d sym).1 i)
      let eigVec := (eigh d sym).2
      let corrected := eigVec * (Matrix.diagonal eigVal * eigVecᵀ)
      if ∃ i, eigVal i ≤ 0 then .error .nonFinite
      else
        let invSqrt := eigVec * (Matrix.diagonal (fun i => 1 / Real.sqrt (eigVal i)) * eigVecᵀ)
        .ok (ofMatrix invSqrt, ofMatrix corrected)
  | _ => .error .unmodelled

/-- `set_objective_preconditioner(objective, free_par, hessian, ev_min, ev_max)`:
`OptimizationUtils.py:25-41`. -/
def setObjectivePreconditioner (eigh : Eigh) (o : Objective Unit) (freePar : Option (List ℝ))
    (hessian : Option Arr) (evMin evMax : Option ℝ) : Objective Unit × Py (Arr × Arr × Arr) :=
  let r : Objective Unit × Py Arr :=
    match hessian, freePar with
    | some h, _ => (o, .ok h)
    | none, some x => o.funFreeHessian x ()
    | none, none => (o, .error .valueError)
  match r.2 with
  | .error e => (r.1, .error e)
  | .ok h =>
    match getSymMatrixInvSqrt eigh h evMin evMax with
    | .error e => (r.1, .error e)
    | .ok (s, c) => ({ r.1 with precond := some s }, .ok (h, s, c))

/-- The result of `scipy.optimize.minimize`: its attributes `x`, `fun` and `jac`. -/
structure OptResult where
  x : List ℝ
  value : Arr
  jac : List ℝ

/-- An optimizer, as the sequence of its calls: it asks for a value, a gradient or a Hessian-vector
product and goes on with the answer, or it returns a result or raises.  An exception in a call is not
caught. -/
inductive Optimizer where
  | done (r : OptResult)
  | fail (e : PyErr)
  | value (x : List ℝ) (k : Arr → Optimizer)
  | grad (x : List ℝ) (k : List ℝ → Optimizer)
  | hvp (x v : List ℝ) (k : List ℝ → Optimizer)

/-- `scipy.optimize.minimize(fun, x0, jac, hessp)`.  BFGS gets no `hessp`. -/
def Optimizer.run (fn : Objective Unit → List ℝ → Objective Unit × Py Arr)
    (jac : Objective Unit → List ℝ → Objective Unit × Py (List ℝ))
    (hessp : Option (Objective Unit → List ℝ → List ℝ → Objective Unit × Py (List ℝ))) :
    Optimizer → Objective Unit → Objective Unit × Py OptResult
  | .done r, o => (o, .ok r)
  | .fail e, o => (o, .error e)
  | .value x k, o =>
    let r := fn o x
    match r.2 with
    | .error e => (r.1, .error e)
    | .ok v => (k v).run fn jac hessp r.1
  | .grad x k, o =>
    let r := jac o x
    match r.2 with
    | .error e => (r.1, .error e)
    | .ok g => (k g).run fn jac hessp r.1
  | .hvp x v k, o =>
    match hessp with
    | none => (o, .error .typeError)
    | some h =>
      let r := h o x v
      match r.2 with
      | .error e => (r.1, .error e)
      | .ok w => (k w).run fn jac hessp r.1

/-- The common body of `minimize_objective_trust_ncg` (`useHvp = true`, `OptimizationUtils.py:44-75`)
and `minimize_objective_bfgs` (`useHvp = false`, `OptimizationUtils.py:78-108`).  `opt` gives the
optimizer for a starting point; the options `maxiter` and `gtol` are part of it.  The attribute
`preconditioning`, which nothing reads, is not modelled. -/
def minimizeObjective (useHvp : Bool) (opt : List ℝ → Optimizer) (o : Objective Unit) (initX : List ℝ)
    (precondition disp : Bool) (printEvery : Option ℕ) (initLogger : Bool) :
    Objective Unit × Py (List ℝ × OptResult) :=
  let o1 := if initLogger then { o with logger := o.logger.reset } else o
  let o2 := match printEvery with
    | none => o1
    | some k => { o1 with logger := { o1.logger with printEvery := k } }
  if precondition then
    match o2.precond with
    | none => (o2, .error .assertionError)
    | some P =>
      match npSolve P initX with
      | .error e => (o2, .error e)
      | .ok x0 =>
        let r := (opt x0).run (fun o x => o.funFreeCond x () disp) (fun o x => o.funFreeGradCond x ())
          (if useHvp then some fun o x v => o.funFreeHvpCond x () v else none) o2
        match r.2 with
        | .error e => (r.1, .error e)
        | .ok res =>
          match r.1.unconditionX res.x with
          | .error e => (r.1, .error e)
          | .ok optX => (r.1, .ok (optX, res))
  else
    let r := (opt initX).run (fun o x => o.funFree x () disp) (fun o x => o.funFreeGrad x ())
      (if useHvp then some fun o x v => o.funFreeHvp x () v else none) o2
    match r.2 with
    | .error e => (r.1, .error e)
    | .ok res => (r.1, .ok (res.x, res))

/-! ### Repeated optimization — `OptimizationUtils.py:114-162` -/

/-- A user's optimization function.  It can change the objective and any other state `σ`. -/
abbrev OptFun (σ R : Type) := σ → Objective Unit → List ℝ → σ × Objective Unit × Py (List ℝ × R)

/-- The value of an objective as a number.  (Arrays of more than one number are not modelled.) -/
def scalarOf (v : Arr) : Py ℝ :=
  if v.data.length = 1 then .ok (v.data.getD 0 0) else .error .unmodelled

/-- `np.sum(np.abs(v))`. -/
def l1 (v : List ℝ) : ℝ := (v.map abs).sum

/-- What `repeatedly_optimize` returns. -/
structure RepResult (R : Type) where
  x : List ℝ
  converged : Bool
  xConv : Bool
  fConv : Bool
  gradConv : Bool
  objOpt : R
  optResults : List R

/-- The local variables of the loop.  `last` holds those that are not assigned before the loop. -/
structure RepState (σ R : Type) where
  env : σ
  obj : Objective Unit
  x : List ℝ
  fVal : ℝ
  converged : Bool
  last : Option (Bool × Bool × Bool × R)
  optResults : List R

/-- One iteration: `OptimizationUtils.py:139-157`. -/
def repStep {σ R : Type} (optFun : OptFun σ R) (gtol ftol xtol : ℝ) (keep : Bool) (s : RepState σ R) :
    σ × Objective Unit × Py (RepState σ R) :=
  match optFun s.env s.obj s.x with
  | (e1, o1, .error e) => (e1, o1, .error e)
  | (e1, o1, .ok (newX, objOpt)) =>
    let optResults := if keep then s.optResults ++ [objOpt] else s.optResults
    let rf := o1.funFree newX () false
    match (do scalarOf (← rf.2)) with
    | .error e => (e1, rf.1, .error e)
    | .ok newF =>
      let rg := rf.1.funFreeGrad newX ()
      match rg.2 with
      | .error e => (e1, rg.1, .error e)
      | .ok g =>
        match vsub newX s.x with
        | .error e => (e1, rg.1, .error e)
        | .ok dx =>
          let xConv := decide (l1 dx < xtol)
          let fConv := decide (|newF - s.fVal| < ftol)
          let gradConv := decide (l1 g < gtol)
          (e1, rg.1, .ok ⟨e1, rg.1, newX, newF, xConv || fConv || gradConv,
            some (xConv, fConv, gradConv, objOpt), optResults⟩)

/-- The loop: `OptimizationUtils.py:135-160`; `n` iterations are left. -/
def repLoop {σ R : Type} (optFun : OptFun σ R) (gtol ftol xtol : ℝ) (keep : Bool) :
    ℕ → RepState σ R → σ × Objective Unit × Py (RepState σ R)
  | 0, s => (s.env, s.obj, .ok s)
  | n + 1, s =>
    if s.converged then (s.env, s.obj, .ok s)
    else
      match repStep optFun gtol ftol xtol keep s with
      | (e, o, .error err) => (e, o, .error err)
      | (_, _, .ok s') => repLoop optFun gtol ftol xtol keep n s'

/-- `repeatedly_optimize`: `OptimizationUtils.py:114-162`.  `new_x`, `x_conv`, `f_conv`, `grad_conv` and
`obj_opt` have no value when the loop body never runs, and the return statement raises. -/
def repeatedlyOptimize {σ R : Type} (env : σ) (o : Objective Unit) (optFun : OptFun σ R) (initX : List ℝ)
    (initFun : Option (OptFun σ R)) (maxIter : ℤ) (gtol ftol xtol : ℝ) (keep : Bool) :
    σ × Objective Unit × Py (RepResult R) :=
  let r0 : σ × Objective Unit × Py (List ℝ × List R) :=
    match initFun with
    | none => (env, o, .ok (initX, []))
    | some f =>
      match f env o initX with
      | (e1, o1, .error e) => (e1, o1, .error e)
      | (e1, o1, .ok (x1, r1)) => (e1, o1, .ok (x1, if keep then [r1] else []))
  match r0 with
  | (e1, o1, .error e) => (e1, o1, .error e)
  | (e1, o1, .ok (x1, results)) =>
    let rf := o1.funFree x1 () false
    match (do scalarOf (← rf.2)) with
    | .error e => (e1, rf.1, .error e)
    | .ok f1 =>
      match repLoop optFun gtol ftol xtol keep maxIter.toNat ⟨e1, rf.1, x1, f1, false, none, results⟩ with
      | (e2, o2, .error e) => (e2, o2, .error e)
      | (e2, o2, .ok s) =>
        match s.last with
        | none => (e2, o2, .error .unboundLocal)
        | some (xConv, fConv, gradConv, objOpt) =>
          (e2, o2, .ok ⟨s.x, s.converged, xConv, fConv, gradConv, objOpt, s.optResults⟩)

end

end LRVB
