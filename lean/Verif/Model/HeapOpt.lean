import Verif.Model.HeapObj
import Verif.Model.OptUtils

/-!
# Optimization with references — `OptimizationUtils.py:44-162`

`Model/OptUtils` says what the functions compute.  Here the starting point, the points at which the
objective is evaluated and the returned point are arrays, which the objective's logger may keep.
`scipy.optimize.minimize` copies its starting point and passes a new array to every call; the point in
its result is a new array.
-/

namespace LRVB

open Classical

noncomputable section

/-- `scipy.optimize.minimize(fun, x0, jac, hessp)` with a new array for every call. -/
def Optimizer.runHeap (fn : World Unit → List ℕ → World Unit × Py Arr)
    (jac : World Unit → List ℕ → World Unit × Py (List ℝ))
    (hessp : Option (World Unit → List ℕ → List ℕ → World Unit × Py (List ℝ))) :
    Optimizer → World Unit → World Unit × Py OptResult
  | .done r, w => (w, .ok r)
  | .fail e, w => (w, .error e)
  | .value x k, w =>
    let r := fn ⟨(w.st.newVec x).1, w.o⟩ (w.st.newVec x).2
    match r.2 with
    | .error e => (r.1, .error e)
    | .ok v => (k v).runHeap fn jac hessp r.1
  | .grad x k, w =>
    let r := jac ⟨(w.st.newVec x).1, w.o⟩ (w.st.newVec x).2
    match r.2 with
    | .error e => (r.1, .error e)
    | .ok g => (k g).runHeap fn jac hessp r.1
  | .hvp x v k, w =>
    match hessp with
    | none => (w, .error .typeError)
    | some h =>
      let s := w.st.newVec x
      let r := h ⟨(s.1.newVec v).1, w.o⟩ s.2 (s.1.newVec v).2
      match r.2 with
      | .error e => (r.1, .error e)
      | .ok g => (k g).runHeap fn jac hessp r.1

/-- The result of `scipy.optimize.minimize`, whose point is an array. -/
structure HOptResult where
  x : List ℕ
  value : Arr
  jac : List ℝ

namespace World

/-- The first lines of `minimize_objective_trust_ncg` and `minimize_objective_bfgs`:
`OptimizationUtils.py:49-52,83-87`. -/
def startMin (w : World Unit) (printEvery : Option ℕ) (initLogger : Bool) : World Unit :=
  let w1 := if initLogger then w.initLogger else w
  match printEvery with
  | none => w1
  | some k => { w1 with o := { w1.o with logger := { w1.o.logger with printEvery := k } } }

/-- `minimize_objective_trust_ncg` (`useHvp = true`) and `minimize_objective_bfgs` (`useHvp = false`):
`OptimizationUtils.py:44-108`.  With a preconditioner, `np.linalg.solve` and `uncondition_x` make new
arrays; without, `opt_x = obj_opt.x` is the array in the result. -/
def minimize (depth : ℕ) (useHvp : Bool) (opt : List ℝ → Optimizer) (w : World Unit) (initX : List ℕ)
    (precondition disp : Bool) (printEvery : Option ℕ) (initLogger : Bool) :
    World Unit × Py (List ℕ × HOptResult) :=
  let w1 := w.startMin printEvery initLogger
  if precondition then
    match w1.o.precond with
    | none => (w1, .error .assertionError)
    | some P =>
      match npSolve (w1.st.mem.read P) (w1.st.mem.vals initX) with
      | .error e => (w1, .error e)
      | .ok x0 =>
        let r := (opt x0).runHeap (fun w x => w.funFreeCond depth x () disp) (fun w x => w.gradCond depth x ())
          (if useHvp then some fun w x v => w.hvpCond depth x () v else none) w1
        match r.2 with
        | .error e => (r.1, .error e)
        | .ok res =>
          let s := r.1.st.newVec res.x
          match r.1.o.precond with
          | none => (⟨s.1, r.1.o⟩, .error .typeError)
          | some Q =>
            match (s.1.mem.read Q).mulVec (s.1.mem.vals s.2) with
            | .error e => (⟨s.1, r.1.o⟩, .error e)
            | .ok y => (⟨(s.1.newVec y).1, r.1.o⟩, .ok ((s.1.newVec y).2, ⟨s.2, res.value, res.jac⟩))
  else
    let r := (opt (w1.st.mem.vals initX)).runHeap (fun w x => w.funFree depth x () disp)
      (fun w x => w.grad depth true x ()) (if useHvp then some fun w x v => w.hvp depth true x () v else none) w1
    match r.2 with
    | .error e => (r.1, .error e)
    | .ok res =>
      let s := r.1.st.newVec res.x
      (⟨s.1, r.1.o⟩, .ok (s.2, ⟨s.2, res.value, res.jac⟩))

end World

/-- A user's optimization function: it gets an array and returns an array. -/
abbrev HOptFun (σ R : Type) := σ → World Unit → List ℕ → σ × World Unit × Py (List ℕ × R)

/-- What `repeatedly_optimize` returns. -/
structure HRepResult (R : Type) where
  x : List ℕ
  converged : Bool
  xConv : Bool
  fConv : Bool
  gradConv : Bool
  objOpt : R
  optResults : List R

/-- The local variables of the loop. -/
structure HRepState (σ R : Type) where
  env : σ
  w : World Unit
  x : List ℕ
  fVal : ℝ
  converged : Bool
  last : Option (Bool × Bool × Bool × R)
  optResults : List R

/-- One iteration: `OptimizationUtils.py:139-157`.  `x` and `new_x` are subtracted as they are after the
calls. -/
def hRepStep {σ R : Type} (depth : ℕ) (optFun : HOptFun σ R) (gtol ftol xtol : ℝ) (keep : Bool)
    (s : HRepState σ R) : σ × World Unit × Py (HRepState σ R) :=
  match optFun s.env s.w s.x with
  | (e1, w1, .error e) => (e1, w1, .error e)
  | (e1, w1, .ok (newX, objOpt)) =>
    let optResults := if keep then s.optResults ++ [objOpt] else s.optResults
    let rf := w1.funFree depth newX () false
    match (do scalarOf (← rf.2)) with
    | .error e => (e1, rf.1, .error e)
    | .ok newF =>
      let rg := rf.1.grad depth true newX ()
      match rg.2 with
      | .error e => (e1, rg.1, .error e)
      | .ok g =>
        match vsub (rg.1.st.mem.vals newX) (rg.1.st.mem.vals s.x) with
        | .error e => (e1, rg.1, .error e)
        | .ok dx =>
          let xConv := decide (l1 dx < xtol)
          let fConv := decide (|newF - s.fVal| < ftol)
          let gradConv := decide (l1 g < gtol)
          (e1, rg.1, .ok ⟨e1, rg.1, newX, newF, xConv || fConv || gradConv,
            some (xConv, fConv, gradConv, objOpt), optResults⟩)

/-- The loop: `OptimizationUtils.py:135-160`; `n` iterations are left. -/
def hRepLoop {σ R : Type} (depth : ℕ) (optFun : HOptFun σ R) (gtol ftol xtol : ℝ) (keep : Bool) :
    ℕ → HRepState σ R → σ × World Unit × Py (HRepState σ R)
  | 0, s => (s.env, s.w, .ok s)
  | n + 1, s =>
    if s.converged then (s.env, s.w, .ok s)
    else
      match hRepStep depth optFun gtol ftol xtol keep s with
      | (e, w, .error err) => (e, w, .error err)
      | (_, _, .ok s') => hRepLoop depth optFun gtol ftol xtol keep n s'

/-- `repeatedly_optimize`: `OptimizationUtils.py:114-162`. -/
def World.repeatedlyOptimize {σ R : Type} (depth : ℕ) (env : σ) (w : World Unit) (optFun : HOptFun σ R)
    (initX : List ℕ) (initFun : Option (HOptFun σ R)) (maxIter : ℤ) (gtol ftol xtol : ℝ) (keep : Bool) :
    σ × World Unit × Py (HRepResult R) :=
  let r0 : σ × World Unit × Py (List ℕ × List R) :=
    match initFun with
    | none => (env, w, .ok (initX, []))
    | some f =>
      match f env w initX with
      | (e1, w1, .error e) => (e1, w1, .error e)
      | (e1, w1, .ok (x1, r1)) => (e1, w1, .ok (x1, if keep then [r1] else []))
  match r0 with
  | (e1, w1, .error e) => (e1, w1, .error e)
  | (e1, w1, .ok (x1, results)) =>
    let rf := w1.funFree depth x1 () false
    match (do scalarOf (← rf.2)) with
    | .error e => (e1, rf.1, .error e)
    | .ok f1 =>
      match hRepLoop depth optFun gtol ftol xtol keep maxIter.toNat ⟨e1, rf.1, x1, f1, false, none, results⟩ with
      | (e2, w2, .error e) => (e2, w2, .error e)
      | (e2, w2, .ok s) =>
        match s.last with
        | none => (e2, w2, .error .unboundLocal)
        | some (xConv, fConv, gradConv, objOpt) =>
          (e2, w2, .ok ⟨s.x, s.converged, xConv, fConv, gradConv, objOpt, s.optResults⟩)

end

end LRVB
