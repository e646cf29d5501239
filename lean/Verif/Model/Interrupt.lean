import Verif.Model.OptUtils

/-!
# Interruptions

An exception can be delivered from outside between any two steps of a call (`KeyboardInterrupt`, a signal
handler, a memory error).  None of the functions of the library has a `try` or a `finally`, so that the objects
stay in the state they are in at that moment.  For each call that changes objects this file lists the states
it goes through, the first and the last included.

Assigning an attribute and appending to a list are single steps.  Every class of parameters assigns its value in
one step, after it has computed it.  What a user function changes is not modelled.
-/

namespace LRVB

open Classical

noncomputable section

mutual
/-- The states of a parameter during `set_free(x)` (`free = true`) or `set_vector(x)` (`free = false`):
`ParameterDictionary.py:55-63`, `88-96`, `Parameters.py:326-328`, `340-342`.  With `box = true` the argument is a
placeholder of autograd, and so are the values that are assigned. -/
def Param.during (free box : Bool) : Param → List ℝ → List Param
  | .leaf l, x => .leaf l :: match (if free then l.setFree x else l.setVector x) with
    | .ok l' => [.leaf { l' with boxed := box }]
    | .error _ => []
  | .dict h es, x =>
    if x.length ≠ (if free then h.fs else h.vs) then [.dict h es]
    else (Entries.during free box es x 0).map (.dict h)
/-- The states of the entries during the loop. -/
def Entries.during (free box : Bool) : Entries → List ℝ → ℕ → List Entries
  | .nil, _, _ => [.nil]
  | .cons k p rest, x, off =>
    let size := if free then p.freeSize else p.vecSize
    let part := Leaf.slice x off size
    (Param.during free box p part).map (.cons k · rest) ++
      match (setPar p part free).2 with
      | some _ => []
      | none =>
        let p' := if box then (setPar p part free).1.mark true else (setPar p part free).1
        (Entries.during free box rest x (off + size)).map (.cons k p' ·)
end

/-- The states of a dictionary during `push_param(p)`: `ParameterDictionary.py:39-46`. -/
def Param.duringPush : Param → Param → List Param
  | .leaf l, _ => [.leaf l]
  | .dict h es, p =>
    let es' := es.assign p.name p
    let h1 := { h with freeIdx := LRVB.assign p.name ⟨h.fs, h.fs + p.freeSize⟩ h.freeIdx }
    let h2 := { h1 with vecIdx := LRVB.assign p.name ⟨h.vs, h.vs + p.vecSize⟩ h.vecIdx }
    let h3 := { h2 with fs := h.fs + p.freeSize }
    let h4 := { h3 with vs := h.vs + p.vecSize }
    [.dict h es, .dict h es', .dict h1 es', .dict h2 es', .dict h3 es', .dict h4 es']

namespace Logger

variable {V : Type}

/-- The states of a logger during `initialize()`: `SparseObjectives.py:55-62`. -/
def duringReset (l : Logger V) : List (Logger V) :=
  let l1 := { l with iter := 0 }
  let l2 := { l1 with lastX := none }
  let l3 := { l2 with x := none }
  let l4 := { l3 with value := none }
  let l5 := { l4 with lastValue := none }
  let l6 := { l5 with xArray := [] }
  let l7 := { l6 with valArray := [] }
  [l, l1, l2, l3, l4, l5, l6, l7]

/-- The states of a logger during `log(value, x)`: `SparseObjectives.py:67-87`. -/
def duringLog (l : Logger V) (value : V) (x : List ℝ) : List (Logger V) :=
  let l1 := { l with value := some value }
  let l2 := { l1 with x := some x }
  let l3 := { l2 with xArray := l2.xArray ++ [x] }
  let l4 := { l3 with valArray := l3.valArray ++ [value] }
  [l, l1, l2, l3, l4] ++
    if ∃ lx, l4.lastX = some lx ∧ ¬ diffOk x lx then []
    else
      let l5 := { l4 with lastX := some x }
      let l6 := { l5 with lastValue := some value }
      [l5, l6] ++
        if l6.printEvery = 0 then []
        else
          let l7 := if l6.iter % l6.printEvery = 0 then { l6 with reports := l6.reports ++ [l6.iter] } else l6
          [l7, { l7 with iter := l7.iter + 1 }]

end Logger

namespace Objective

variable {A : Type}

/-- The states of an objective during `fun_free(x, verbose)`: `SparseObjectives.py:120-125`. -/
def duringFunFree (o : Objective A) (x : List ℝ) (a : A) (verbose : Bool) : List (Objective A) :=
  let r := o.par.setFree x
  (o.par.during true false x).map (fun p => { o with par := p }) ++
    match r.2 with
    | some _ => []
    | none =>
      match o.fn a (r.1.mark false) with
      | .error _ => []
      | .ok v => if verbose then (o.logger.duringLog v x).map fun l => { o with par := r.1, logger := l } else []

/-- The states of an objective during a derivative method, `cache_free_and_eval` and
`cache_vector_and_eval`: `SparseObjectives.py:142-150`.  First autograd calls the function with placeholders,
then the parameter is set again. -/
def duringDeriv {β : Type} (o : Objective A) (free : Bool) (x : List ℝ) (a : A)
    (ag : (List ℝ → Py Arr) → Py β) : List (Objective A) :=
  (o.par.during free true x).map (fun p => { o with par := p }) ++
    match ag (valueAt (o.fn a) o.par free) with
    | .error _ => []
    | .ok _ => ((traceSet o.par x free).during free false x).map fun p => { o with par := p }

/-- The states during `fun_free_grad`: `SparseObjectives.py:152-154`. -/
def duringGrad (o : Objective A) (x : List ℝ) (a : A) : List (Objective A) :=
  o.duringDeriv true x a fun F => agGrad F x

/-- The states during `fun_free_hvp`: `SparseObjectives.py:183-187`. -/
def duringHvp (o : Objective A) (x : List ℝ) (a : A) (vec : List ℝ) : List (Objective A) :=
  o.duringDeriv true x a fun F => agHvp F x vec

/-- The states during `fun_free_cond`: `SparseObjectives.py:207-210`. -/
def duringFunFreeCond (o : Objective A) (x : List ℝ) (a : A) (verbose : Bool) : List (Objective A) :=
  o :: match o.precond with
  | none => []
  | some P =>
    match conditionedX P x with
    | .error _ => []
    | .ok y => o.duringFunFree y a verbose

/-- The states during `fun_free_grad_cond`: `SparseObjectives.py:212-216`. -/
def duringGradCond (o : Objective A) (x : List ℝ) (a : A) : List (Objective A) :=
  o :: match o.precond with
  | none => []
  | some P =>
    match conditionedX P x with
    | .error _ => []
    | .ok y => o.duringGrad y a

/-- The states during `fun_free_hvp_cond`: `SparseObjectives.py:226-235`. -/
def duringHvpCond (o : Objective A) (x : List ℝ) (a : A) (vec : List ℝ) : List (Objective A) :=
  o :: match o.precond with
  | none => []
  | some P =>
    match conditionedX P x with
    | .error _ => []
    | .ok y =>
      match P.mulVec vec with
      | .error _ => []
      | .ok pv => o.duringHvp y a pv

end Objective

/-- `s` is a state of the objective during `scipy.optimize.minimize`: the first three functions are the calls, the
others list the states during these calls. -/
def Optimizer.During (fn : Objective Unit → List ℝ → Objective Unit × Py Arr)
    (jac : Objective Unit → List ℝ → Objective Unit × Py (List ℝ))
    (hessp : Option (Objective Unit → List ℝ → List ℝ → Objective Unit × Py (List ℝ)))
    (fnD jacD : Objective Unit → List ℝ → List (Objective Unit))
    (hesspD : Objective Unit → List ℝ → List ℝ → List (Objective Unit)) (s : Objective Unit) :
    Optimizer → Objective Unit → Prop
  | .done _, o => s = o
  | .fail _, o => s = o
  | .value x k, o => s ∈ fnD o x ∨ ∃ v, (fn o x).2 = .ok v ∧ (k v).During fn jac hessp fnD jacD hesspD s (fn o x).1
  | .grad x k, o => s ∈ jacD o x ∨ ∃ g, (jac o x).2 = .ok g ∧ (k g).During fn jac hessp fnD jacD hesspD s (jac o x).1
  | .hvp x v k, o => s = o ∨ ∃ h, hessp = some h ∧ (s ∈ hesspD o x v ∨
      ∃ w, (h o x v).2 = .ok w ∧ (k w).During fn jac hessp fnD jacD hesspD s (h o x v).1)

/-- `s` is a state of the objective during `minimize_objective_trust_ncg` (`useHvp = true`,
`OptimizationUtils.py:44-75`) or `minimize_objective_bfgs` (`useHvp = false`, `OptimizationUtils.py:78-108`). -/
def DuringMinimize (useHvp : Bool) (opt : List ℝ → Optimizer) (o : Objective Unit) (initX : List ℝ)
    (precondition disp : Bool) (printEvery : Option ℕ) (initLogger : Bool) (s : Objective Unit) : Prop :=
  let o1 := if initLogger then { o with logger := o.logger.reset } else o
  let o2 := match printEvery with
    | none => o1
    | some k => { o1 with logger := { o1.logger with printEvery := k } }
  s = o ∨ (initLogger = true ∧ ∃ l ∈ o.logger.duringReset, s = { o with logger := l }) ∨ s = o1 ∨ s = o2 ∨
  if precondition then
    ∃ P x0, o2.precond = some P ∧ npSolve P initX = .ok x0 ∧
      (opt x0).During (fun o x => o.funFreeCond x () disp) (fun o x => o.funFreeGradCond x ())
        (if useHvp then some fun o x v => o.funFreeHvpCond x () v else none)
        (fun o x => o.duringFunFreeCond x () disp) (fun o x => o.duringGradCond x ())
        (fun o x v => o.duringHvpCond x () v) s o2
  else
    (opt initX).During (fun o x => o.funFree x () disp) (fun o x => o.funFreeGrad x ())
      (if useHvp then some fun o x v => o.funFreeHvp x () v else none)
      (fun o x => o.duringFunFree x () disp) (fun o x => o.duringGrad x ()) (fun o x v => o.duringHvp x () v) s o2

end

end LRVB
