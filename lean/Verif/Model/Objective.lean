import Verif.Model.Dict
import Verif.Model.LinAlg

/-!
# Objectives — `SparseObjectives.py:48-450`

A user function bound to a parameter is a function of the parameter's current value; it may raise
and it does not change the parameter.  Extra arguments `*argv, **argk` are passed through as one
value of a type `A`.

While autograd differentiates, the parameter is set to differentiation placeholders (`ArrayBox`).
They carry the same numbers, so the user function computes the same value from them.
-/

namespace LRVB

open Classical

noncomputable section

/-! ### autograd -/

/-- The number stored at position `k` of a returned array (0 when the call raises). -/
def entryA (k : ℕ) : Py Arr → ℝ
  | .ok v => v.data.getD k 0
  | .error _ => 0

/-- The partial derivative in entry `j` of a real function of a vector. -/
def pd (h : List ℝ → ℝ) (x : List ℝ) (j : ℕ) : ℝ := deriv (fun s => h (x.set j s)) (x.getD j 0)

/-- `autograd.grad(F)(x)`: only for functions that return one number. -/
def agGrad (F : List ℝ → Py Arr) (x : List ℝ) : Py (List ℝ) := do
  let v ← F x
  if v.size ≠ 1 then .error .typeError
  else .ok ((List.range x.length).map fun j => pd (fun y => entryA 0 (F y)) x j)

/-- `autograd.jacobian(F)(x)`: the derivatives in a new last axis.  autograd stacks one gradient
for each output, and `np.stack` of nothing raises. -/
def agJac (F : List ℝ → Py Arr) (x : List ℝ) : Py Arr := do
  let v ← F x
  if v.size = 0 then .error .valueError
  else .ok ⟨v.shape ++ [x.length], (List.range v.size).flatMap fun k =>
    (List.range x.length).map fun j => pd (fun y => entryA k (F y)) x j⟩

/-- `autograd.hessian(F)(x) = jacobian(jacobian(F))(x)`. -/
def agHess (F : List ℝ → Py Arr) (x : List ℝ) : Py Arr := do
  let v ← F x
  if v.size = 0 ∨ x.length = 0 then .error .valueError
  else .ok ⟨v.shape ++ [x.length, x.length], (List.range v.size).flatMap fun k =>
    (List.range x.length).flatMap fun i => (List.range x.length).map fun j =>
      pd (fun y => pd (fun z => entryA k (F z)) y i) x j⟩

/-- `autograd.hessian_vector_product(F)(x, vec)`: the gradient of `x ↦ ⟨grad F(x), vec⟩`. -/
def agHvp (F : List ℝ → Py Arr) (x vec : List ℝ) : Py (List ℝ) := do
  let v ← F x
  if v.size ≠ 1 then .error .typeError
  else if vec.length ≠ x.length then .error .valueError
  else .ok ((List.range x.length).map fun j =>
    pd (fun y => ∑ i ∈ Finset.range x.length, pd (fun z => entryA 0 (F z)) y i * vec.getD i 0) x j)

/-! ### Placeholders -/

mutual
/-- The parameter with every held value replaced by a placeholder (`b = true`), or by the number it
stands for (`b = false`). -/
def Param.mark (b : Bool) : Param → Param
  | .leaf l => .leaf { l with boxed := b }
  | .dict h es => .dict h (es.mark b)
/-- ... of all entries. -/
def Entries.mark (b : Bool) : Entries → Entries
  | .nil => .nil
  | .cons k p rest => .cons k (p.mark b) (rest.mark b)
end

mutual
/-- Some held value is a differentiation placeholder.  `get_vector()` (`np.hstack` of autograd) then returns
a placeholder: `ParameterDictionary.py:114`. -/
def Param.hasBox : Param → Bool
  | .leaf l => l.boxed
  | .dict _ es => es.hasBox
/-- The same for the entries. -/
def Entries.hasBox : Entries → Bool
  | .nil => false
  | .cons _ p rest => p.hasBox || rest.hasBox
end

/-- `set_par(par, val, is_free)`: `SparseObjectives.py:312-316`, `ModelSensitivity.py:13-17`. -/
def setPar (p : Param) (x : List ℝ) (free : Bool) : Param × Option PyErr :=
  if free then p.setFree x else p.setVector x

/-- `set_par` with a placeholder for `x`.  When it raises, the parameter is left as `set_par`
leaves it (for the objects that can be built, set_free raises before anything is changed). -/
def traceSet (p : Param) (x : List ℝ) (free : Bool) : Param :=
  let r := setPar p x free
  match r.2 with
  | some _ => r.1
  | none => r.1.mark true

/-- The value of a user function at a point: what a traced evaluation computes. -/
def valueAt (f : Param → Py Arr) (p : Param) (free : Bool) (x : List ℝ) : Py Arr :=
  let r := setPar p x free
  match r.2 with
  | some e => .error e
  | none => f (r.1.mark false)

/-! ### Logger — `SparseObjectives.py:48-87` -/

/-- A `Logger`.  `reports` is the list of values of `iter` at which `print_message` or the callback
was called; it is not an attribute of the Python object.  What a callback does is not modelled. -/
structure Logger (V : Type) where
  printEvery : ℕ
  callback : Option String
  iter : ℕ
  lastX : Option (List ℝ)
  x : Option (List ℝ)
  value : Option V
  lastValue : Option V
  xArray : List (List ℝ)
  valArray : List V
  reports : List ℕ

namespace Logger

variable {V : Type}

/-- `initialize()`: `SparseObjectives.py:55-62`. -/
def reset (l : Logger V) : Logger V :=
  { l with iter := 0, lastX := none, x := none, value := none, lastValue := none,
           xArray := [], valArray := [] }

/-- `Logger(print_every)`: `SparseObjectives.py:49-53`. -/
def new (printEvery : ℕ) : Logger V :=
  reset ⟨printEvery, none, 0, none, none, none, none, [], [], []⟩

/-- The computation `np.max(np.abs(x - last_x))` succeeds: the lengths can be broadcast and the
result is not empty. -/
def diffOk (x lx : List ℝ) : Prop :=
  (x.length = lx.length ∨ x.length = 1 ∨ lx.length = 1) ∧ x ≠ [] ∧ lx ≠ []

/-- `log(value, x)`: `SparseObjectives.py:67-87`. -/
def log (l : Logger V) (value : V) (x : List ℝ) : Logger V × Option PyErr :=
  let l1 := { l with value := some value, x := some x, xArray := l.xArray ++ [x],
                     valArray := l.valArray ++ [value] }
  if ∃ lx, l1.lastX = some lx ∧ ¬ diffOk x lx then (l1, some .valueError)
  else
    let l2 := { l1 with lastX := some x, lastValue := some value }
    if l2.printEvery = 0 then (l2, some .zeroDivision)
    else
      let l3 := if l2.iter % l2.printEvery = 0 then { l2 with reports := l2.reports ++ [l2.iter] }
        else l2
      ({ l3 with iter := l3.iter + 1 }, none)

end Logger

/-! ### Objective — `SparseObjectives.py:95-240` -/

/-- An `Objective`.  A sparse preconditioner is modelled by its dense form. -/
structure Objective (A : Type) where
  par : Param
  fn : A → Param → Py Arr
  precond : Option Arr
  logger : Logger Arr

/-- `cache_free_and_eval` and `cache_vector_and_eval` (`SparseObjectives.py:142-150`) on the
parameter: `ag` is the outcome of the autograd function, which traced the parameter. -/
def cacheAndEval {β : Type} (p : Param) (free : Bool) (x : List ℝ) (ag : Py β) : Param × Py β :=
  let p1 := traceSet p x free
  match ag with
  | .error e => (p1, .error e)
  | .ok v =>
    let r := setPar p1 x free
    match r.2 with
    | some e => (r.1, .error e)
    | none => (r.1, .ok v)

namespace Objective

variable {A : Type}

/-- `Objective(par, fun)`: `SparseObjectives.py:96-116`. -/
def new (par : Param) (fn : A → Param → Py Arr) : Objective A := ⟨par, fn, none, Logger.new 1⟩

/-- `fun_free(free_val, *argv, verbose)`: `SparseObjectives.py:120-125`. -/
def funFree (o : Objective A) (x : List ℝ) (a : A) (verbose : Bool) : Objective A × Py Arr :=
  let r := o.par.setFree x
  match r.2 with
  | some e => ({ o with par := r.1 }, .error e)
  | none =>
    match o.fn a (r.1.mark false) with
    | .error e => ({ o with par := r.1 }, .error e)
    | .ok v =>
      if verbose then
        let q := o.logger.log v x
        ({ o with par := r.1, logger := q.1 },
          match q.2 with
          | some e => .error e
          | none => .ok v)
      else ({ o with par := r.1 }, .ok v)

/-- `fun_vector(vec_val)`: `SparseObjectives.py:127-129`. -/
def funVector (o : Objective A) (x : List ℝ) (a : A) : Objective A × Py Arr :=
  let r := o.par.setVector x
  match r.2 with
  | some e => ({ o with par := r.1 }, .error e)
  | none => ({ o with par := r.1 }, o.fn a (r.1.mark false))

/-- A derivative method: run `ag` on the traced function, then `cache_..._and_eval`. -/
def deriv {β : Type} (o : Objective A) (free : Bool) (x : List ℝ) (a : A)
    (ag : (List ℝ → Py Arr) → Py β) : Objective A × Py β :=
  let r := cacheAndEval o.par free x (ag (valueAt (o.fn a) o.par free))
  ({ o with par := r.1 }, r.2)

/-- `fun_free_grad`: `SparseObjectives.py:152-154`. -/
def funFreeGrad (o : Objective A) (x : List ℝ) (a : A) : Objective A × Py (List ℝ) :=
  o.deriv true x a fun F => agGrad F x

/-- `fun_free_hessian`: `SparseObjectives.py:156-158`. -/
def funFreeHessian (o : Objective A) (x : List ℝ) (a : A) : Objective A × Py Arr :=
  o.deriv true x a fun F => agHess F x

/-- `fun_free_jacobian`: `SparseObjectives.py:160-162`. -/
def funFreeJacobian (o : Objective A) (x : List ℝ) (a : A) : Objective A × Py Arr :=
  o.deriv true x a fun F => agJac F x

/-- `fun_vector_grad`: `SparseObjectives.py:164-166`. -/
def funVectorGrad (o : Objective A) (x : List ℝ) (a : A) : Objective A × Py (List ℝ) :=
  o.deriv false x a fun F => agGrad F x

/-- `fun_vector_hessian`: `SparseObjectives.py:168-170`. -/
def funVectorHessian (o : Objective A) (x : List ℝ) (a : A) : Objective A × Py Arr :=
  o.deriv false x a fun F => agHess F x

/-- `fun_vector_jacobian`: `SparseObjectives.py:172-174`. -/
def funVectorJacobian (o : Objective A) (x : List ℝ) (a : A) : Objective A × Py Arr :=
  o.deriv false x a fun F => agJac F x

/-- `fun_free_hvp(x, *argv, vec)`: `SparseObjectives.py:183-187`. -/
def funFreeHvp (o : Objective A) (x : List ℝ) (a : A) (vec : List ℝ) : Objective A × Py (List ℝ) :=
  o.deriv true x a fun F => agHvp F x vec

/-- `fun_vector_hvp(x, *argv, vec)`: `SparseObjectives.py:189-193`. -/
def funVectorHvp (o : Objective A) (x : List ℝ) (a : A) (vec : List ℝ) :
    Objective A × Py (List ℝ) :=
  o.deriv false x a fun F => agHvp F x vec

/-- `get_conditioned_x(free_val)`: `SparseObjectives.py:202-203`. -/
def conditionedX (P : Arr) (x : List ℝ) : Py (List ℝ) := P.mulVec x

/-- `fun_free_cond`: `SparseObjectives.py:207-210`. -/
def funFreeCond (o : Objective A) (x : List ℝ) (a : A) (verbose : Bool) : Objective A × Py Arr :=
  match o.precond with
  | none => (o, .error .assertionError)
  | some P =>
    match conditionedX P x with
    | .error e => (o, .error e)
    | .ok y => o.funFree y a verbose

/-- `fun_free_grad_cond`: `SparseObjectives.py:212-216`. -/
def funFreeGradCond (o : Objective A) (x : List ℝ) (a : A) : Objective A × Py (List ℝ) :=
  match o.precond with
  | none => (o, .error .assertionError)
  | some P =>
    match conditionedX P x with
    | .error e => (o, .error e)
    | .ok y =>
      let r := o.funFreeGrad y a
      (r.1, do P.transpose.mulVec (← r.2))

/-- `fun_free_hessian_cond`: `SparseObjectives.py:218-223`. -/
def funFreeHessianCond (o : Objective A) (x : List ℝ) (a : A) : Objective A × Py Arr :=
  match o.precond with
  | none => (o, .error .assertionError)
  | some P =>
    match conditionedX P x with
    | .error e => (o, .error e)
    | .ok y =>
      let r := o.funFreeHessian y a
      (r.1, do P.transpose.matmul (← (← r.2).matmul P))

/-- `fun_free_hvp_cond`: `SparseObjectives.py:226-235`. -/
def funFreeHvpCond (o : Objective A) (x : List ℝ) (a : A) (vec : List ℝ) :
    Objective A × Py (List ℝ) :=
  match o.precond with
  | none => (o, .error .assertionError)
  | some P =>
    match conditionedX P x with
    | .error e => (o, .error e)
    | .ok y =>
      match P.mulVec vec with
      | .error e => (o, .error e)
      | .ok pv =>
        let r := o.funFreeHvp y a pv
        (r.1, do P.transpose.mulVec (← r.2))

/-- `uncondition_x(cond_x)`: `SparseObjectives.py:239-240`.  Without a preconditioner
`np.matmul(None, x)` raises. -/
def unconditionX (o : Objective A) (x : List ℝ) : Py (List ℝ) :=
  match o.precond with
  | none => .error .typeError
  | some P => P.mulVec x

end Objective

/-! ### ParameterConverter — `SparseObjectives.py:245-308` -/

/-- A `ParameterConverter`.  The converter reads the input parameter and changes the output
parameter; it may raise, possibly with the output parameter already changed. -/
structure Converter where
  parIn : Param
  parOut : Param
  conv : Param → Param → Param × Option PyErr

namespace Converter

/-- The read-out of the output parameter: `get_free()` or `get_vector()`. -/
def readOut (q : Param) (free : Bool) : Py (List ℝ) := if free then q.getFree else q.getVector

/-- `converter_free_to_vec`, `converter_free_to_free`, `converter_vec_to_vec` and
`converter_vec_to_free`: `SparseObjectives.py:260-278`. -/
def convert (c : Converter) (freeIn freeOut : Bool) (x : List ℝ) : Converter × Py (List ℝ) :=
  let r := setPar c.parIn x freeIn
  match r.2 with
  | some e => ({ c with parIn := r.1 }, .error e)
  | none =>
    let q := c.conv (r.1.mark false) c.parOut
    match q.2 with
    | some e => ({ c with parIn := r.1, parOut := q.1 }, .error e)
    | none => ({ c with parIn := r.1, parOut := q.1 }, readOut q.1 freeOut)

/-- The conversion as a function of the input vector, returning a 1-d array. -/
def valueAt (c : Converter) (freeIn freeOut : Bool) (x : List ℝ) : Py Arr :=
  Arr.vec <$> (c.convert freeIn freeOut x).2

/-- The two parameters after a traced evaluation: placeholders in both (the output parameter is
taken to be traced as soon as the converter was called, also when it raised). -/
def trace (c : Converter) (freeIn freeOut : Bool) (x : List ℝ) : Converter :=
  let r := setPar c.parIn x freeIn
  let c' := (c.convert freeIn freeOut x).1
  match r.2 with
  | some _ => c'
  | none => { c' with parIn := c'.parIn.mark true, parOut := c'.parOut.mark true }

/-- The four Jacobian methods with `cache_free_and_eval` and `cache_vector_and_eval`:
`SparseObjectives.py:280-308`.  If the output parameter held a placeholder before, `vec_val_out` is a
placeholder, and is put back as one. -/
def jacobian (c : Converter) (freeIn freeOut : Bool) (x : List ℝ) : Converter × Py Arr :=
  match c.parOut.getVector with
  | .error e => (c, .error e)
  | .ok vecOut =>
    let c1 := c.trace freeIn freeOut x
    match agJac (c.valueAt freeIn freeOut) x with
    | .error e => (c1, .error e)
    | .ok J =>
      let r := setPar c1.parIn x freeIn
      match r.2 with
      | some e => ({ c1 with parIn := r.1 }, .error e)
      | none =>
        let q := c1.parOut.setVector vecOut
        ({ c1 with parIn := r.1, parOut := if c.parOut.hasBox then q.1.mark true else q.1 },
          match q.2 with
          | some e => .error e
          | none => .ok J)

end Converter

/-! ### TwoParameterObjective — `SparseObjectives.py:321-449` -/

/-- A `TwoParameterObjective`. -/
structure TwoObjective (A : Type) where
  par1 : Param
  par2 : Param
  fn : A → Param → Param → Py Arr

namespace TwoObjective

variable {A : Type}

/-- `eval_fun`: `SparseObjectives.py:353-359`. -/
def evalFun (o : TwoObjective A) (x1 x2 : List ℝ) (free1 free2 : Bool) (a : A) :
    TwoObjective A × Py Arr :=
  let r1 := setPar o.par1 x1 free1
  match r1.2 with
  | some e => ({ o with par1 := r1.1 }, .error e)
  | none =>
    let r2 := setPar o.par2 x2 free2
    match r2.2 with
    | some e => ({ o with par1 := r1.1, par2 := r2.1 }, .error e)
    | none => ({ o with par1 := r1.1, par2 := r2.1 }, o.fn a (r1.1.mark false) (r2.1.mark false))

/-- The value as a function of the two vectors. -/
def valueAt (o : TwoObjective A) (free1 free2 : Bool) (a : A) (x1 x2 : List ℝ) : Py Arr :=
  (o.evalFun x1 x2 free1 free2 a).2

/-- `fun_free(free_val1, free_val2)`: `SparseObjectives.py:361-365`. -/
def funFree (o : TwoObjective A) (x1 x2 : List ℝ) (a : A) : TwoObjective A × Py Arr :=
  o.evalFun x1 x2 true true a

/-- `fun_vector(vec_val1, vec_val2)`: `SparseObjectives.py:367-371`. -/
def funVector (o : TwoObjective A) (x1 x2 : List ℝ) (a : A) : TwoObjective A × Py Arr :=
  o.evalFun x1 x2 false false a

/-- The two parameters after a traced evaluation; `t1` and `t2` say which of the arguments are
placeholders. -/
def trace (o : TwoObjective A) (x1 x2 : List ℝ) (free1 free2 t1 t2 : Bool) : TwoObjective A :=
  let r1 := setPar o.par1 x1 free1
  match r1.2 with
  | some _ => { o with par1 := r1.1 }
  | none =>
    let r2 := setPar o.par2 x2 free2
    match r2.2 with
    | some _ => { o with par1 := if t1 then r1.1.mark true else r1.1, par2 := r2.1 }
    | none => { o with par1 := if t1 then r1.1.mark true else r1.1,
                       par2 := if t2 then r2.1.mark true else r2.1 }

/-- `cache_and_eval`: `SparseObjectives.py:341-351`. -/
def cacheAndEval {β : Type} (o : TwoObjective A) (x1 x2 : List ℝ) (free1 free2 t1 t2 : Bool)
    (ag : Py β) : TwoObjective A × Py β :=
  let o1 := o.trace x1 x2 free1 free2 t1 t2
  match ag with
  | .error e => (o1, .error e)
  | .ok v =>
    let r1 := setPar o1.par1 x1 free1
    match r1.2 with
    | some e => ({ o1 with par1 := r1.1 }, .error e)
    | none =>
      let r2 := setPar o1.par2 x2 free2
      ({ o1 with par1 := r1.1, par2 := r2.1 },
        match r2.2 with
        | some e => .error e
        | none => .ok v)

/-- `autograd.grad(eval_fun, argnum=0)`: `SparseObjectives.py:333`. -/
def agGrad1 (F : List ℝ → List ℝ → Py Arr) (x1 x2 : List ℝ) : Py (List ℝ) :=
  agGrad (fun y => F y x2) x1

/-- `autograd.grad(eval_fun, argnum=1)`: `SparseObjectives.py:334`. -/
def agGrad2 (F : List ℝ → List ℝ → Py Arr) (x1 x2 : List ℝ) : Py (List ℝ) :=
  agGrad (fun y => F x1 y) x2

/-- `autograd.jacobian(_fun_grad1, argnum=1)`: `SparseObjectives.py:336-337`. -/
def agHessian12 (F : List ℝ → List ℝ → Py Arr) (x1 x2 : List ℝ) : Py Arr :=
  agJac (fun y2 => Arr.vec <$> agGrad1 F x1 y2) x2

/-- `autograd.jacobian(_fun_grad2, argnum=0)`: `SparseObjectives.py:338-339`. -/
def agHessian21 (F : List ℝ → List ℝ → Py Arr) (x1 x2 : List ℝ) : Py Arr :=
  agJac (fun y1 => Arr.vec <$> agGrad2 F y1 x2) x1

/-- `fun_grad1`: `SparseObjectives.py:373-379`. -/
def funGrad1 (o : TwoObjective A) (x1 x2 : List ℝ) (free1 free2 : Bool) (a : A) :
    TwoObjective A × Py (List ℝ) :=
  o.cacheAndEval x1 x2 free1 free2 true false (agGrad1 (o.valueAt free1 free2 a) x1 x2)

/-- `fun_grad2`: `SparseObjectives.py:381-387`. -/
def funGrad2 (o : TwoObjective A) (x1 x2 : List ℝ) (free1 free2 : Bool) (a : A) :
    TwoObjective A × Py (List ℝ) :=
  o.cacheAndEval x1 x2 free1 free2 false true (agGrad2 (o.valueAt free1 free2 a) x1 x2)

/-- The common body of the methods built on `_fun_hessian12`. -/
def hessian12 (o : TwoObjective A) (x1 x2 : List ℝ) (free1 free2 : Bool) (a : A) :
    TwoObjective A × Py Arr :=
  o.cacheAndEval x1 x2 free1 free2 true true (agHessian12 (o.valueAt free1 free2 a) x1 x2)

/-- The common body of the methods built on `_fun_hessian21`. -/
def hessian21 (o : TwoObjective A) (x1 x2 : List ℝ) (free1 free2 : Bool) (a : A) :
    TwoObjective A × Py Arr :=
  o.cacheAndEval x1 x2 free1 free2 true true (agHessian21 (o.valueAt free1 free2 a) x1 x2)

/-- `fun_free_hessian12`: `SparseObjectives.py:389-394`. -/
def funFreeHessian12 (o : TwoObjective A) (x1 x2 : List ℝ) (a : A) := o.hessian12 x1 x2 true true a

/-- `fun_free_hessian21`: `SparseObjectives.py:396-405`. -/
def funFreeHessian21 (o : TwoObjective A) (x1 x2 : List ℝ) (a : A) := o.hessian21 x1 x2 true true a

/-- `fun_vector_hessian12`: `SparseObjectives.py:407-416`. -/
def funVectorHessian12 (o : TwoObjective A) (x1 x2 : List ℝ) (a : A) :=
  o.hessian12 x1 x2 false false a

/-- `fun_vector_hessian21`: `SparseObjectives.py:418-427`. -/
def funVectorHessian21 (o : TwoObjective A) (x1 x2 : List ℝ) (a : A) :=
  o.hessian21 x1 x2 false false a

/-- `fun_hessian_free1_vector2`: `SparseObjectives.py:429-438`. -/
def funHessianFree1Vector2 (o : TwoObjective A) (x1 x2 : List ℝ) (a : A) :=
  o.hessian12 x1 x2 true false a

/-- `fun_hessian_vector1_free2`: `SparseObjectives.py:440-449`. -/
def funHessianVector1Free2 (o : TwoObjective A) (x1 x2 : List ℝ) (a : A) :=
  o.hessian12 x1 x2 false true a

end TwoObjective

end

end LRVB
