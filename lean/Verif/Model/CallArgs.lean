import Verif.Model.Objective

/-!
# Positional and keyword arguments — `SparseObjectives.py:95-235, 321-449`

The methods of `Objective` and `TwoParameterObjective` again, now with the arguments as Python passes them: a
list of positional and a list of keyword arguments.  What a method does once the arguments are sorted out is
in `Verif.Model.Objective`.
-/

namespace LRVB

open Classical

noncomputable section

/-- A Python value: a numeric vector, a truth value, a function made by autograd, or anything else. -/
inductive ArgVal (V : Type)
  | arr (x : List ℝ)
  | flag (b : Bool)
  | autogradFun
  | obj (v : V)

/-- The arguments of a call. -/
structure CallArgs (V : Type) where
  pos : List (ArgVal V)
  kw : List (String × ArgVal V)

variable {V : Type}

/-- `bool(v)`.  Objects without `__bool__` are true; so are functions. -/
def ArgVal.truth : ArgVal V → Py Bool
  | .arr [] => .ok false
  | .arr [x] => .ok (x ≠ 0)
  | .arr _ => .error .valueError
  | .flag b => .ok b
  | _ => .ok true

/-- The result of binding the arguments of a call to `def f(names, *argv, kwOnly, **argk)`. -/
structure Bound (V : Type) where
  named : List (ArgVal V)
  kwOnly : List (Option (ArgVal V))
  rest : CallArgs V

/-- Python's binding of arguments to `def f(names, *argv, kwOnly, **argk)`, where all keyword-only parameters
have defaults: positional arguments fill the names in order and then `argv`; a keyword for a name that is
already filled, and a name that is not filled, raise `TypeError`. -/
def bindCall (names kwOnly : List String) (c : CallArgs V) : Py (Bound V) :=
  if ∃ k ∈ names.take c.pos.length, k ∈ c.kw.map Prod.fst then .error .typeError
  else
    match (names.drop c.pos.length).mapM fun k => c.kw.lookup k with
    | none => .error .typeError
    | some vs => .ok ⟨c.pos.take names.length ++ vs, kwOnly.map fun k => c.kw.lookup k,
        ⟨c.pos.drop names.length, c.kw.filter fun p => p.1 ∉ names ∧ p.1 ∉ kwOnly⟩⟩

/-- The same for a method, whose first parameter `self` is filled by the object. -/
def bindMethod (names kwOnly : List String) (c : CallArgs V) : Py (Bound V) :=
  if "self" ∈ c.kw.map Prod.fst then .error .typeError else bindCall names kwOnly c

namespace Objective

/-- `fun_free(self, free_val, *argv, verbose=False, **argk)`: `SparseObjectives.py:120-125`.  The test of
`verbose` is after the evaluation. -/
def callFree (o : Objective (CallArgs V)) (c : CallArgs V) : Objective (CallArgs V) × Py Arr :=
  match bindMethod ["free_val"] ["verbose"] c with
  | .error e => (o, .error e)
  | .ok ⟨[.arr x], [verbose], a⟩ =>
    match (verbose.getD (.flag false)).truth with
    | .ok b => o.funFree x a b
    | .error e =>
      let r := o.funFree x a false
      (r.1, do let _ ← r.2; .error e)
  | .ok _ => (o, .error .unmodelled)

/-- `fun_vector(self, vec_val, *argv, **argk)`: `SparseObjectives.py:127-129`. -/
def callVector (o : Objective (CallArgs V)) (c : CallArgs V) : Objective (CallArgs V) × Py Arr :=
  match bindMethod ["vec_val"] [] c with
  | .error e => (o, .error e)
  | .ok ⟨[.arr x], _, a⟩ => o.funVector x a
  | .ok _ => (o, .error .unmodelled)

/-- The arguments that reach the user function when autograd traces `fun_free` or `fun_vector`:
`SparseObjectives.py:120-129`.  What `verbose=True` does then is in `Verif.Model.Verbose`. -/
def tracedArgs (free : Bool) (c : CallArgs V) : Py (CallArgs V) :=
  if free then
    match bindMethod ["free_val"] ["verbose"] c with
    | .error e => .error e
    | .ok ⟨_, [verbose], a⟩ =>
      match (verbose.getD (.flag false)).truth with
      | .ok false => .ok a
      | _ => .error .unmodelled
    | .ok _ => .error .unmodelled
  else
    match bindMethod ["vec_val"] [] c with
    | .error e => .error e
    | .ok b => .ok b.rest

/-- The name of the first parameter: `SparseObjectives.py:142,147`. -/
def firstName (free : Bool) : String := if free then "free_val" else "vec_val"

/-- `cache_free_and_eval(self, autograd_fun, free_val, *argv, **argk)` and `cache_vector_and_eval`, with
autograd's function of `*args, **kwargs`: `SparseObjectives.py:142-150`.  An error in the binding of the
traced call is raised before the parameter is changed. -/
def callCache (o : Objective (CallArgs V)) (free : Bool) (ag : List ℝ → (List ℝ → Py Arr) → Py Arr)
    (c : CallArgs V) : Objective (CallArgs V) × Py Arr :=
  match bindMethod ["autograd_fun", firstName free] [] c with
  | .error e => (o, .error e)
  | .ok ⟨[_, .arr x], _, a⟩ =>
    match tracedArgs free ⟨.arr x :: a.pos, a.kw⟩ with
    | .error e => (o, .error e)
    | .ok a' => o.deriv free x a' (ag x)
  | .ok _ => (o, .error .unmodelled)

/-- `fun_free_grad`, `fun_free_hessian`, `fun_free_jacobian` and the same for vectors, with the signature
`(self, free_val, *argv, **argk)`: `SparseObjectives.py:152-174`. -/
def callDeriv (o : Objective (CallArgs V)) (free : Bool) (ag : List ℝ → (List ℝ → Py Arr) → Py Arr)
    (c : CallArgs V) : Objective (CallArgs V) × Py Arr :=
  match bindMethod [firstName free] [] c with
  | .error e => (o, .error e)
  | .ok b => o.callCache free ag ⟨.autogradFun :: (b.named ++ b.rest.pos), b.rest.kw⟩

/-- `fun_free_hvp(self, *argv, **argk)` and `fun_vector_hvp`: `SparseObjectives.py:183-193`.  autograd's
function takes the last positional argument as the vector and the first as the point, and passes the ones
between on. -/
def callHvp (o : Objective (CallArgs V)) (free : Bool) (c : CallArgs V) :
    Objective (CallArgs V) × Py Arr :=
  match bindMethod [] [] c with
  | .error e => (o, .error e)
  | .ok b =>
    match b.rest.pos.getLast? with
    | none => (o, .error .indexError)
    | some vec =>
      match b.rest.pos.dropLast, vec with
      | [], _ => (o, .error .indexError)
      | .arr x :: args, .arr v =>
        match tracedArgs free ⟨.arr x :: args, b.rest.kw⟩ with
        | .error e => (o, .error e)
        | .ok a => o.deriv free x a fun F => Arr.vec <$> agHvp F x v
      | _, _ => (o, .error .unmodelled)

/-- `fun_free_cond(self, free_val, *argv, verbose=False, **argk)`: `SparseObjectives.py:207-210`. -/
def callFreeCond (o : Objective (CallArgs V)) (c : CallArgs V) : Objective (CallArgs V) × Py Arr :=
  match bindMethod ["free_val"] ["verbose"] c with
  | .error e => (o, .error e)
  | .ok ⟨[.arr x], [verbose], a⟩ =>
    match o.precond with
    | none => (o, .error .assertionError)
    | some P =>
      match conditionedX P x with
      | .error e => (o, .error e)
      | .ok y => o.callFree ⟨.arr y :: a.pos, ("verbose", verbose.getD (.flag false)) :: a.kw⟩
  | .ok _ => (o, .error .unmodelled)

/-- `fun_free_grad_cond(self, free_val, *argv, **argk)`: `SparseObjectives.py:212-216`. -/
def callGradCond (o : Objective (CallArgs V)) (c : CallArgs V) : Objective (CallArgs V) × Py Arr :=
  match bindMethod ["free_val"] [] c with
  | .error e => (o, .error e)
  | .ok ⟨[.arr x], _, a⟩ =>
    match o.precond with
    | none => (o, .error .assertionError)
    | some P =>
      match conditionedX P x with
      | .error e => (o, .error e)
      | .ok y =>
        let r := o.callDeriv true (fun y F => Arr.vec <$> agGrad F y) ⟨.arr y :: a.pos, a.kw⟩
        (r.1, do Arr.vec <$> P.transpose.mulVec (← r.2).data)
  | .ok _ => (o, .error .unmodelled)

/-- `fun_free_hessian_cond(self, free_val, *argv, **argk)`: `SparseObjectives.py:218-223`. -/
def callHessianCond (o : Objective (CallArgs V)) (c : CallArgs V) : Objective (CallArgs V) × Py Arr :=
  match bindMethod ["free_val"] [] c with
  | .error e => (o, .error e)
  | .ok ⟨[.arr x], _, a⟩ =>
    match o.precond with
    | none => (o, .error .assertionError)
    | some P =>
      match conditionedX P x with
      | .error e => (o, .error e)
      | .ok y =>
        let r := o.callDeriv true (fun y F => agHess F y) ⟨.arr y :: a.pos, a.kw⟩
        (r.1, do P.transpose.matmul (← (← r.2).matmul P))
  | .ok _ => (o, .error .unmodelled)

/-- `fun_free_hvp_cond(self, *argv, **argk)`: `SparseObjectives.py:226-235`. -/
def callHvpCond (o : Objective (CallArgs V)) (c : CallArgs V) : Objective (CallArgs V) × Py Arr :=
  match bindMethod [] [] c with
  | .error e => (o, .error e)
  | .ok b =>
    match o.precond with
    | none => (o, .error .assertionError)
    | some P =>
      match b.rest.pos.head?, b.rest.pos.getLast? with
      | some (.arr x), some (.arr v) =>
        match conditionedX P x with
        | .error e => (o, .error e)
        | .ok y =>
          match P.mulVec v with
          | .error e => (o, .error e)
          | .ok pv =>
            let r := o.callHvp true ⟨.arr y :: (b.rest.pos.drop 1).dropLast ++ [.arr pv], b.rest.kw⟩
            (r.1, do Arr.vec <$> P.transpose.mulVec (← r.2).data)
      | none, _ => (o, .error .indexError)
      | _, _ => (o, .error .unmodelled)

end Objective

/-- The methods of an `Objective`. -/
inductive ObjMethod
  | funFree
  | funVector
  | grad (free : Bool)
  | hessian (free : Bool)
  | jacobian (free : Bool)
  | hvp (free : Bool)
  | freeCond
  | gradCond
  | hessianCond
  | hvpCond

/-- Call a method with the given arguments; results that are vectors are one-dimensional arrays. -/
def Objective.call (o : Objective (CallArgs V)) (m : ObjMethod) (c : CallArgs V) :
    Objective (CallArgs V) × Py Arr :=
  match m with
  | .funFree => o.callFree c
  | .funVector => o.callVector c
  | .grad free => o.callDeriv free (fun y F => Arr.vec <$> agGrad F y) c
  | .hessian free => o.callDeriv free (fun y F => agHess F y) c
  | .jacobian free => o.callDeriv free (fun y F => agJac F y) c
  | .hvp free => o.callHvp free c
  | .freeCond => o.callFreeCond c
  | .gradCond => o.callGradCond c
  | .hessianCond => o.callHessianCond c
  | .hvpCond => o.callHvpCond c

namespace TwoObjective

/-- `eval_fun(self, val1, val2, val1_is_free, val2_is_free, *argv, **argk)`: `SparseObjectives.py:353-359`. -/
def callEval (o : TwoObjective (CallArgs V)) (c : CallArgs V) : TwoObjective (CallArgs V) × Py Arr :=
  match bindMethod ["val1", "val2", "val1_is_free", "val2_is_free"] [] c with
  | .error e => (o, .error e)
  | .ok ⟨[.arr x1, .arr x2, .flag f1, .flag f2], _, a⟩ => o.evalFun x1 x2 f1 f2 a
  | .ok _ => (o, .error .unmodelled)

/-- `cache_and_eval(self, autograd_fun, val1, val2, val1_is_free, val2_is_free, *argv, **argk)`:
`SparseObjectives.py:341-351`; `t1` and `t2` say which arguments autograd traces. -/
def callCache (o : TwoObjective (CallArgs V)) (t1 t2 : Bool)
    (ag : (List ℝ → List ℝ → Py Arr) → List ℝ → List ℝ → Py Arr) (c : CallArgs V) :
    TwoObjective (CallArgs V) × Py Arr :=
  match bindMethod ["autograd_fun", "val1", "val2", "val1_is_free", "val2_is_free"] [] c with
  | .error e => (o, .error e)
  | .ok ⟨[_, .arr x1, .arr x2, .flag f1, .flag f2], _, a⟩ =>
    match bindMethod ["val1", "val2", "val1_is_free", "val2_is_free"] []
        ⟨.arr x1 :: .arr x2 :: .flag f1 :: .flag f2 :: a.pos, a.kw⟩ with
    | .error e => (o, .error e)
    | .ok b => o.cacheAndEval x1 x2 f1 f2 t1 t2 (ag (o.valueAt f1 f2 b.rest) x1 x2)
  | .ok _ => (o, .error .unmodelled)

/-- `fun_free(self, free_val1, free_val2, *argv, **argk)` and `fun_vector(self, vec_val1, vec_val2, ...)`:
`SparseObjectives.py:361-371`. -/
def callValue (o : TwoObjective (CallArgs V)) (free : Bool) (c : CallArgs V) :
    TwoObjective (CallArgs V) × Py Arr :=
  match bindMethod (if free then ["free_val1", "free_val2"] else ["vec_val1", "vec_val2"]) [] c with
  | .error e => (o, .error e)
  | .ok b => o.callEval ⟨b.named ++ .flag free :: .flag free :: b.rest.pos, b.rest.kw⟩

/-- `fun_grad1` and `fun_grad2`, with the signature
`(self, val1, val2, val1_is_free, val2_is_free, *argv, **argk)`: `SparseObjectives.py:373-387`. -/
def callGrad (o : TwoObjective (CallArgs V)) (first : Bool) (c : CallArgs V) :
    TwoObjective (CallArgs V) × Py Arr :=
  match bindMethod ["val1", "val2", "val1_is_free", "val2_is_free"] [] c with
  | .error e => (o, .error e)
  | .ok b => o.callCache first (!first)
      (fun F x1 x2 => Arr.vec <$> if first then agGrad1 F x1 x2 else agGrad2 F x1 x2)
      ⟨.autogradFun :: (b.named ++ b.rest.pos), b.rest.kw⟩

/-- The six Hessian methods; `first` for those built on `_fun_hessian12`: `SparseObjectives.py:389-449`. -/
def callHessian (o : TwoObjective (CallArgs V)) (first free1 free2 : Bool) (c : CallArgs V) :
    TwoObjective (CallArgs V) × Py Arr :=
  match bindMethod [if free1 then "free_val1" else "vec_val1", if free2 then "free_val2" else "vec_val2"] []
      c with
  | .error e => (o, .error e)
  | .ok b => o.callCache true true (fun F x1 x2 => if first then agHessian12 F x1 x2 else agHessian21 F x1 x2)
      ⟨.autogradFun :: (b.named ++ .flag free1 :: .flag free2 :: b.rest.pos), b.rest.kw⟩

end TwoObjective

/-- The methods of a `TwoParameterObjective`. -/
inductive TwoMethod
  | value (free : Bool)
  | grad (first free1 free2 : Bool)
  | hessian (first free1 free2 : Bool)

/-- Call a method with the given arguments. -/
def TwoObjective.call (o : TwoObjective (CallArgs V)) (m : TwoMethod) (c : CallArgs V) :
    TwoObjective (CallArgs V) × Py Arr :=
  match m with
  | .value free => o.callValue free c
  | .grad first _ _ => o.callGrad first c
  | .hessian first free1 free2 => o.callHessian first free1 free2 c

end

end LRVB
