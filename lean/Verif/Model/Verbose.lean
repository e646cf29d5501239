import Verif.Model.Objective

/-!
# `verbose=True` in all methods of `Objective` — `SparseObjectives.py:120-235`

The derivative methods hand their keyword arguments on to the function that autograd traces, so a derivative
method of the free functions can be called with `verbose=True`: `fun_free` then logs during the traced
evaluation, and what it logs is a differentiation placeholder.  autograd evaluates the traced function once
in `grad`, `jacobian`, `hessian` and `hessian_vector_product`.
-/

namespace LRVB

open Classical

noncomputable section

/-- An objective, together with what the entries of `logger.x_array` are: numbers (`false`) or
differentiation placeholders (`true`). -/
structure LoggedObjective (A : Type) where
  o : Objective A
  boxed : List Bool

/-- The derivative that is asked for: `SparseObjectives.py:152-162, 183-187`. -/
inductive DerivKind
  | grad
  | hessian
  | jacobian
  | hvp (vec : List ℝ)

/-- The result of the autograd function, flattened to an array. -/
def DerivKind.run (x : List ℝ) : DerivKind → (List ℝ → Py Arr) → Py Arr
  | .grad, F => Arr.vec <$> agGrad F x
  | .hessian, F => agHess F x
  | .jacobian, F => agJac F x
  | .hvp vec, F => Arr.vec <$> agHvp F x vec

/-- A call of a method of an `Objective`. -/
inductive ObjCall (A : Type)
  /-- `fun_free(x, a, verbose)`: `SparseObjectives.py:120-125`. -/
  | value (x : List ℝ) (a : A) (verbose : Bool)
  /-- `fun_vector(x, a)`: `SparseObjectives.py:127-129`. -/
  | vector (x : List ℝ) (a : A)
  /-- `fun_free_grad`, `fun_free_hessian`, `fun_free_jacobian`, `fun_free_hvp` with `verbose`:
  `SparseObjectives.py:152-162, 183-187`. -/
  | deriv (k : DerivKind) (x : List ℝ) (a : A) (verbose : Bool)
  /-- `fun_vector_grad`, `fun_vector_hessian`, `fun_vector_jacobian`, `fun_vector_hvp`, which have no
  `verbose`: `SparseObjectives.py:164-174, 189-193`. -/
  | vectorDeriv (k : DerivKind) (x : List ℝ) (a : A)
  /-- `fun_free_cond(x, a, verbose)`: `SparseObjectives.py:207-210`. -/
  | valueCond (x : List ℝ) (a : A) (verbose : Bool)
  /-- `fun_free_grad_cond`, `fun_free_hessian_cond`, `fun_free_hvp_cond` with `verbose`, up to the products
  with the preconditioner that follow the call: `SparseObjectives.py:212-235`. -/
  | derivCond (k : DerivKind) (x : List ℝ) (a : A) (verbose : Bool)
  /-- `logger.initialize()`: `SparseObjectives.py:55-62`. -/
  | reset

namespace LoggedObjective

variable {A : Type}

/-- `Objective(par, fun)`: `SparseObjectives.py:96-116`. -/
def new (par : Param) (fn : A → Param → Py Arr) : LoggedObjective A := ⟨Objective.new par fn, []⟩

/-- `fun_free(x, a, verbose)`: `SparseObjectives.py:120-125`.  An entry is appended when the logger is
reached, also when the logger raises afterwards. -/
def value (l : LoggedObjective A) (x : List ℝ) (a : A) (verbose : Bool) : LoggedObjective A × Py Arr :=
  let r := l.o.funFree x a verbose
  (⟨r.1, if l.o.logger.xArray.length < r.1.logger.xArray.length then l.boxed ++ [false] else l.boxed⟩, r.2)

/-- A derivative method of the free functions with `verbose`: `SparseObjectives.py:142-162, 183-187`. -/
def deriv (l : LoggedObjective A) (k : DerivKind) (x : List ℝ) (a : A) (verbose : Bool) :
    LoggedObjective A × Py Arr :=
  let r := l.o.deriv true x a (k.run x)
  if verbose = false then (⟨r.1, l.boxed⟩, r.2)
  else
    match valueAt (l.o.fn a) l.o.par true x with
    | .error _ => (⟨r.1, l.boxed⟩, r.2)
    | .ok v =>
      let q := l.o.logger.log v x
      match q.2 with
      | some e => (⟨{ l.o with par := traceSet l.o.par x true, logger := q.1 }, l.boxed ++ [true]⟩, .error e)
      | none => (⟨{ r.1 with logger := q.1 }, l.boxed ++ [true]⟩, r.2)

/-- One call. -/
def call (l : LoggedObjective A) : ObjCall A → LoggedObjective A
  | .value x a verbose => (l.value x a verbose).1
  | .vector x a => ⟨(l.o.funVector x a).1, l.boxed⟩
  | .deriv k x a verbose => (l.deriv k x a verbose).1
  | .vectorDeriv k x a => ⟨(l.o.deriv false x a (k.run x)).1, l.boxed⟩
  | .valueCond x a verbose =>
    match l.o.precond with
    | none => l
    | some P =>
      match Objective.conditionedX P x with
      | .error _ => l
      | .ok y => (l.value y a verbose).1
  | .derivCond k x a verbose =>
    match l.o.precond with
    | none => l
    | some P =>
      match Objective.conditionedX P x with
      | .error _ => l
      | .ok y => (l.deriv k y a verbose).1
  | .reset => ⟨{ l.o with logger := l.o.logger.reset }, []⟩

/-- A history of calls. -/
def run (l : LoggedObjective A) (cs : List (ObjCall A)) : LoggedObjective A := cs.foldl call l

end LoggedObjective

end

end LRVB
