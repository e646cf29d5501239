import Verif.Spec.Heap
import Verif.Model.Objective

/-!
# Objectives that hold references — `SparseObjectives.py:48-240`

`Model/Objective` says what the methods compute.  Here an objective refers to a parameter object, its
preconditioner is a reference, and its logger keeps the arrays it is given.  What the user function
returns is taken to be a number or an array that nobody changes afterwards.  Results of autograd and of
matrix products are new arrays that the objective does not keep, so they are values.
-/

namespace LRVB

open Classical

noncomputable section

/-- A `Logger`: `SparseObjectives.py:48-62`; the points are the arrays it was given. -/
structure HLogger where
  printEvery : ℕ
  callback : Option String
  iter : ℕ
  lastX : Option (List ℕ)
  x : Option (List ℕ)
  value : Option Arr
  lastValue : Option Arr
  xArray : List (List ℕ)
  valArray : List Arr
  reports : List ℕ

namespace HLogger

/-- `initialize()`: `SparseObjectives.py:55-62`. -/
def reset (l : HLogger) : HLogger :=
  { l with iter := 0, lastX := none, x := none, value := none, lastValue := none,
           xArray := [], valArray := [] }

/-- `Logger(print_every)`: `SparseObjectives.py:49-53`. -/
def new (printEvery : ℕ) : HLogger :=
  reset ⟨printEvery, none, 0, none, none, none, none, [], [], []⟩

/-- `log(value, x)`: `SparseObjectives.py:67-87`: `self.x = x`, `self.x_array.append(x)` and
`self.last_x = x` keep the array `x`. -/
def log (m : Mem) (l : HLogger) (value : Arr) (x : List ℕ) : HLogger × Option PyErr :=
  let l1 := { l with value := some value, x := some x, xArray := l.xArray ++ [x],
                     valArray := l.valArray ++ [value] }
  if ∃ lx, l1.lastX = some lx ∧ ¬ Logger.diffOk (m.vals x) (m.vals lx) then (l1, some .valueError)
  else
    let l2 := { l1 with lastX := some x, lastValue := some value }
    if l2.printEvery = 0 then (l2, some .zeroDivision)
    else
      let l3 := if l2.iter % l2.printEvery = 0 then { l2 with reports := l2.reports ++ [l2.iter] }
        else l2
      ({ l3 with iter := l3.iter + 1 }, none)

end HLogger

/-- An `Objective`: `SparseObjectives.py:95-116`.  `par` is an object; the user function reads what the
object contains when it is called. -/
structure HObjective (A : Type) where
  par : ℕ
  fn : A → Param → Py Arr
  precond : Option Ref
  logger : HLogger

/-- Arrays and objects, and an objective. -/
structure World (A : Type) where
  st : Store
  o : HObjective A

namespace Obj

/-- The object holds a placeholder instead of a number (`b = true`), or the reverse. -/
def box (b : Bool) : Obj → Obj
  | leaf l => leaf { l with boxed := b }
  | dict h es => dict h es

end Obj

namespace Store

/-- The objects in `F` hold placeholders. -/
def box (b : Bool) (F : List ℕ) (st : Store) : Store :=
  ⟨st.mem, st.objs.mapIdx fun j o => if j ∈ F then o.box b else o⟩

/-- `set_par(par, val, is_free)`: `SparseObjectives.py:312-316`. -/
def setPar (depth : ℕ) (st : Store) (i : ℕ) (x : List ℕ) (free : Bool) : Store × Py Unit :=
  if free then st.setFree depth i x else st.setVector depth i x

/-- `set_par` with a placeholder for `x`, as autograd calls it.  Slices and reshapes of a placeholder
have views of the array as values. -/
def traceSet (depth : ℕ) (st : Store) (i : ℕ) (x : List ℕ) (free : Bool) : Store :=
  let r := st.setPar depth i x free
  match r.2 with
  | .error _ => r.1
  | .ok () => r.1.box true (st.foot depth i)

end Store

namespace World

variable {A : Type}

/-- The user function on what the parameter contains. -/
def callFn (depth : ℕ) (st : Store) (o : HObjective A) (a : A) : Py Arr :=
  match st.tree depth o.par with
  | none => .error .unmodelled
  | some p => o.fn a (p.mark false)

/-- `Objective(par, fun)`: `SparseObjectives.py:96-116`. -/
def new (st : Store) (par : ℕ) (fn : A → Param → Py Arr) : World A := ⟨st, par, fn, none, HLogger.new 1⟩

/-- `fun_free(free_val, *argv, verbose)`: `SparseObjectives.py:120-125`: the logger gets the array that
was passed. -/
def funFree (depth : ℕ) (w : World A) (x : List ℕ) (a : A) (verbose : Bool) : World A × Py Arr :=
  let r := w.st.setFree depth w.o.par x
  match r.2 with
  | .error e => (⟨r.1, w.o⟩, .error e)
  | .ok () =>
    match callFn depth r.1 w.o a with
    | .error e => (⟨r.1, w.o⟩, .error e)
    | .ok v =>
      if verbose then
        let q := w.o.logger.log r.1.mem v x
        (⟨r.1, { w.o with logger := q.1 }⟩,
          match q.2 with
          | some e => .error e
          | none => .ok v)
      else (⟨r.1, w.o⟩, .ok v)

/-- `fun_vector(vec_val)`: `SparseObjectives.py:127-129`. -/
def funVector (depth : ℕ) (w : World A) (x : List ℕ) (a : A) : World A × Py Arr :=
  let r := w.st.setVector depth w.o.par x
  match r.2 with
  | .error e => (⟨r.1, w.o⟩, .error e)
  | .ok () => (⟨r.1, w.o⟩, callFn depth r.1 w.o a)

/-- The value of the objective as a function of the numbers in its argument: what autograd
differentiates. -/
def valueAt (depth : ℕ) (w : World A) (a : A) (free : Bool) (x : List ℝ) : Py Arr :=
  let s := w.st.newVec x
  let r := s.1.setPar depth w.o.par s.2 free
  match r.2 with
  | .error e => .error e
  | .ok () => callFn depth r.1 w.o a

/-- The derivative methods: the autograd function `ag`, then `set_par` with the argument
(`SparseObjectives.py:142-193`). -/
def deriv {β : Type} (depth : ℕ) (w : World A) (free : Bool) (x : List ℕ) (a : A)
    (ag : (List ℝ → Py Arr) → Py β) : World A × Py β :=
  let st1 := w.st.traceSet depth w.o.par x free
  match ag (w.valueAt depth a free) with
  | .error e => (⟨st1, w.o⟩, .error e)
  | .ok v =>
    let r := st1.setPar depth w.o.par x free
    match r.2 with
    | .error e => (⟨r.1, w.o⟩, .error e)
    | .ok () => (⟨r.1, w.o⟩, .ok v)

/-- `fun_free_grad`, `fun_vector_grad`: `SparseObjectives.py:152-154,164-166`. -/
def grad (depth : ℕ) (w : World A) (free : Bool) (x : List ℕ) (a : A) : World A × Py (List ℝ) :=
  w.deriv depth free x a fun F => agGrad F (w.st.mem.vals x)

/-- `fun_free_hessian`, `fun_vector_hessian`: `SparseObjectives.py:156-158,168-170`. -/
def hessian (depth : ℕ) (w : World A) (free : Bool) (x : List ℕ) (a : A) : World A × Py Arr :=
  w.deriv depth free x a fun F => agHess F (w.st.mem.vals x)

/-- `fun_free_jacobian`, `fun_vector_jacobian`: `SparseObjectives.py:160-162,172-174`. -/
def jacobian (depth : ℕ) (w : World A) (free : Bool) (x : List ℕ) (a : A) : World A × Py Arr :=
  w.deriv depth free x a fun F => agJac F (w.st.mem.vals x)

/-- `fun_free_hvp`, `fun_vector_hvp`: `SparseObjectives.py:183-193`. -/
def hvp (depth : ℕ) (w : World A) (free : Bool) (x : List ℕ) (a : A) (vec : List ℕ) :
    World A × Py (List ℝ) :=
  w.deriv depth free x a fun F => agHvp F (w.st.mem.vals x) (w.st.mem.vals vec)

/-- `objective.preconditioner = r`: an attribute that the user sets. -/
def setPrecond (w : World A) (r : Option Ref) : World A := { w with o := { w.o with precond := r } }

/-- `objective.logger.initialize()`. -/
def initLogger (w : World A) : World A := { w with o := { w.o with logger := w.o.logger.reset } }

/-- `fun_free_cond`: `SparseObjectives.py:207-210`: `y` is a new array. -/
def funFreeCond (depth : ℕ) (w : World A) (x : List ℕ) (a : A) (verbose : Bool) : World A × Py Arr :=
  match w.o.precond with
  | none => (w, .error .assertionError)
  | some P =>
    match Objective.conditionedX (w.st.mem.read P) (w.st.mem.vals x) with
    | .error e => (w, .error e)
    | .ok y => funFree depth ⟨(w.st.newVec y).1, w.o⟩ (w.st.newVec y).2 a verbose

/-- `fun_free_grad_cond`: `SparseObjectives.py:212-216`. -/
def gradCond (depth : ℕ) (w : World A) (x : List ℕ) (a : A) : World A × Py (List ℝ) :=
  match w.o.precond with
  | none => (w, .error .assertionError)
  | some P =>
    match Objective.conditionedX (w.st.mem.read P) (w.st.mem.vals x) with
    | .error e => (w, .error e)
    | .ok y =>
      let r := grad depth ⟨(w.st.newVec y).1, w.o⟩ true (w.st.newVec y).2 a
      (r.1, do (r.1.st.mem.read P).transpose.mulVec (← r.2))

/-- `fun_free_hessian_cond`: `SparseObjectives.py:218-223`. -/
def hessianCond (depth : ℕ) (w : World A) (x : List ℕ) (a : A) : World A × Py Arr :=
  match w.o.precond with
  | none => (w, .error .assertionError)
  | some P =>
    match Objective.conditionedX (w.st.mem.read P) (w.st.mem.vals x) with
    | .error e => (w, .error e)
    | .ok y =>
      let r := hessian depth ⟨(w.st.newVec y).1, w.o⟩ true (w.st.newVec y).2 a
      (r.1, do (r.1.st.mem.read P).transpose.matmul (← (← r.2).matmul (r.1.st.mem.read P)))

/-- `fun_free_hvp_cond`: `SparseObjectives.py:226-235`. -/
def hvpCond (depth : ℕ) (w : World A) (x : List ℕ) (a : A) (vec : List ℕ) : World A × Py (List ℝ) :=
  match w.o.precond with
  | none => (w, .error .assertionError)
  | some P =>
    match Objective.conditionedX (w.st.mem.read P) (w.st.mem.vals x) with
    | .error e => (w, .error e)
    | .ok y =>
      match (w.st.mem.read P).mulVec (w.st.mem.vals vec) with
      | .error e => (w, .error e)
      | .ok pv =>
        let w1 : World A := ⟨(w.st.newVec y).1, w.o⟩
        let w2 : World A := ⟨(w1.st.newVec pv).1, w.o⟩
        let r := hvp depth w2 true (w.st.newVec y).2 a (w1.st.newVec pv).2
        (r.1, do (r.1.st.mem.read P).transpose.mulVec (← r.2))

end World

end

end LRVB
