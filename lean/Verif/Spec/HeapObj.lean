import Verif.Model.HeapObj

/-!
# Specification vocabulary: programs that hold an objective
-/

namespace LRVB

noncomputable section

variable {A : Type}

/-- The logger with the points as they are now. -/
def HLogger.view (m : Mem) (l : HLogger) : Logger Arr :=
  ⟨l.printEvery, l.callback, l.iter, l.lastX.map m.vals, l.x.map m.vals, l.value, l.lastValue,
    l.xArray.map m.vals, l.valArray, l.reports⟩

/-- The objective as a value: what its parameter contains, and its preconditioner and logger as they are
now. -/
def World.view (depth : ℕ) (w : World A) : Option (Objective A) :=
  (w.st.tree depth w.o.par).map fun p =>
    ⟨p, w.o.fn, w.o.precond.map w.st.mem.read, w.o.logger.view w.st.mem⟩

/-- The calls of an objective. -/
inductive OCall (A : Type)
  | funFree (x : List ℕ) (a : A) (verbose : Bool)
  | funVector (x : List ℕ) (a : A)
  | grad (free : Bool) (x : List ℕ) (a : A)
  | hessian (free : Bool) (x : List ℕ) (a : A)
  | jacobian (free : Bool) (x : List ℕ) (a : A)
  | hvp (free : Bool) (x : List ℕ) (a : A) (vec : List ℕ)
  | funFreeCond (x : List ℕ) (a : A) (verbose : Bool)
  | gradCond (x : List ℕ) (a : A)
  | hessianCond (x : List ℕ) (a : A)
  | hvpCond (x : List ℕ) (a : A) (vec : List ℕ)
  | initLogger

/-- What a call does. -/
def OCall.run (depth : ℕ) (w : World A) : OCall A → World A × Py Arr
  | .funFree x a v => w.funFree depth x a v
  | .funVector x a => w.funVector depth x a
  | .grad f x a => ((w.grad depth f x a).1, Arr.vec <$> (w.grad depth f x a).2)
  | .hessian f x a => w.hessian depth f x a
  | .jacobian f x a => w.jacobian depth f x a
  | .hvp f x a v => ((w.hvp depth f x a v).1, Arr.vec <$> (w.hvp depth f x a v).2)
  | .funFreeCond x a v => w.funFreeCond depth x a v
  | .gradCond x a => ((w.gradCond depth x a).1, Arr.vec <$> (w.gradCond depth x a).2)
  | .hessianCond x a => w.hessianCond depth x a
  | .hvpCond x a v => ((w.hvpCond depth x a v).1, Arr.vec <$> (w.hvpCond depth x a v).2)
  | .initLogger => (w.initLogger, .ok (Arr.vec []))

/-- What the call does in the model without references (`Model/Objective`), given the contents `val` of
the arrays passed. -/
def OCall.runValue (val : List ℕ → List ℝ) (o : Objective A) : OCall A → Objective A × Py Arr
  | .funFree x a v => o.funFree (val x) a v
  | .funVector x a => o.funVector (val x) a
  | .grad true x a => ((o.funFreeGrad (val x) a).1, Arr.vec <$> (o.funFreeGrad (val x) a).2)
  | .grad false x a => ((o.funVectorGrad (val x) a).1, Arr.vec <$> (o.funVectorGrad (val x) a).2)
  | .hessian true x a => o.funFreeHessian (val x) a
  | .hessian false x a => o.funVectorHessian (val x) a
  | .jacobian true x a => o.funFreeJacobian (val x) a
  | .jacobian false x a => o.funVectorJacobian (val x) a
  | .hvp true x a v =>
    ((o.funFreeHvp (val x) a (val v)).1, Arr.vec <$> (o.funFreeHvp (val x) a (val v)).2)
  | .hvp false x a v =>
    ((o.funVectorHvp (val x) a (val v)).1, Arr.vec <$> (o.funVectorHvp (val x) a (val v)).2)
  | .funFreeCond x a v => o.funFreeCond (val x) a v
  | .gradCond x a => ((o.funFreeGradCond (val x) a).1, Arr.vec <$> (o.funFreeGradCond (val x) a).2)
  | .hessianCond x a => o.funFreeHessianCond (val x) a
  | .hvpCond x a v =>
    ((o.funFreeHvpCond (val x) a (val v)).1, Arr.vec <$> (o.funFreeHvpCond (val x) a (val v)).2)
  | .initLogger => ({ o with logger := o.logger.reset }, .ok (Arr.vec []))

/-- The arrays passed to a call. -/
def OCall.args : OCall A → List Ref
  | .funFree x _ _ => [Ref.vec x]
  | .funVector x _ => [Ref.vec x]
  | .grad _ x _ => [Ref.vec x]
  | .hessian _ x _ => [Ref.vec x]
  | .jacobian _ x _ => [Ref.vec x]
  | .hvp _ x _ v => [Ref.vec x, Ref.vec v]
  | .funFreeCond x _ _ => [Ref.vec x]
  | .gradCond x _ => [Ref.vec x]
  | .hessianCond x _ => [Ref.vec x]
  | .hvpCond x _ v => [Ref.vec x, Ref.vec v]
  | .initLogger => []

/-- What a program with an objective does: it calls methods of the objective, sets its preconditioner,
and does anything else with arrays and parameters. -/
inductive OEvent (A : Type)
  | call (c : OCall A)
  | setPrecond (r : Option Ref)
  | other (e : Event)

/-- The state after an event. -/
def OEvent.run (depth : ℕ) (w : World A) : OEvent A → World A
  | .call c => (c.run depth w).1
  | .setPrecond r => w.setPrecond r
  | .other e => ⟨e.run depth w.st, w.o⟩

/-- The arrays an event uses exist. -/
def OEvent.Ok (w : World A) : OEvent A → Prop
  | .call c => ∀ r ∈ c.args, r.Alive w.st.mem
  | .setPrecond none => True
  | .setPrecond (some r) => r.Alive w.st.mem
  | .other e => e.Ok w.st

/-- The state after a program. -/
def runO (depth : ℕ) (w : World A) : List (OEvent A) → World A
  | [] => w
  | e :: es => runO depth (e.run depth w) es

/-- Every event uses arrays that exist. -/
def okO (depth : ℕ) (w : World A) : List (OEvent A) → Prop
  | [] => True
  | e :: es => e.Ok w ∧ okO depth (e.run depth w) es

/-- The arrays an event passes to a method or changes in place. -/
def OEvent.uses : OEvent A → List Ref
  | .call c => c.args
  | .setPrecond none => []
  | .setPrecond (some r) => [r]
  | .other (.newArray _) => []
  | .other (.assign w) => [w.r]
  | .other (.call c) => c.args

/-- The array the program gets by an event: one it makes, or one that a method of a parameter returns. -/
def OEvent.gains (depth : ℕ) (w : World A) : OEvent A → List Ref
  | .other (.newArray a) => [(w.st.mem.alloc a).2]
  | .other (.call c) => match (c.run depth w.st).2 with
    | .ok (.arr r) => [r]
    | _ => []
  | _ => []

/-- Every array the program uses consists of cells of arrays that it had (`known`), made or got from
methods of parameters (views included).  It does not take arrays out of the logger. -/
def usesKnown (depth : ℕ) (w : World A) (known : List ℕ) : List (OEvent A) → Prop
  | [] => True
  | e :: es => (∀ r ∈ e.uses, ∀ k ∈ r.addr, k ∈ known) ∧
      usesKnown depth (e.run depth w) (known ++ (e.gains depth w).flatMap Ref.addr) es

/-- The event empties the logger. -/
def OEvent.ClearsLog : OEvent A → Prop
  | .call .initLogger => True
  | _ => False

/-- The event is `fun_free(x, verbose=True)`. -/
def OEvent.LogsArgument : OEvent A → Prop
  | .call (.funFree _ _ true) => True
  | _ => False

/-- The states programs can reach that make an objective at some point. -/
inductive OReached (depth : ℕ) : World A → Prop
  | start {st : Store} (h : Reached depth st) (par : ℕ) (fn : A → Param → Py Arr) :
      OReached depth (World.new st par fn)
  | step {w : World A} (h : OReached depth w) (e : OEvent A) (ok : e.Ok w) : OReached depth (e.run depth w)

end

end LRVB
