import Verif.Model.HeapObj

/-!
# Two-parameter objectives and converters that hold references — `SparseObjectives.py:245-449`

`Model/Objective` says what the methods compute when the two parameters are values of their own.  Here
both are references to objects, which may be the same or have parts in common.
-/

namespace LRVB

open Classical

noncomputable section

/-- A `TwoParameterObjective`: `SparseObjectives.py:321-339`. -/
structure HTwo (A : Type) where
  par1 : ℕ
  par2 : ℕ
  fn : A → Param → Param → Py Arr

namespace HTwo

variable {A : Type}

/-- The user function on what the parameters contain. -/
def callFn (depth : ℕ) (o : HTwo A) (st : Store) (a : A) : Py Arr :=
  match st.tree depth o.par1, st.tree depth o.par2 with
  | some p, some q => o.fn a (p.mark false) (q.mark false)
  | _, _ => .error .unmodelled

/-- `eval_fun`, `fun_free` and `fun_vector`: `SparseObjectives.py:353-371`. -/
def evalFun (depth : ℕ) (o : HTwo A) (st : Store) (x1 x2 : List ℕ) (free1 free2 : Bool) (a : A) :
    Store × Py Arr :=
  let r1 := st.setPar depth o.par1 x1 free1
  match r1.2 with
  | .error e => (r1.1, .error e)
  | .ok () =>
    let r2 := r1.1.setPar depth o.par2 x2 free2
    match r2.2 with
    | .error e => (r2.1, .error e)
    | .ok () => (r2.1, o.callFn depth r2.1 a)

/-- The value as a function of the numbers in the two arguments: what autograd differentiates. -/
def valueAt (depth : ℕ) (o : HTwo A) (st : Store) (free1 free2 : Bool) (a : A) (y1 y2 : List ℝ) :
    Py Arr :=
  let s1 := st.newVec y1
  let s2 := s1.1.newVec y2
  (o.evalFun depth s2.1 s1.2 s2.2 free1 free2 a).2

/-- The store after a traced evaluation; `t1` and `t2` say which of the arguments are placeholders. -/
def trace (depth : ℕ) (o : HTwo A) (st : Store) (x1 x2 : List ℕ) (free1 free2 t1 t2 : Bool) : Store :=
  let r1 := st.setPar depth o.par1 x1 free1
  match r1.2 with
  | .error _ => r1.1
  | .ok () =>
    let s1 := if t1 then r1.1.box true (st.foot depth o.par1) else r1.1
    let r2 := s1.setPar depth o.par2 x2 free2
    match r2.2 with
    | .error _ => r2.1
    | .ok () => if t2 then r2.1.box true (st.foot depth o.par2) else r2.1

/-- `cache_and_eval`: `SparseObjectives.py:341-351`; `ag` is what autograd returns. -/
def cacheAndEval {β : Type} (depth : ℕ) (o : HTwo A) (st : Store) (x1 x2 : List ℕ)
    (free1 free2 t1 t2 : Bool) (ag : Py β) : Store × Py β :=
  let st1 := o.trace depth st x1 x2 free1 free2 t1 t2
  match ag with
  | .error e => (st1, .error e)
  | .ok v =>
    let r1 := st1.setPar depth o.par1 x1 free1
    match r1.2 with
    | .error e => (r1.1, .error e)
    | .ok () =>
      let r2 := r1.1.setPar depth o.par2 x2 free2
      match r2.2 with
      | .error e => (r2.1, .error e)
      | .ok () => (r2.1, .ok v)

/-- `fun_grad1`: `SparseObjectives.py:373-379`. -/
def grad1 (depth : ℕ) (o : HTwo A) (st : Store) (x1 x2 : List ℕ) (free1 free2 : Bool) (a : A) :
    Store × Py (List ℝ) :=
  o.cacheAndEval depth st x1 x2 free1 free2 true false
    (TwoObjective.agGrad1 (o.valueAt depth st free1 free2 a) (st.mem.vals x1) (st.mem.vals x2))

/-- `fun_grad2`: `SparseObjectives.py:381-387`. -/
def grad2 (depth : ℕ) (o : HTwo A) (st : Store) (x1 x2 : List ℕ) (free1 free2 : Bool) (a : A) :
    Store × Py (List ℝ) :=
  o.cacheAndEval depth st x1 x2 free1 free2 false true
    (TwoObjective.agGrad2 (o.valueAt depth st free1 free2 a) (st.mem.vals x1) (st.mem.vals x2))

/-- The methods built on `_fun_hessian12`: `SparseObjectives.py:389-394,407-416,429-449`. -/
def hessian12 (depth : ℕ) (o : HTwo A) (st : Store) (x1 x2 : List ℕ) (free1 free2 : Bool) (a : A) :
    Store × Py Arr :=
  o.cacheAndEval depth st x1 x2 free1 free2 true true
    (TwoObjective.agHessian12 (o.valueAt depth st free1 free2 a) (st.mem.vals x1) (st.mem.vals x2))

/-- The methods built on `_fun_hessian21`: `SparseObjectives.py:396-405,418-427`. -/
def hessian21 (depth : ℕ) (o : HTwo A) (st : Store) (x1 x2 : List ℕ) (free1 free2 : Bool) (a : A) :
    Store × Py Arr :=
  o.cacheAndEval depth st x1 x2 free1 free2 true true
    (TwoObjective.agHessian21 (o.valueAt depth st free1 free2 a) (st.mem.vals x1) (st.mem.vals x2))

end HTwo

/-- Some value in the parameter is a placeholder. -/
def Store.hasBox (depth : ℕ) (st : Store) (i : ℕ) : Bool :=
  match st.tree depth i with
  | some p => p.hasBox
  | none => false

/-- A `ParameterConverter`: `SparseObjectives.py:247-258`.  The user's converter is a program that acts on
objects. -/
structure HConverter where
  parIn : ℕ
  parOut : ℕ
  conv : Store → Store × Py Unit

namespace HConverter

/-- The read-out of the output parameter: `get_free()` or `get_vector()`. -/
def readOut (depth : ℕ) (c : HConverter) (st : Store) (free : Bool) : Store × Py (List ℕ) :=
  if free then st.getFree depth c.parOut else st.getVector depth c.parOut

/-- `converter_free_to_vec`, `converter_free_to_free`, `converter_vec_to_vec` and
`converter_vec_to_free`: `SparseObjectives.py:260-278`. -/
def convert (depth : ℕ) (c : HConverter) (st : Store) (freeIn freeOut : Bool) (x : List ℕ) :
    Store × Py (List ℕ) :=
  let r := st.setPar depth c.parIn x freeIn
  match r.2 with
  | .error e => (r.1, .error e)
  | .ok () =>
    let q := c.conv r.1
    match q.2 with
    | .error e => (q.1, .error e)
    | .ok () => c.readOut depth q.1 freeOut

/-- The conversion as a function of the numbers in its argument. -/
def valueAt (depth : ℕ) (c : HConverter) (st : Store) (freeIn freeOut : Bool) (y : List ℝ) : Py Arr :=
  let s := st.newVec y
  let r := c.convert depth s.1 freeIn freeOut s.2
  (fun z => Arr.vec (r.1.mem.vals z)) <$> r.2

/-- The store after a traced evaluation: placeholders in both parameters (the output parameter is taken
to be traced as soon as the converter was called, also when it raised). -/
def trace (depth : ℕ) (c : HConverter) (st : Store) (freeIn freeOut : Bool) (x : List ℕ) : Store :=
  let r := st.setPar depth c.parIn x freeIn
  match r.2 with
  | .error _ => r.1
  | .ok () => (c.convert depth st freeIn freeOut x).1.box true
      (st.foot depth c.parIn ++ st.foot depth c.parOut)

/-- The four Jacobian methods with `cache_free_and_eval` and `cache_vector_and_eval`:
`SparseObjectives.py:280-308`: `vec_val_out` may be the array that the output parameter holds, and is a
placeholder if the output parameter held one (simplification: if `set_vector` then raises half-way, all of
the output parameter is taken to hold placeholders). -/
def jacobian (depth : ℕ) (c : HConverter) (st : Store) (freeIn freeOut : Bool) (x : List ℕ) :
    Store × Py Arr :=
  let g := st.getVector depth c.parOut
  match g.2 with
  | .error e => (g.1, .error e)
  | .ok vecOut =>
    let st1 := c.trace depth g.1 freeIn freeOut x
    match agJac (c.valueAt depth g.1 freeIn freeOut) (st.mem.vals x) with
    | .error e => (st1, .error e)
    | .ok J =>
      let r := st1.setPar depth c.parIn x freeIn
      match r.2 with
      | .error e => (r.1, .error e)
      | .ok () =>
        let q := r.1.setVector depth c.parOut vecOut
        let st2 := if st.hasBox depth c.parOut then q.1.box true (st.foot depth c.parOut) else q.1
        match q.2 with
        | .error e => (st2, .error e)
        | .ok () => (st2, .ok J)

end HConverter

end

end LRVB
