import Verif.Model.HeapSens
import Verif.Model.Taylor

/-!
# Taylor expansions that hold references — `ModelSensitivity.py:382-505`

`Model/Taylor` says what the methods compute when the object has copies of everything.  Here its
parameters, its base values and its Hessian are references to objects and arrays.
-/

namespace LRVB

open Classical

noncomputable section

/-- A `ParametricSensitivityTaylorExpansion`.  The Cholesky factor is a new array that no method uses or
returns; it is kept as a value.  The closures in `dkinput_dhyperk_list` evaluate the objective, with the
parameters as they are then, whenever they are called: `listOrder` is the order for which they were made. -/
structure HTaylor where
  inputPar : ℕ
  hyperPar : ℕ
  inputIsFree : Bool
  hyperIsFree : Bool
  objFn : Param → Param → Py Arr
  hyperFn : Param → Param → Py Arr
  inputVal0 : List ℕ
  hyperVal0 : List ℕ
  hess0 : Ref
  chol : Arr
  order : ℕ
  listOrder : Option ℕ

/-- The store and the object. -/
structure TWorld where
  st : Store
  o : HTaylor

/-- The lists of terms that `set_order(order)` makes from the gradient: `ModelSensitivity.py:457-473`. -/
def orderTerms (g : DFun) (order : ℕ) : Py (List (List DTerm)) := do
  let evalG ← generateArray g (order + 1)
  let terms ← getTaylorBaseTerms evalG
  taylorTerms terms (order - 1)

/-- The lists of terms in use. -/
def listsOf (g : DFun) : Option ℕ → List (List DTerm)
  | none => []
  | some n =>
    match orderTerms g n with
    | .error _ => []
    | .ok ts => ts

namespace TWorld

/-- What the object has in common with a linear approximation, whose methods have the same code. -/
def lin (w : TWorld) : LWorld :=
  ⟨w.st, w.o.inputPar, w.o.hyperPar, w.o.inputIsFree, w.o.hyperIsFree, w.o.objFn, w.o.hyperFn, w.o.inputVal0,
    w.o.hyperVal0, w.o.hess0, w.o.chol, ⟨[0, 0], []⟩, ⟨[0, 0], []⟩⟩

/-- The object after a step of such a method. -/
def withLin (w : TWorld) (l : LWorld) : TWorld :=
  ⟨l.st, { w.o with inputVal0 := l.o.inputVal0, hyperVal0 := l.o.hyperVal0, hess0 := l.o.hess0, chol := l.o.chol }⟩

/-- `self.joint_objective`: `ModelSensitivity.py:402-403`. -/
def joint (w : TWorld) : HTwo Unit := ⟨w.o.inputPar, w.o.hyperPar, fun _ p q => w.o.hyperFn p q⟩

/-- `set_par_to_base_values`: `ModelSensitivity.py:408-410` (the same code as `581-583`). -/
def setParToBase (depth : ℕ) (w : TWorld) : TWorld × Py Unit :=
  let r := w.lin.setParToBase depth
  (w.withLin r.1, r.2)

/-- `set_base_values(input_val0, hyper_val0, hess0)`: `ModelSensitivity.py:417-426`: copies of the base
values; the Hessian is kept by reference (`420-425` is the same code as `588-593`, `426` as `594`). -/
def setBaseValues (depth : ℕ) (w : TWorld) (x h : List ℕ) (hess0 : Option Ref) : TWorld × Py Unit :=
  let s1 := w.st.newVec (w.st.mem.vals x)
  let s2 := s1.1.newVec (s1.1.mem.vals h)
  let w1 : TWorld := ⟨s2.1, { w.o with inputVal0 := s1.2, hyperVal0 := s2.2 }⟩
  let r := thenDo (w1.lin.setParToBase depth) fun l => thenDo (l.setHess depth hess0) fun l => l.setChol
  (w1.withLin r.1, r.2)

/-- `objective_gradient`: `ModelSensitivity.py:430-433`, with the objects as they are when it is called. -/
def gradient (depth : ℕ) (w : TWorld) : DFun := fun eta eps vecs =>
  match vecs with
  | [] => TwoObjective.agGrad1 (w.joint.valueAt depth w.st w.o.inputIsFree w.o.hyperIsFree ()) eta eps
  | _ :: _ => .error .unmodelled

/-- `set_order(order)`: `ModelSensitivity.py:452-473`. -/
def setOrder (depth : ℕ) (w : TWorld) (order : ℕ) : TWorld × Py Unit :=
  match orderTerms (w.gradient depth) order with
  | .error e => (⟨w.st, { w.o with order := order }⟩, .error e)
  | .ok _ => (⟨w.st, { w.o with order := order, listOrder := some order }⟩, .ok ())

/-- `__init__`: `ModelSensitivity.py:383-406`.  The argument `hess0` is not used. -/
def new (depth : ℕ) (st : Store) (objFn : Param → Param → Py Arr) (inputPar hyperPar : ℕ) (x h : List ℕ)
    (order : ℕ) (inputIsFree hyperIsFree : Bool) (_hess0 : Option Ref) (hyperFn : Option (Param → Param → Py Arr)) :
    TWorld × Py Unit :=
  let w : TWorld := ⟨st, inputPar, hyperPar, inputIsFree, hyperIsFree, objFn, hyperFn.getD objFn, [], [],
    ⟨[0, 0], []⟩, ⟨[0, 0], []⟩, 0, none⟩
  thenDo (w.setBaseValues depth x h none) fun w => w.setOrder depth order

/-- `self.dkinput_dhyperk_list`: `ModelSensitivity.py:461-473`. -/
def dkList (depth : ℕ) (w : TWorld) : List EtaFun :=
  (listsOf (w.gradient depth) w.o.listOrder).map dkinputFromTerms

/-- What closures read from the object. -/
def base (w : TWorld) : Base :=
  ⟨w.st.mem.read w.o.hess0, w.st.mem.vals w.o.inputVal0, w.st.mem.vals w.o.hyperVal0⟩

/-- The store after the derivative functions were evaluated at the base values: placeholders. -/
def traced (depth : ℕ) (w : TWorld) : TWorld :=
  ⟨w.joint.trace depth w.st w.o.inputVal0 w.o.hyperVal0 w.o.inputIsFree w.o.hyperIsFree true true, w.o⟩

/-- `evaluate_dkinput_dhyperk(dhyper, k)` with `cache_and_eval`: `ModelSensitivity.py:412-415` and
`475-484`, with the numbers in the new array that is returned. -/
def dkValue (depth : ℕ) (w : TWorld) (dhyper : List ℕ) (k : ℤ) : TWorld × Py (List ℝ) :=
  if k ≤ 0 then (w, .error .valueError)
  else if (w.o.order : ℤ) < k then (w, .error .valueError)
  else
    match getIdx (w.dkList depth) (k.toNat - 1) with
    | .error e => (w, .error e)
    | .ok f =>
      match f w.base (w.st.mem.vals w.o.inputVal0) (w.st.mem.vals w.o.hyperVal0) (w.st.mem.vals dhyper) with
      | .error e => (w.traced depth, .error e)
      | .ok v =>
        let r := (w.traced depth).setParToBase depth
        (r.1, match r.2 with
          | .error e => .error e
          | .ok () => .ok v)

/-- A result that is returned in a new array. -/
def inNew (r : TWorld × Py (List ℝ)) : TWorld × Py (List ℕ) :=
  match r.2 with
  | .error e => (r.1, .error e)
  | .ok v => (⟨(r.1.st.newVec v).1, r.1.o⟩, .ok (r.1.st.newVec v).2)

/-- `evaluate_dkinput_dhyperk(dhyper, k)`. -/
def evaluateDk (depth : ℕ) (w : TWorld) (dhyper : List ℕ) (k : ℤ) : TWorld × Py (List ℕ) :=
  inNew (w.dkValue depth dhyper k)

/-- The loop adding the terms of order 2 and higher: `ModelSensitivity.py:498-500`.  The arrays of the
terms and of the sum are known to this method only; they are kept as values. -/
def seriesLoop (depth : ℕ) (w : TWorld) (dhyper : List ℕ) : List ℕ → List ℝ → TWorld × Py (List ℝ)
  | [], dinput => (w, .ok dinput)
  | k :: ks, dinput =>
    let r := w.dkValue depth dhyper k
    match (do vadd dinput (vscale (1 / (k.factorial : ℝ)) (← r.2))) with
    | .error e => (r.1, .error e)
    | .ok d => seriesLoop depth r.1 dhyper ks d

/-- `evaluate_taylor_series(dhyper, add_offset, max_order)`: `ModelSensitivity.py:486-505`. -/
def evaluateSeries (depth : ℕ) (w : TWorld) (dhyper : List ℕ) (addOffset : Bool) (maxOrder : Option ℤ) :
    TWorld × Py (List ℕ) :=
  let m := maxOrder.getD w.o.order
  if m ≤ 0 then (w, .error .valueError)
  else if (w.o.order : ℤ) < m then (w, .error .valueError)
  else
    let r := w.dkValue depth dhyper 1
    match r.2 with
    | .error e => (r.1, .error e)
    | .ok d =>
      let q := r.1.seriesLoop depth dhyper ((List.range (m.toNat - 1)).map (· + 2)) d
      match q.2 with
      | .error e => (q.1, .error e)
      | .ok d' => inNew (q.1, if addOffset then vadd d' (q.1.st.mem.vals q.1.o.inputVal0) else .ok d')

end TWorld

end

end LRVB
