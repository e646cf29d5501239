import Verif.Model.Objective
import Verif.Model.Solve

/-!
# Taylor expansions of an optimum — `ModelSensitivity.py:20-516`

A function returned by `append_jvp` takes the two base arguments and then any number of vectors.
Closures that read attributes of the expansion object when they are called (`self.hess0`,
`self.input_val0`, `self.hyper_val0`) take these as an argument of type `Base`.
-/

namespace LRVB

open Classical

noncomputable section

/-- A function of `(eta, eps, *vectors)`. -/
abbrev DFun := List ℝ → List ℝ → List (List ℝ) → Py (List ℝ)

/-- The attributes of the expansion object that closures read when called. -/
structure Base where
  hess0 : Arr
  inputVal0 : List ℝ
  hyperVal0 : List ℝ

/-- A function of `(eta, eps, deps)`, with the object's attributes at the time of the call. -/
abbrev EtaFun := Base → List ℝ → List ℝ → List ℝ → Py (List ℝ)

/-- Entry `k` of what a function returned; only used where the call succeeds. -/
def entryL (k : ℕ) : Py (List ℝ) → ℝ
  | .ok v => v.getD k 0
  | .error _ => 0

/-- `x + t v`. -/
def axpy (x v : List ℝ) (t : ℝ) : List ℝ := List.zipWith (fun a b => a + t * b) x v

/-- `autograd.make_jvp(F)(x)(v)[1]`: the derivative of `F` at `x` along `v`.  A vector of another
length than `x` is outside the model. -/
def agJvp (F : List ℝ → Py (List ℝ)) (x v : List ℝ) : Py (List ℝ) := do
  let y ← F x
  if v.length ≠ x.length then .error .unmodelled
  else .ok ((List.range y.length).map fun k => deriv (fun t => entryL k (F (axpy x v t))) 0)

/-- `append_jvp(fun, num_base_args=2, argnum)`: `ModelSensitivity.py:38-62`.  The last vector is the
new one, the others are passed on.  Without vectors the jvp function is called without its argument:
`TypeError`. -/
def appendJvp (f : DFun) (argnum : ℕ) : DFun := fun eta eps vecs =>
  match vecs.getLast? with
  | none => .error .typeError
  | some v =>
    if argnum = 0 then agJvp (fun y => f y eps vecs.dropLast) eta v
    else agJvp (fun y => f eta y vecs.dropLast) eps v

/-- `l[i]` for a list; `IndexError` past the end (negative indices do not occur). -/
def getIdx {α : Type} (l : List α) (i : ℕ) : Py α :=
  match l[i]? with
  | some a => .ok a
  | none => .error .indexError

/-- The body of the inner loop of `generate_two_term_derivative_array`:
`ModelSensitivity.py:229-233`. -/
def genInner (x1 : ℕ) (arr : List (List DFun)) (x2 : ℕ) : Py (List (List DFun)) := do
  let row ← getIdx arr x1
  let f ← getIdx row x2
  .ok (arr.set x1 (row ++ [appendJvp f 1]))

/-- The body of the outer loop: `ModelSensitivity.py:224-233`. -/
def genOuter (order : ℕ) (arr : List (List DFun)) (x1 : ℕ) : Py (List (List DFun)) := do
  let arr' ← (if x1 > 0 then do
      let prev ← getIdx arr (x1 - 1)
      let f ← getIdx prev 0
      .ok (arr ++ [[appendJvp f 0]])
    else .ok arr)
  (List.range order).foldlM (genInner x1) arr'

/-- `generate_two_term_derivative_array(fun, order)`: `ModelSensitivity.py:221-234`. -/
def generateArray (f : DFun) (order : ℕ) : Py (List (List DFun)) :=
  (List.range order).foldlM (genOuter order) [[f]]

/-! ### DerivativeTerm -/

/-- A `DerivativeTerm`: `ModelSensitivity.py:83-103`.  `gDeriv` is `eval_g_deriv`. -/
structure DTerm where
  epsOrder : ℕ
  etaOrders : List ℕ
  prefactor : ℝ
  evalEta : List EtaFun
  evalG : List (List DFun)
  gDeriv : DFun

/-- `eps_order + sum(eta_orders * arange(1, len + 1))`: `ModelSensitivity.py:97-99`. -/
def totalOrder (epsOrder : ℕ) (etaOrders : List ℕ) : ℕ :=
  epsOrder + (etaOrders.zipIdx.map fun p => p.1 * (p.2 + 1)).sum

namespace DTerm

/-- `self.order`. -/
def order (T : DTerm) : ℕ := totalOrder T.epsOrder T.etaOrders

/-- `DerivativeTerm.__init__`: `ModelSensitivity.py:84-119`.  The assertions that the orders are
nonnegative integers are built into the types. -/
def new (epsOrder : ℕ) (etaOrders : List ℕ) (prefactor : ℝ) (evalEta : List EtaFun)
    (evalG : List (List DFun)) : Py DTerm := do
  let row ← getIdx evalG etaOrders.sum
  let g ← getIdx row epsOrder
  if etaOrders.length ≠ totalOrder epsOrder etaOrders then .error .assertionError
  else if evalEta.length < totalOrder epsOrder etaOrders - 1 then .error .assertionError
  else if evalG.length ≤ etaOrders.length then .error .assertionError
  else if ∃ r ∈ evalG, r.length ≤ epsOrder then .error .assertionError
  else .ok ⟨epsOrder, etaOrders, prefactor, evalEta, evalG, g⟩

/-- The loop collecting the eta vectors in `evaluate`: `ModelSensitivity.py:129-134`. -/
def etaVecs (evalEta : List EtaFun) (self : Base) (eta0 eps0 deps : List ℝ) :
    List ℕ → ℕ → Py (List (List ℝ))
  | [], _ => .ok []
  | n :: rest, i => do
    let vs ← (if n > 0 then do
        let f ← getIdx evalEta i
        let v ← f self eta0 eps0 deps
        .ok (List.replicate n v)
      else .ok [])
    let more ← etaVecs evalEta self eta0 eps0 deps rest (i + 1)
    .ok (vs ++ more)

/-- `evaluate(eta0, eps0, deps)`: `ModelSensitivity.py:125-139`. -/
def evaluate (T : DTerm) (self : Base) (eta0 eps0 deps : List ℝ) : Py (List ℝ) := do
  let vs ← etaVecs T.evalEta self eta0 eps0 deps T.etaOrders 0
  let r ← T.gDeriv eta0 eps0 (vs ++ List.replicate T.epsOrder deps)
  .ok (vscale T.prefactor r)

/-- The new `eta_orders` when the derivative hits a factor `d^{i+1} eta`:
`ModelSensitivity.py:176-178`. -/
def bump (orders : List ℕ) (i : ℕ) : List ℕ :=
  let o := orders.set i (orders.getD i 0 - 1)
  o.set (i + 1) (o.getD (i + 1) 0 + 1)

/-- `differentiate(eval_next_eta_deriv)`: `ModelSensitivity.py:141-187`. -/
def differentiate (T : DTerm) (next : EtaFun) : Py (List DTerm) := do
  let newEta := T.evalEta ++ [next]
  let old := T.etaOrders ++ [0]
  let t1 ← new (T.epsOrder + 1) old T.prefactor newEta T.evalG
  let t2 ← new T.epsOrder (old.set 0 (old.getD 0 0 + 1)) T.prefactor newEta T.evalG
  let rest ← ((List.range T.etaOrders.length).filter fun i => T.etaOrders.getD i 0 > 0).mapM
    fun i => new T.epsOrder (bump old i) (T.prefactor * T.etaOrders.getD i 0) newEta T.evalG
  .ok (t1 :: t2 :: rest)

/-- `check_similarity(term)`: `ModelSensitivity.py:190-193`. -/
def Similar (T S : DTerm) : Prop := T.epsOrder = S.epsOrder ∧ T.etaOrders = S.etaOrders

/-- `combine_with(term)`: `ModelSensitivity.py:197-204`. -/
def combineWith (T S : DTerm) : Py DTerm :=
  if T.Similar S then new T.epsOrder T.etaOrders (T.prefactor + S.prefactor) T.evalEta T.evalG
  else .error .assertionError

end DTerm

/-! ### Lists of terms -/

/-- The `for ind in unmatched_indices` loop of `consolidate_terms`: `ModelSensitivity.py:251-254`.
`pos` is the position of the list iterator; an element removed at the iterator's position makes the
following element take its place, and the iterator moves past it. -/
def consolidateScan (dterms : List DTerm) (m : DTerm) (unmatched : List ℕ) (pos : ℕ) :
    Py (DTerm × List ℕ) :=
  if h : pos < unmatched.length then do
    let t ← getIdx dterms unmatched[pos]
    if m.etaOrders = t.etaOrders then do
      let m' ← m.combineWith t
      consolidateScan dterms m' (unmatched.eraseIdx pos) (pos + 1)
    else consolidateScan dterms m unmatched (pos + 1)
  else .ok (m, unmatched)
termination_by unmatched.length - pos
decreasing_by
  · simp only [List.length_eraseIdx, if_pos h]; omega
  · omega

/-- The `while` loop of `consolidate_terms`: `ModelSensitivity.py:249-255`; `fuel` is the number of
terms (every iteration removes at least one index). -/
def consolidateLoop (dterms : List DTerm) : ℕ → List ℕ → Py (List DTerm)
  | _, [] => .ok []
  | 0, _ :: _ => .error .unmodelled
  | fuel + 1, i :: rest => do
    let t ← getIdx dterms i
    let r ← consolidateScan dterms t rest 0
    let more ← consolidateLoop dterms fuel r.2
    .ok (r.1 :: more)

/-- `consolidate_terms(dterms)`: `ModelSensitivity.py:246-257`. -/
def consolidateTerms (dterms : List DTerm) : Py (List DTerm) :=
  consolidateLoop dterms dterms.length (List.range dterms.length)

/-- The test `include_highest_eta_order or (term.eta_orders[-1] == 0)`: `ModelSensitivity.py:277`. -/
def includeTerm (highest : Bool) (T : DTerm) : Py Bool :=
  if highest then .ok true
  else
    match T.etaOrders.getLast? with
    | none => .error .indexError
    | some n => .ok (decide (n = 0))

/-- `vec = v` or `vec += v`: `ModelSensitivity.py:278-281`. -/
def addTo (vec : Option (List ℝ)) (v : List ℝ) : Py (List ℝ) :=
  match vec with
  | none => .ok v
  | some u => vadd u v

/-- The loop of `evaluate_terms`: `ModelSensitivity.py:274-282`. -/
def evaluateLoop (highest : Bool) (self : Base) (eta0 eps0 deps : List ℝ) :
    List DTerm → Option (List ℝ) → Py (Option (List ℝ))
  | [], vec => .ok vec
  | T :: rest, vec => do
    let b ← includeTerm highest T
    if b = true then do
      let v ← T.evaluate self eta0 eps0 deps
      let w ← addTo vec v
      evaluateLoop highest self eta0 eps0 deps rest (some w)
    else evaluateLoop highest self eta0 eps0 deps rest vec

/-- `evaluate_terms(dterms, eta0, eps0, deps, include_highest_eta_order)`. -/
def evaluateTerms (dterms : List DTerm) (self : Base) (eta0 eps0 deps : List ℝ) (highest : Bool) :
    Py (Option (List ℝ)) :=
  evaluateLoop highest self eta0 eps0 deps dterms none

/-- `get_taylor_base_terms(eval_g_derivs)`: `ModelSensitivity.py:286-300`. -/
def getTaylorBaseTerms (evalG : List (List DFun)) : Py (List DTerm) := do
  let a ← DTerm.new 1 [0] 1 [] evalG
  let b ← DTerm.new 0 [1] 1 [] evalG
  .ok [a, b]

/-- `evaluate_dketa_depsk(hess0, dterms, eta0, eps0, deps)`: `ModelSensitivity.py:312-316`. -/
def evaluateDketaDepsk (hess0 : Arr) (dterms : List DTerm) (self : Base)
    (eta0 eps0 deps : List ℝ) : Py (List ℝ) := do
  let vec ← evaluateTerms dterms self eta0 eps0 deps false
  match vec with
  | none => .error .assertionError
  | some v => do
    let s ← npSolve hess0 v
    .ok (vscale (-1) s)

/-- The common part of `differentiate_terms` (`ModelSensitivity.py:331-334` and `446-450`). -/
def differentiateTerms (dterms : List DTerm) (next : EtaFun) : Py (List DTerm) := do
  let ds ← dterms.mapM fun T => T.differentiate next
  consolidateTerms ds.flatten

/-- The module level `differentiate_terms(hess0, dterms)`: `ModelSensitivity.py:327-334`. -/
def differentiateTermsHess (hess0 : Arr) (dterms : List DTerm) : Py (List DTerm) :=
  differentiateTerms dterms fun self eta eps deps => evaluateDketaDepsk hess0 dterms self eta eps deps

/-! ### ParametricSensitivityTaylorExpansion -/

/-- `assert np.max(np.abs(a - b)) <= 1e-8`; `np.max` of nothing raises `ValueError`. -/
def assertClose (a b : List ℝ) : Py Unit := do
  let d ← vsub a b
  if d = [] then .error .valueError
  else if ∃ z ∈ d, (1 : ℝ) / 10 ^ 8 < |z| then .error .assertionError
  else .ok ()

/-- `get_dkinput_dhyperk_from_terms(dterms)`, with the default tolerance:
`ModelSensitivity.py:436-444`. -/
def dkinputFromTerms (dterms : List DTerm) : EtaFun := fun self inputVal hyperVal dhyper => do
  assertClose inputVal self.inputVal0
  assertClose hyperVal self.hyperVal0
  evaluateDketaDepsk self.hess0 dterms self self.inputVal0 self.hyperVal0 dhyper

/-- The loop of `set_order`: `ModelSensitivity.py:462-469`.  Starting from the terms of one order,
the list of the terms of this and the following `k` orders. -/
def taylorTerms (terms : List DTerm) : ℕ → Py (List (List DTerm))
  | 0 => .ok [terms]
  | k + 1 => do
    let next ← differentiateTerms terms (dkinputFromTerms terms)
    let more ← taylorTerms next k
    .ok (terms :: more)

/-- `ParametricSensitivityTaylorExpansion`. -/
structure Taylor where
  inputPar : Param
  hyperPar : Param
  inputIsFree : Bool
  hyperIsFree : Bool
  /-- the objective functor reads the input and the hyperparameter -/
  objFn : Param → Param → Py Arr
  hyperFn : Param → Param → Py Arr
  base : Base
  chol : Arr
  order : ℕ
  termsList : List (List DTerm)
  dkList : List EtaFun

namespace Taylor

/-- The `TwoParameterObjective` of the object: `ModelSensitivity.py:402-403`. -/
def joint (T : Taylor) : TwoObjective Unit := ⟨T.inputPar, T.hyperPar, fun _ p q => T.hyperFn p q⟩

/-- The `Objective` of the object; its function reads the hyperparameter as well:
`ModelSensitivity.py:400-401`. -/
def objective (T : Taylor) : Objective Unit :=
  Objective.new T.inputPar fun _ p => T.objFn p T.hyperPar

/-- `set_par_to_base_values`: `ModelSensitivity.py:408-410`. -/
def setParToBase (T : Taylor) : Taylor × Option PyErr :=
  let r1 := setPar T.inputPar T.base.inputVal0 T.inputIsFree
  match r1.2 with
  | some e => ({ T with inputPar := r1.1 }, some e)
  | none =>
    let r2 := setPar T.hyperPar T.base.hyperVal0 T.hyperIsFree
    ({ T with inputPar := r1.1, hyperPar := r2.1 }, r2.2)

/-- The Cholesky factorization at the end of `set_base_values`: `ModelSensitivity.py:425-426`. -/
def setHess (T : Taylor) (H : Arr) : Taylor × Option PyErr :=
  match choFactor H with
  | .error e => ({ T with base := { T.base with hess0 := H } }, some e)
  | .ok l => ({ T with base := { T.base with hess0 := H }, chol := l }, none)

/-- `set_base_values(input_val0, hyper_val0, hess0)`: `ModelSensitivity.py:417-426`. -/
def setBaseValues (T : Taylor) (inputVal0 hyperVal0 : List ℝ) (hess0 : Option Arr) :
    Taylor × Option PyErr :=
  let T1 : Taylor := { T with base := { T.base with inputVal0 := inputVal0, hyperVal0 := hyperVal0 } }
  let r := T1.setParToBase
  match r.2 with
  | some e => (r.1, some e)
  | none =>
    match hess0 with
    | some H => r.1.setHess H
    | none =>
      let q := r.1.objective.funFreeHessian inputVal0 ()
      let T2 : Taylor := { r.1 with inputPar := q.1.par }
      match q.2 with
      | .error e => (T2, some e)
      | .ok H => T2.setHess H

/-- `objective_gradient(input_val, hyper_val)`: `ModelSensitivity.py:430-433`.  Every evaluation
first sets both parameters, so the values they hold do not matter. -/
def objectiveGradient (T : Taylor) : DFun := fun eta eps vecs =>
  match vecs with
  | [] => TwoObjective.agGrad1 (T.joint.valueAt T.inputIsFree T.hyperIsFree ()) eta eps
  | _ :: _ => .error .unmodelled

/-- `set_order(order)`: `ModelSensitivity.py:452-473`, for `order ≥ 1`.  (For `order = 0` the
construction of the base terms raises `AssertionError`.) -/
def setOrder (T : Taylor) (order : ℕ) : Taylor × Option PyErr :=
  let T1 : Taylor := { T with order := order }
  match (do
    let evalG ← generateArray T1.objectiveGradient (order + 1)
    let terms ← getTaylorBaseTerms evalG
    taylorTerms terms (order - 1)) with
  | .error e => (T1, some e)
  | .ok ts => ({ T1 with termsList := ts, dkList := ts.map dkinputFromTerms }, none)

/-- `__init__`: `ModelSensitivity.py:383-406`.  The argument `hess0` is not used. -/
def new (objFn : Param → Param → Py Arr) (inputPar hyperPar : Param) (inputVal0 hyperVal0 : List ℝ)
    (order : ℕ) (inputIsFree hyperIsFree : Bool) (_hess0 : Option Arr)
    (hyperFn : Option (Param → Param → Py Arr)) : Py Taylor :=
  let T : Taylor := ⟨inputPar, hyperPar, inputIsFree, hyperIsFree, objFn, hyperFn.getD objFn,
    ⟨⟨[0, 0], []⟩, [], []⟩, ⟨[0, 0], []⟩, 0, [], []⟩
  let r := T.setBaseValues inputVal0 hyperVal0 none
  match r.2 with
  | some e => .error e
  | none =>
    let q := r.1.setOrder order
    match q.2 with
    | some e => .error e
    | none => .ok q.1

/-- The parameters after the derivative functions were evaluated at the base values: placeholders. -/
def traced (T : Taylor) : Taylor :=
  let o := T.joint.trace T.base.inputVal0 T.base.hyperVal0 T.inputIsFree T.hyperIsFree true true
  { T with inputPar := o.par1, hyperPar := o.par2 }

/-- `evaluate_dkinput_dhyperk(dhyper, k)` with `cache_and_eval`: `ModelSensitivity.py:412-415` and
`475-484`. -/
def evaluateDk (T : Taylor) (dhyper : List ℝ) (k : ℤ) : Taylor × Py (List ℝ) :=
  if k ≤ 0 then (T, .error .valueError)
  else if (T.order : ℤ) < k then (T, .error .valueError)
  else
    match getIdx T.dkList (k.toNat - 1) with
    | .error e => (T, .error e)
    | .ok f =>
      match f T.base T.base.inputVal0 T.base.hyperVal0 dhyper with
      | .error e => (T.traced, .error e)
      | .ok v =>
        let r := T.traced.setParToBase
        (r.1, match r.2 with
          | some e => .error e
          | none => .ok v)

/-- The loop adding the terms of order 2 and higher: `ModelSensitivity.py:498-500`. -/
def seriesLoop (T : Taylor) (dhyper : List ℝ) : List ℕ → List ℝ → Taylor × Py (List ℝ)
  | [], dinput => (T, .ok dinput)
  | k :: ks, dinput =>
    let r := T.evaluateDk dhyper k
    match (do vadd dinput (vscale (1 / (k.factorial : ℝ)) (← r.2))) with
    | .error e => (r.1, .error e)
    | .ok d => seriesLoop r.1 dhyper ks d

/-- `evaluate_taylor_series(dhyper, add_offset, max_order)`: `ModelSensitivity.py:486-505`. -/
def evaluateSeries (T : Taylor) (dhyper : List ℝ) (addOffset : Bool) (maxOrder : Option ℤ) :
    Taylor × Py (List ℝ) :=
  let m := maxOrder.getD T.order
  if m ≤ 0 then (T, .error .valueError)
  else if (T.order : ℤ) < m then (T, .error .valueError)
  else
    let r := T.evaluateDk dhyper 1
    match r.2 with
    | .error e => (r.1, .error e)
    | .ok d =>
      let q := r.1.seriesLoop dhyper ((List.range (m.toNat - 1)).map (· + 2)) d
      match q.2 with
      | .error e => (q.1, .error e)
      | .ok d' => (q.1, if addOffset then vadd d' q.1.base.inputVal0 else .ok d')

end Taylor

end

end LRVB
