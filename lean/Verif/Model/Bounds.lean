import Verif.Model.Flt

/-!
# Bound transforms — `Parameters.py:15-79`
-/

namespace LRVB

open Classical Flt

noncomputable section

/-- `Parameters.py:31-44` `unconstrain`, applied to one element.
`copy.copy` is the identity on values. -/
def unconstrain (v lb ub : Flt) : Py Flt :=
  if ub ≤ lb then .error .valueError
  else if ub.eq pinf then
    if lb.eq ninf then .ok v
    else .ok (Flt.log (v - lb))
  else
    if lb.eq ninf then .ok (fin (-1) * Flt.log (ub - v))
    else .ok (Flt.log (v - lb) - Flt.log (ub - v))

/-- `Parameters.py:47-61` `constrain`, applied to one element. -/
def constrain (x lb ub : Flt) : Py Flt :=
  if ub ≤ lb then .error .valueError
  else if ub.eq pinf then
    if lb.eq ninf then .ok x
    else .ok (Flt.exp x + lb)
  else
    if lb.eq ninf then .ok (ub - Flt.exp (fin (-1) * x))
    else
      let e := Flt.exp x
      .ok ((ub - lb) * e / (fin 1 + e) + lb)

/-- `Parameters.py:31-44` applied to an array: the bound check happens once,
also for an empty array, and the formula elementwise. -/
def unconstrainList (vs : List Flt) (lb ub : Flt) : Py (List Flt) :=
  if ub ≤ lb then .error .valueError
  else vs.mapM fun v => unconstrain v lb ub

/-- `Parameters.py:47-61` applied to an array. -/
def constrainList (xs : List Flt) (lb ub : Flt) : Py (List Flt) :=
  if ub ≤ lb then .error .valueError
  else xs.mapM fun x => constrain x lb ub

/-- `Parameters.py:23-28` `unconstrain_scalar`. -/
def unconstrainScalar (v lb ub : Flt) : Py Flt :=
  if ¬ v ≤ ub then .error .valueError
  else if ¬ lb ≤ v then .error .valueError
  else unconstrain v lb ub

/-- `Parameters.py:15-20` `unconstrain_array` (the result is flattened, so only
the list of entries matters). -/
def unconstrainArray (vs : List Flt) (lb ub : Flt) : Py (List Flt) :=
  if ¬ ∀ v ∈ vs, v ≤ ub then .error .valueError
  else if ¬ ∀ v ∈ vs, lb ≤ v then .error .valueError
  else unconstrainList vs lb ub

/-- `Parameters.py:66-79` `get_inbounds_value`. -/
def getInboundsValue (lb ub : Flt) : Py Flt :=
  if ¬ lb < ub then .error .assertionError
  else if ninf < lb ∧ ub < pinf then .ok (fin (1 / 2) * (ub - lb))
  else if ninf < lb then .ok (lb + fin 1)
  else if ub < pinf then .ok (ub - fin 1)
  else .ok (fin 0)

/-- The bound checks of the constructors.  `Parameters.py:85-90` (`ScalarParam`)
tests the order first and `Parameters.py:161-164`, `241-244` (`VectorParam`,
`ArrayParam`) tests it last; the difference is only which exception is raised. -/
def checkBoundsScalar (lb ub : Flt) : Py Unit :=
  if ub ≤ lb then .error .valueError
  else if ¬ ninf ≤ lb then .error .assertionError
  else if ¬ ub ≤ pinf then .error .assertionError
  else .ok ()

/-- See `checkBoundsScalar`. -/
def checkBoundsVector (lb ub : Flt) : Py Unit :=
  if ¬ ninf ≤ lb then .error .assertionError
  else if ¬ ub ≤ pinf then .error .assertionError
  else if ub ≤ lb then .error .valueError
  else .ok ()

/-- `constrain` on a finite value, in the fragment of finite reals. -/
def constrainReal (lb ub : Flt) (x : ℝ) : Py ℝ := do
  (← constrain (fin x) lb ub).toReal

/-- `unconstrain` on a finite value, in the fragment of finite reals. -/
def unconstrainReal (lb ub : Flt) (v : ℝ) : Py ℝ := do
  (← unconstrain (fin v) lb ub).toReal

end

end LRVB
