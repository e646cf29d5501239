import Verif.Model.Round

/-!
# Free values that are not finite

The transforms of arrays and of simplexes for NaN and infinite entries, with every operation rounded.
-/

namespace LRVB

open Classical Flt

noncomputable section

namespace FloatOps

variable (o : FloatOps)

/-- `constrain` of an array: `Parameters.py:47-61`. -/
def constrainList (xs : List Flt) (lb ub : Flt) : Py (List Flt) :=
  if ub ≤ lb then .error .valueError
  else xs.mapM fun x => o.constrain x lb ub

/-- `unconstrain_array`: `Parameters.py:15-20`, with `unconstrain` in lines 31-44. -/
def unconstrainArray (vs : List Flt) (lb ub : Flt) : Py (List Flt) :=
  if ¬ ∀ v ∈ vs, v ≤ ub then .error .valueError
  else if ¬ ∀ v ∈ vs, lb ≤ v then .error .valueError
  else if ub ≤ lb then .error .valueError
  else vs.mapM fun v => o.unconstrain v lb ub

/-- `np.maximum`: NaN when one side is. -/
def maxF (a b : Flt) : Flt :=
  if a = nan ∨ b = nan then nan else if a ≤ b then b else a

/-- `np.amax`. -/
def amaxF (x : Flt) (l : List Flt) : Flt := l.foldl maxF x

/-- `scipy.misc.logsumexp` of one row, called in `SimplexParams.py:17`: as `logsumexp`, and a maximum that
is not finite is replaced by 0. -/
def logsumexpF (x : Flt) (l : List Flt) : Flt :=
  let m := match amaxF x l with
    | fin m => fin m
    | _ => fin 0
  o.add (o.log (o.sum ((x :: l).map fun a => o.exp (o.sub a m)))) m

/-- One row of `constrain_simplex_matrix`: `SimplexParams.py:11-18`. -/
def constrainSimplexRowF (x : List Flt) : List Flt :=
  let logNorm := o.logsumexpF (fin 0) x
  (fin 0 :: x).map fun a => o.exp (o.sub a logNorm)

end FloatOps

end

end LRVB
