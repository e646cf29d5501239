import Verif.Model.NdArr

/-!
# `regression_utils.py`
-/

namespace LRVB

open Classical

noncomputable section

namespace Regression

open Arr

/-- `assert c`. -/
def assert (c : Prop) : Py Unit := if c then .ok () else .error .assertionError

/-- `mat_mul_last2dims(x1, x2)`: `regression_utils.py:8-32`. -/
def matMulLast2dims (x1 x2 : Arr) : Py Arr := do
  assert (x1.shape.length = x2.shape.length)
  assert ((← fromEnd x2.shape 2) = (← fromEnd x1.shape 2))
  let d := x1.shape.length
  einsum x1 (List.range d) x2 (List.range (d - 1) ++ [d]) (List.range (d - 2) ++ [d - 1, d])

/-- `matvec_mul_last2dims(x, y)`: `regression_utils.py:34-57`.  The subtractions are on natural
numbers; the first line raises unless the operands have at least two and one axes. -/
def matvecMulLast2dims (x y : Arr) : Py Arr := do
  assert ((← fromEnd x.shape 2) = (← fromEnd y.shape 1))
  let d1 := y.shape.length - 1
  let d2 := x.shape.length - 2
  assert (d2 ≤ d1)
  einsum x (List.range d2 ++ [d1, d1 + 1]) y (List.range (d1 + 1)) (List.range d2 ++ [d1 + 1])

/-- The argument `info`: a Python or numpy scalar, or an array. -/
inductive Info
  | scalar (c : ℝ)
  | arr (a : Arr)

/-- The assignment of `info_x`: `regression_utils.py:71-82`. -/
def infoTimes (x : Arr) : Info → Py Arr
  | .scalar c => .ok (x.map (· * c))
  | .arr a => do
    assert ((← fromEnd a.shape 1) = (← fromEnd a.shape 2))
    assert ((← fromEnd a.shape 1) = (← fromEnd x.shape 2))
    assert (a.shape.length = x.shape.length)
    matMulLast2dims a x

/-- `get_nat_params_from_likelihood(y, x, info)`: `regression_utils.py:59-88`. -/
def getNatParamsFromLikelihood (y x : Arr) (info : Info) : Py (Arr × Arr) := do
  assert ((← fromEnd y.shape 1) = (← fromEnd x.shape 2))
  let d1 := y.shape.length - 1
  let d2 := x.shape.length - 2
  assert (d1 ≥ d2)
  let nPerDim : ℝ := (((y.shape.take d1).drop d2).prod : ℕ)
  let infoX ← infoTimes x info
  let natParam1 ← matvecMulLast2dims infoX y
  let natParam2 ← matMulLast2dims x infoX
  .ok (natParam1, natParam2.map fun v => -0.5 * v * nPerDim)

/-- `get_nat_params_from_prior(prior_means, prior_infos)`: `regression_utils.py:91-107`. -/
def getNatParamsFromPrior (priorMeans priorInfos : Arr) : Py (Arr × Arr) := do
  assert ((← fromEnd priorMeans.shape 1) = (← fromEnd priorInfos.shape 1))
  assert ((← fromEnd priorInfos.shape 2) = (← fromEnd priorInfos.shape 1))
  assert (priorMeans.shape.length = priorInfos.shape.length - 1)
  let r ← fromEnd priorMeans.shape 1
  let x := tile (eye r) (priorMeans.shape.dropLast ++ [1, 1])
  getNatParamsFromLikelihood priorMeans x (.arr priorInfos)

/-- `get_mvn_from_nat_params(nat_param1, nat_param2)`: `regression_utils.py:110-116`. -/
def getMvnFromNatParams (natParam1 natParam2 : Arr) : Py (Arr × Arr) := do
  let info := natParam2.map (-2 * ·)
  let mean ← matvecMulLast2dims (← info.inv) natParam1
  .ok (mean, info)

/-- `get_regression_coefficients(y, x, info)`: `regression_utils.py:118-122`. -/
def getRegressionCoefficients (y x : Arr) (info : Info) : Py Arr := do
  let n ← getNatParamsFromLikelihood y x info
  let m ← getMvnFromNatParams n.1 n.2
  .ok m.1

/-- `get_posterior_regression_coefficients(y, x, info, prior_means, prior_infos)`:
`regression_utils.py:124-133`. -/
def getPosteriorRegressionCoefficients (y x : Arr) (info : Info) (priorMeans priorInfos : Arr) :
    Py (Arr × Arr) := do
  let n ← getNatParamsFromLikelihood y x info
  let p ← getNatParamsFromPrior priorMeans priorInfos
  getMvnFromNatParams (← n.1.add p.1) (← n.2.add p.2)

end Regression

end

end LRVB
