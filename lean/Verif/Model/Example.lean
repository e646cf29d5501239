import Verif.Model.Families

/-!
# The example notebook: regression with a positive coefficient matrix and an unknown precision

`Example.ipynb`, the cells that define the parameters and the class `Model`.
-/

namespace LRVB

open Classical

noncomputable section

/-- `np.einsum(subscripts, *operands)` when every subscript is summed over, so that the result is a number
(the implicit mode, each subscript occurring more than once).  Each operand comes with its subscripts, without
repetitions.  Axes with one subscript must have one size, or size one (then they are broadcast). -/
def Arr.einsumAll (ops : List (Arr × List ℕ)) : Py ℝ :=
  let axes := ops.flatMap fun o => List.zip o.2 o.1.shape
  if ∃ o ∈ ops, o.2.length ≠ o.1.shape.length then .error .valueError
  else if ∃ p ∈ axes, p.2 ≠ Arr.labelDim axes p.1 ∧ p.2 ≠ 1 then .error .valueError
  else
    let labels := (ops.flatMap fun o => o.2).dedup
    .ok (((indexProduct (labels.map (Arr.labelDim axes))).map fun jdx =>
      (ops.map fun o => o.1.bget (o.2.map fun l => jdx.getD (labels.idxOf l) 0)).prod).sum)

namespace Example

/-- The parameters: `Example.ipynb:114-115` (`beta`, an array of positive numbers, and `lambda`, a positive
definite matrix) and `Example.ipynb:164-166` (the dictionary `params`). -/
def params (xDim : ℕ) : Py Param := do
  let beta ← mkArray "beta" [xDim, xDim] (.fin 0) .pinf none
  let lamb ← mkPosDef "lambda" xDim 0 none
  .ok (((Param.emptyDict "params").push (.leaf beta)).push (.leaf lamb))

/-- `Model.loglik`: `Example.ipynb:256-267`.  The object's `par`, `y`, `x` and `weights` are arguments. -/
def loglik (p : Param) (y x weights : Arr) : Py ℝ := do
  let beta ← p.item "beta"
  let lamb ← p.item "lambda"
  let xb ← x.matmul beta
  let yCentered ← y.minus xb
  let e ← Arr.einsumAll [(yCentered, [0, 1]), (lamb, [1, 2]), (yCentered, [0, 2]), (weights, [0])]
  let yTerm := -0.5 * e
  let logdet ← ExpFam.logDet lamb
  .ok (yTerm + 0.5 * weights.sumAll * logdet)

/-- `Model.eval_objective(free_par)`: `Example.ipynb:269-273`.  Returns the object's `par` after the call, too. -/
def evalObjective (p : Param) (y x weights : Arr) (free : List ℝ) : Param × Py ℝ :=
  let r := p.setFree free
  match r.2 with
  | some e => (r.1, .error e)
  | none => (r.1, do
    let ll ← loglik r.1 y x weights
    .ok (-1 * ll))

end Example

end

end LRVB
