import Verif.Model.Example
import Verif.Model.Objective
import Verif.Model.Solve

/-!
# The example notebook: the sensitivity of the coefficients to the weights

`Example.ipynb`, the cells that define the class `Summary`, `summary_sens_operator` and `weight_sens`.
-/

namespace LRVB

open Classical Matrix

noncomputable section

/-- `np.linalg.solve(h, b)` for a matrix of right hand sides: `LinAlgError` when `h` is not square or singular. -/
def npSolveMat (h b : Arr) : Py Arr :=
  match h.shape, b.shape with
  | [r, c], [r', k] =>
    if r ≠ c then .error .linAlgError
    else if r' ≠ r then .error .valueError
    else if (toMatrix r r h).det = 0 then .error .linAlgError
    else
      let X := (toMatrix r r h)⁻¹ * toMatrix r k b
      .ok (Arr.ofFn2 r k fun i j => if h : i < r ∧ j < k then X ⟨i, h.1⟩ ⟨j, h.2⟩ else 0)
  | _, _ => .error .unmodelled

namespace Example

/-- `Summary.eval_summary(par_free)`: `Example.ipynb:398-408` (`set_free`, then `par['beta'].get_vector()`).
Returns the object's `par` after the call, too. -/
def evalSummary (p : Param) (free : List ℝ) : Param × Py Arr :=
  let r := p.setFree free
  match r.2 with
  | some e => (r.1, .error e)
  | none => (r.1,
    match r.1 with
    | .leaf _ => .error .typeError
    | .dict _ es => match es.find "beta" with
      | none => .error .keyError
      | some q => Arr.vec <$> q.getVector)

/-- `objective_weights(weights, free_par, model)`: `Example.ipynb:425-427`, a number for autograd. -/
def objectiveWeights (p : Param) (y x : Arr) (free weights : List ℝ) : Py Arr :=
  Arr.scalar <$> (evalObjective p y x (Arr.vec weights) free).2

/-- `weight_sens`: `Example.ipynb:310` (`eval_objective_hess`), `Example.ipynb:410-415`
(`summary_jac`, `objective_hess`, `summary_sens_operator`) and `Example.ipynb:433-441`
(`eval_objective_par_grad`, `eval_objective_par_weight_hess`, `weight_sens`).

`model.par` and `summary.par` are copies of one parameter, which only `set_free` changes: every evaluation
overwrites the values, so the evaluations start from `p`.  The weights are those of the model, all 1 in the
notebook. -/
def weightSens (p : Param) (y x : Arr) (weights free : List ℝ) : Py Arr := do
  let summaryJac ← agJac (fun u => (evalSummary p u).2) free
  let objectiveHess ← agHess (fun u => objectiveWeights p y x u weights) free
  let solved ← npSolveMat objectiveHess summaryJac.transpose
  let summarySensOperator := solved.neg
  let parWeightHess ← TwoObjective.agHessian12 (fun u om => objectiveWeights p y x u om) free weights
  parWeightHess.transpose.matmul summarySensOperator

end Example

end

end LRVB
