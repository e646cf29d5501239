import Verif.Model.Py
import Mathlib.Analysis.Calculus.Deriv.Basic

/-!
# autograd

`autograd.jacobian` and `autograd.hessian` are modelled by their contract: the exact
(partial) derivatives of the function they are applied to.
-/

namespace LRVB

noncomputable section

/-- Entry `i` of the returned vector (0 when the call raises or the entry does not exist). -/
def entry (i : ℕ) : Py (List ℝ) → ℝ
  | .ok v => v.getD i 0
  | .error _ => 0

/-- `autograd.jacobian(F)(x)`: the number of rows, and the partial derivatives. -/
def autogradJac (F : List ℝ → Py (List ℝ)) (x : List ℝ) : Py (ℕ × (ℕ → ℕ → ℝ)) := do
  let v ← F x
  .ok (v.length, fun i j => deriv (fun s => entry i (F (x.set j s))) (x.getD j 0))

/-- `autograd.hessian(F)(x) = jacobian(jacobian(F))(x)`. -/
def autogradHess (F : List ℝ → Py (List ℝ)) (x : List ℝ) :
    Py (ℕ × (ℕ → ℕ → ℕ → ℝ)) := do
  let v ← F x
  .ok (v.length, fun i a b =>
    deriv (fun s => deriv (fun t => entry i (F ((x.set b s).set a t))) ((x.set b s).getD a 0))
      (x.getD b 0))

end

end LRVB
