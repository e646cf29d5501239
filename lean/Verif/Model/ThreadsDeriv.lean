import Verif.Model.Threads

/-!
# Derivative calls in threads — `SparseObjectives.py:142-193`

A derivative call sets the parameters, one after the other, to differentiation placeholders, calls the user
function, computes the derivative, and then sets the parameters, one after the other, to the point.  What
autograd computes when the placeholders of several threads meet is not modelled: the derivative is an
arbitrary function of the value, or an exception.
-/

namespace LRVB

open Classical

noncomputable section

/-- The state after `set_free` or `set_vector` of the `i`-th parameter with a placeholder for `x`. -/
def Shared.assignTraced (s : Shared) (free : Bool) (i : ℕ) (x : List ℝ) : Shared :=
  match s.compute free i x with
  | .error _ => s
  | .ok l => { s with leaves := s.leaves.set i { l with boxed := true } }

namespace Thread

/-- Make the steps with placeholders, then go on with `k`. -/
def traceSets (free : Bool) : List SetStep → Thread → Thread
  | [], k => k
  | .raise e :: _, _ => .ret (.error e)
  | .call i x :: ms, k => .step (fun s => s.assignTraced free i x) fun s =>
    match s.compute free i x with
    | .error e => .ret (.error e)
    | .ok _ => traceSets free ms k

/-- A derivative call at `x` of an objective with parameter `par` and user function `fn`: `fun_free_grad`,
`fun_free_hessian`, `fun_free_jacobian`, `fun_free_hvp` (`free = true`) and the same for vectors
(`free = false`): `SparseObjectives.py:142-193`.  `res` is what autograd makes of the value. -/
def derive (par : Param) (fn : Reader) (free : Bool) (x : List ℝ) (res : Arr → Py Arr) : Thread :=
  traceSets free (par.setSteps free x 0) <| user fn fun v =>
    match res v with
    | .error e => .ret (.error e)
    | .ok d => sets free (par.setSteps free x 0) (.ret (.ok d))

end Thread

/-- A call that a thread makes. -/
inductive ThreadCall where
  | value (fn : Reader) (free : Bool) (x : List ℝ) (verbose : Bool)
  | deriv (fn : Reader) (free : Bool) (x : List ℝ) (res : Arr → Py Arr)

/-- The thread of a call on the objective with parameter `par`. -/
def ThreadCall.thread (par : Param) : ThreadCall → Thread
  | .value fn free x verbose => Thread.evaluate par fn free x verbose
  | .deriv fn free x res => Thread.derive par fn free x res

end

end LRVB
