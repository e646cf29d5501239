import Verif.Model.Objective
import Verif.Spec.Dict

/-!
# Specification vocabulary: objectives and loggers
-/

namespace LRVB

/-- The calls on an objective.  `setPrecond` is the assignment `obj.preconditioner = P`. -/
inductive ObjOp (A : Type)
  | funFree (x : List ℝ) (a : A) (verbose : Bool)
  | funVector (x : List ℝ) (a : A)
  | funFreeGrad (x : List ℝ) (a : A)
  | funFreeHessian (x : List ℝ) (a : A)
  | funFreeJacobian (x : List ℝ) (a : A)
  | funFreeHvp (x : List ℝ) (a : A) (vec : List ℝ)
  | funVectorGrad (x : List ℝ) (a : A)
  | funVectorHessian (x : List ℝ) (a : A)
  | funVectorJacobian (x : List ℝ) (a : A)
  | funVectorHvp (x : List ℝ) (a : A) (vec : List ℝ)
  | funFreeCond (x : List ℝ) (a : A) (verbose : Bool)
  | funFreeGradCond (x : List ℝ) (a : A)
  | funFreeHessianCond (x : List ℝ) (a : A)
  | funFreeHvpCond (x : List ℝ) (a : A) (vec : List ℝ)
  | setPrecond (P : Option Arr)

variable {A : Type}

/-- The objective after a call, and the exception it raised, if any. -/
noncomputable def Objective.step (o : Objective A) : ObjOp A → Objective A × Option PyErr
  | .funFree x a v => ((o.funFree x a v).1, errOf (o.funFree x a v).2)
  | .funVector x a => ((o.funVector x a).1, errOf (o.funVector x a).2)
  | .funFreeGrad x a => ((o.funFreeGrad x a).1, errOf (o.funFreeGrad x a).2)
  | .funFreeHessian x a => ((o.funFreeHessian x a).1, errOf (o.funFreeHessian x a).2)
  | .funFreeJacobian x a => ((o.funFreeJacobian x a).1, errOf (o.funFreeJacobian x a).2)
  | .funFreeHvp x a w => ((o.funFreeHvp x a w).1, errOf (o.funFreeHvp x a w).2)
  | .funVectorGrad x a => ((o.funVectorGrad x a).1, errOf (o.funVectorGrad x a).2)
  | .funVectorHessian x a => ((o.funVectorHessian x a).1, errOf (o.funVectorHessian x a).2)
  | .funVectorJacobian x a => ((o.funVectorJacobian x a).1, errOf (o.funVectorJacobian x a).2)
  | .funVectorHvp x a w => ((o.funVectorHvp x a w).1, errOf (o.funVectorHvp x a w).2)
  | .funFreeCond x a v => ((o.funFreeCond x a v).1, errOf (o.funFreeCond x a v).2)
  | .funFreeGradCond x a => ((o.funFreeGradCond x a).1, errOf (o.funFreeGradCond x a).2)
  | .funFreeHessianCond x a => ((o.funFreeHessianCond x a).1, errOf (o.funFreeHessianCond x a).2)
  | .funFreeHvpCond x a w => ((o.funFreeHvpCond x a w).1, errOf (o.funFreeHvpCond x a w).2)
  | .setPrecond P => ({ o with precond := P }, none)

/-- The objective after a sequence of calls, exceptions caught and ignored. -/
noncomputable def Objective.run (o : Objective A) : List (ObjOp A) → Objective A
  | [] => o
  | op :: ops => (o.step op).1.run ops

/-- The point at which a call evaluates the objective, and whether it is a free vector (`true`) or
a constrained vector (`false`).  The preconditioned calls evaluate at `P x`. -/
def ObjOp.EvaluatesAt (o : Objective A) : ObjOp A → Bool → List ℝ → Prop
  | .funFree x _ _, free, y => free = true ∧ y = x
  | .funVector x _, free, y => free = false ∧ y = x
  | .funFreeGrad x _, free, y => free = true ∧ y = x
  | .funFreeHessian x _, free, y => free = true ∧ y = x
  | .funFreeJacobian x _, free, y => free = true ∧ y = x
  | .funFreeHvp x _ _, free, y => free = true ∧ y = x
  | .funVectorGrad x _, free, y => free = false ∧ y = x
  | .funVectorHessian x _, free, y => free = false ∧ y = x
  | .funVectorJacobian x _, free, y => free = false ∧ y = x
  | .funVectorHvp x _ _, free, y => free = false ∧ y = x
  | .funFreeCond x _ _, free, y => free = true ∧ ∃ P, o.precond = some P ∧ P.mulVec x = .ok y
  | .funFreeGradCond x _, free, y => free = true ∧ ∃ P, o.precond = some P ∧ P.mulVec x = .ok y
  | .funFreeHessianCond x _, free, y => free = true ∧ ∃ P, o.precond = some P ∧ P.mulVec x = .ok y
  | .funFreeHvpCond x _ _, free, y => free = true ∧ ∃ P, o.precond = some P ∧ P.mulVec x = .ok y
  | .setPrecond _, _, _ => False

/-- The call is one of the two value methods (or their preconditioned version). -/
def ObjOp.IsValue : ObjOp A → Prop
  | .funFree _ _ _ | .funVector _ _ | .funFreeCond _ _ _ => True
  | _ => False

/-- The logger after a sequence of `log(value, x)` calls, exceptions caught and ignored. -/
noncomputable def Logger.logAll {V : Type} : Logger V → List (V × List ℝ) → Logger V
  | l, [] => l
  | l, e :: es => (l.log e.1 e.2).1.logAll es

end LRVB
