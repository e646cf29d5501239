import Verif.Model.Sensitivity
import Verif.Lemmas.Blank

/-!
# Interrupted calls of the sensitivity objects

`KeyboardInterrupt`, or any other exception raised from outside, may stop a method between any two
statements and inside any call.  The attributes of `ParametricSensitivity`,
`ParametricSensitivityLinearApproximation` and `ParametricSensitivityTaylorExpansion` are assigned by
single statements, and the lists of the Taylor expansion grow by single `append`s, so what the object itself holds when a call is stopped is what it
holds after one of the statements.  The parameters are changed inside calls: when a call is stopped
they may hold any numbers, or placeholders of the differentiation, in the same structure.  This is
more than what can happen.
-/

namespace LRVB

open Classical

noncomputable section

/-- The states after one statement and, unless it raised, after the following ones. -/
def stagesOf {σ : Type} (r : σ × Option PyErr) (k : σ → List σ) : List σ :=
  r.1 :: match r.2 with
    | some _ => []
    | none => k r.1

namespace LinApprox

/-- The object with other values in its parameters. -/
def SamePars (T s : LinApprox) : Prop :=
  ∃ p q : Param, p.blank = T.inputPar.blank ∧ q.blank = T.hyperPar.blank ∧
    s = { T with inputPar := p, hyperPar := q }

/-- The object before `set_base_values(input_val0, hyper_val0, hess0)` and after each of its
statements: `ModelSensitivity.py:584-601`. -/
def setBaseStages (T : LinApprox) (inputVal0 hyperVal0 : List ℝ) (hess0 : Option Arr) :
    List LinApprox :=
  let T1 : LinApprox := { T with base := { T.base with inputVal0 := inputVal0 } }
  let T2 : LinApprox := { T1 with base := { T1.base with hyperVal0 := hyperVal0 } }
  T :: T1 :: T2 :: stagesOf T2.setParToBase fun T => stagesOf (T.setHess hess0) fun T =>
    stagesOf T.setChol fun T => stagesOf T.setCross fun T => stagesOf T.setSens fun _ => []

/-- The states in which a stopped `set_base_values` may leave the object. -/
def DuringSetBase (T : LinApprox) (inputVal0 hyperVal0 : List ℝ) (hess0 : Option Arr)
    (s : LinApprox) : Prop :=
  ∃ T' ∈ T.setBaseStages inputVal0 hyperVal0 hess0, SamePars T' s

end LinApprox

namespace Sens

/-- The object with other values in its parameters. -/
def SamePars (S s : Sens) : Prop :=
  ∃ p o q : Param, p.blank = S.inputPar.blank ∧ o.blank = S.outputPar.blank ∧
    q.blank = S.hyperPar.blank ∧ s = { S with inputPar := p, outputPar := o, hyperPar := q }

/-- The object before `set_optimal_input_par(optimal_input_par, objective_hessian)` and after each of its
statements: `SparseObjectives.py:524-552`. -/
def setOptimalStages (S : Sens) (optInput : Option (List ℝ)) (hess : Option Arr) : List Sens :=
  S :: stagesOf (S.setInput optInput) fun S => stagesOf (S.setHess hess) fun S =>
    stagesOf S.setChol fun S => stagesOf S.setDout fun S => stagesOf S.setHyper fun S =>
      stagesOf S.setCross fun S => stagesOf S.setOutput fun S => stagesOf S.setSens fun _ => []

/-- The states in which a stopped `set_optimal_input_par` may leave the object. -/
def DuringSetOptimal (S : Sens) (optInput : Option (List ℝ)) (hess : Option Arr) (s : Sens) : Prop :=
  ∃ S' ∈ S.setOptimalStages optInput hess, SamePars S' s

end Sens

namespace Taylor

/-- The object with other values in its parameters. -/
def SamePars (T s : Taylor) : Prop :=
  ∃ p q : Param, p.blank = T.inputPar.blank ∧ q.blank = T.hyperPar.blank ∧
    s = { T with inputPar := p, hyperPar := q }

/-- The last two statements of `set_base_values`, `self.hess0 = ...` and `self.hess0_chol = ...`:
`ModelSensitivity.py:422-426`. -/
def hessStages (T : Taylor) (H : Arr) : List Taylor :=
  [{ T with base := { T.base with hess0 := H } }, (T.setHess H).1]

/-- The object before `set_base_values(input_val0, hyper_val0, hess0)` and after each of its
statements: `ModelSensitivity.py:417-426`. -/
def setBaseStages (T : Taylor) (inputVal0 hyperVal0 : List ℝ) (hess0 : Option Arr) : List Taylor :=
  let T1 : Taylor := { T with base := { T.base with inputVal0 := inputVal0 } }
  let T2 : Taylor := { T1 with base := { T1.base with hyperVal0 := hyperVal0 } }
  T :: T1 :: T2 :: stagesOf T2.setParToBase fun T =>
    match hess0 with
    | some H => T.hessStages H
    | none =>
      let q := T.objective.funFreeHessian inputVal0 ()
      let T3 : Taylor := { T with inputPar := q.1.par }
      T3 :: match q.2 with
        | .error _ => []
        | .ok H => T3.hessStages H

/-- The loop of `set_order` and the statement after it, from the terms of the order reached:
`ModelSensitivity.py:462-473`. -/
def orderStages (T : Taylor) (terms : List DTerm) : ℕ → List Taylor
  | 0 => [{ T with dkList := T.dkList ++ [dkinputFromTerms terms] }]
  | k + 1 =>
    match differentiateTerms terms (dkinputFromTerms terms) with
    | .error _ => []
    | .ok next =>
      let T1 : Taylor := { T with dkList := T.dkList ++ [dkinputFromTerms terms] }
      let T2 : Taylor := { T1 with termsList := T1.termsList ++ [next] }
      T1 :: T2 :: orderStages T2 next k

/-- The object before `set_order(order)` and after each of its statements:
`ModelSensitivity.py:452-473`.  `eval_g_derivs` is not read by other methods and left out. -/
def setOrderStages (T : Taylor) (order : ℕ) : List Taylor :=
  let T1 : Taylor := { T with order := order }
  T :: T1 :: match (do
      let evalG ← generateArray T1.objectiveGradient (order + 1)
      getTaylorBaseTerms evalG) with
    | .error _ => []
    | .ok terms =>
      let T2 : Taylor := { T1 with termsList := [terms] }
      let T3 : Taylor := { T2 with dkList := [] }
      T2 :: T3 :: orderStages T3 terms (order - 1)

/-- The states in which a stopped `set_base_values` may leave the object. -/
def DuringSetBase (T : Taylor) (inputVal0 hyperVal0 : List ℝ) (hess0 : Option Arr) (s : Taylor) :
    Prop :=
  ∃ T' ∈ T.setBaseStages inputVal0 hyperVal0 hess0, SamePars T' s

/-- The states in which a stopped `set_order` may leave the object. -/
def DuringSetOrder (T : Taylor) (order : ℕ) (s : Taylor) : Prop := s ∈ T.setOrderStages order

/-- The states in which a stopped `evaluate_dkinput_dhyperk` or `evaluate_taylor_series` may leave the
object: `ModelSensitivity.py:412-415` and `475-505` assign no attribute. -/
def DuringEvaluate (T s : Taylor) : Prop := SamePars T s

end Taylor

end

end LRVB
