import Verif.Model.Objective
import Verif.Props.Subspace
import Verif.Spec.Matrix
import Verif.Lemmas.Blank
import Mathlib.Analysis.Calculus.IteratedDeriv.Defs
import Mathlib.Analysis.Calculus.ContDiff.Defs

/-!
# Specification vocabulary: the optimum as a function of the hyperparameter
-/

namespace LRVB

open scoped ContDiff

variable {n m : ℕ}

noncomputable section

/-- The objective `fn` of an input and a hyperparameter computes `F` from vectors of lengths `n` and
`m` in the given parameterizations. -/
def Evaluates (inputPar hyperPar : Param) (fn : Param → Param → Py Arr) (inputIsFree hyperIsFree : Bool)
    (F : (Fin n → ℝ) × (Fin m → ℝ) → ℝ) : Prop :=
  ∀ y1 y2 : List ℝ, y1.length = n → y2.length = m →
    ((TwoObjective.mk inputPar hyperPar fun _ : Unit => fn).evalFun y1 y2 inputIsFree hyperIsFree ()).2 =
      .ok (Arr.scalar (F (toVec n y1, toVec m y2)))

/-- The second derivative of `u ↦ F (u, e)` at `x` is positive in every direction. -/
def PositiveCurvature (F : (Fin n → ℝ) × (Fin m → ℝ) → ℝ) (x : Fin n → ℝ) (e : Fin m → ℝ) : Prop :=
  ∀ u, u ≠ 0 → 0 < iteratedDeriv 2 (fun t : ℝ => F (x + t • u, e)) 0

/-- `η` follows, smoothly near `t = 0` and from `x`, the critical points of `F` in its first argument
when the second argument moves from `e` in direction `d`. -/
structure OptimumPath (F : (Fin n → ℝ) × (Fin m → ℝ) → ℝ) (x : Fin n → ℝ) (e d : Fin m → ℝ)
    (η : ℝ → Fin n → ℝ) : Prop where
  smooth : ∀ᶠ t in nhds (0 : ℝ), ContDiffAt ℝ ∞ η t
  start : η 0 = x
  critical : ∀ᶠ t in nhds (0 : ℝ), fderiv ℝ (fun u => F (u, e + t • d)) (η t) = 0

/-- Near `e`, `opt` maps hyperparameters to critical points of `F` in its first argument. -/
def OptimumMap (F : (Fin n → ℝ) × (Fin m → ℝ) → ℝ) (e : Fin m → ℝ)
    (opt : (Fin m → ℝ) → Fin n → ℝ) : Prop :=
  ∀ᶠ e' in nhds e, fderiv ℝ (fun u => F (u, e')) (opt e') = 0

/-- `dinput` is the derivative at `e` of every continuous optimum through `x` (which is thereby
differentiable at `e`), as an `n × m` matrix, and `predict` is its first order Taylor polynomial. -/
def LinearResponse (F : (Fin n → ℝ) × (Fin m → ℝ) → ℝ) (x e : List ℝ) (dinput : Arr)
    (predict : List ℝ → Py (List ℝ)) : Prop :=
  IsMat dinput n m ∧
  ∀ opt, ContinuousAt opt (toVec m e) → opt (toVec m e) = toVec n x → OptimumMap F (toVec m e) opt →
    ∃ A : (Fin m → ℝ) →L[ℝ] (Fin n → ℝ), HasFDerivAt opt A (toVec m e) ∧
      (∀ (i : Fin n) (j : Fin m), dinput.at2 i j = A (Pi.single j 1) i) ∧
      ∀ new : List ℝ, new.length = m →
        predict new = .ok (List.ofFn (toVec n x + A (toVec m new - toVec m e)))

/-- The predictions `predict d` of the optimum at `e + d`, for the optimum through `x`, have an error of
at most a constant times `‖d‖ ^ p`, for all `d` near zero. -/
def PredictsToOrder (F : (Fin n → ℝ) × (Fin m → ℝ) → ℝ) (x e : List ℝ)
    (predict : List ℝ → Py (List ℝ)) (p : ℕ) : Prop :=
  ∀ opt, ContinuousAt opt (toVec m e) → opt (toVec m e) = toVec n x → OptimumMap F (toVec m e) opt →
    ∃ C, ∃ δ > 0, ∀ d : List ℝ, d.length = m → ‖toVec m d‖ ≤ δ →
      ∃ s, predict d = .ok s ∧ s.length = n ∧
        ‖opt (toVec m e + toVec m d) - toVec n s‖ ≤ C * ‖toVec m d‖ ^ p

/-- The conversion from the free input to the output vector is `K`, whatever the parameters held. -/
def Converts (inputPar outputPar : Param) (conv : Param → Param → Param × Option PyErr) (r : ℕ)
    (K : (Fin n → ℝ) → ℕ → ℝ) : Prop :=
  ∀ q : Param, q.blank = outputPar.blank → ∀ y : List ℝ, y.length = n →
    ((Converter.mk inputPar q conv).convert true false y).2 = .ok ((List.range r).map (K (toVec n y)))

end

end LRVB
