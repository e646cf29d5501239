import Verif.Spec.Round
import Verif.Model.RoundLogistic

/-!
# Specification vocabulary: logistic terms
-/

namespace LRVB

open Flt

noncomputable section

/-- `log p`, where `p = 1 / (1 + exp(-x))` is the logistic function of `x`. -/
def logLogistic (x : ℝ) : ℝ := Real.log (1 / (1 + Real.exp (-x)))

/-- `-log(1 - p)` with the same `p`. -/
def negLogOneMinusLogistic (x : ℝ) : ℝ := -Real.log (1 - 1 / (1 + Real.exp (-x)))

/-- What is assumed of `np.log1p`: it is faithful. -/
structure Log1pContract (o : FloatOps) (log1pR : ℝ → Flt) : Prop where
  rep {x : ℝ} : 0 ≤ x → o.Rep x → ∃ r, log1pR x = fin r ∧ o.Rep r
  ge {x f : ℝ} : 0 ≤ x → o.Rep f → f ≤ Real.log (1 + x) → fin f ≤ log1pR x
  le {x f : ℝ} : 0 ≤ x → o.Rep f → Real.log (1 + x) ≤ f → log1pR x ≤ fin f

/-- The accuracy of `np.sum` in double precision: summation in any order, one rounded addition after another. -/
def AccurateSum (o : FloatOps) : Prop :=
  ∀ l : List ℝ, (∀ a ∈ l, o.Rep a) → l.length ≤ 2 ^ 50 → (l.map (|·|)).sum ≤ 2 ^ (1000 : ℤ) →
    ∃ s, o.sumR l = fin s ∧ o.Rep s ∧ |s - l.sum| ≤ 2 ^ (-51 : ℤ) * l.length * (l.map (|·|)).sum

/-- The value that `get_e_logistic_term` estimates with the given draws: the sum over the observations of
`y * z_mean` and of the average of `log(1 - p)` over the draws. -/
def logisticTerm (obs : List (ℝ × ℝ × ℝ)) (draws : List ℝ) : ℝ :=
  (obs.map fun a => a.1 * a.2.1 -
    (draws.map fun d => negLogOneMinusLogistic (a.2.1 + a.2.2 * d)).sum / draws.length).sum

/-- The magnitude of the numbers that occur in `get_e_logistic_term`. -/
def logisticSize (obs : List (ℝ × ℝ × ℝ)) (draws : List ℝ) : ℝ :=
  (obs.map fun a => (|a.1 * a.2.1| + 1 +
    (draws.map fun d => (|a.2.2 * d| + |a.2.1| + 2 : ℝ)).sum / (draws.length : ℝ) : ℝ)).sum + 2

/-- The value that `get_e_logistic_term_guass_hermite` computes from the means, standard deviations, nodes and
weights. -/
def logisticQuadrature (obs nodes : List (ℝ × ℝ)) : ℝ :=
  (obs.map fun a => (nodes.map fun p =>
    p.2 / Real.sqrt Real.pi * negLogOneMinusLogistic (a.1 + Real.sqrt 2 * a.2 * p.1)).sum).sum

/-- The magnitude of the numbers that occur in `get_e_logistic_term_guass_hermite`. -/
def quadratureSize (obs nodes : List (ℝ × ℝ)) : ℝ :=
  1 + (obs.map fun a => (nodes.map fun p =>
    ((|p.2| + 1) * (2 * (|a.2| + 1) * (|p.1| + 1) + |a.1| + 1) : ℝ)).sum).sum

/-- The value of `E[log v]` that `get_e_log_logitnormal` computes, `v` the logistic function of a normal variable. -/
def logitNormalQuadrature (mean info : ℝ) (nodes : List (ℝ × ℝ)) : ℝ :=
  (nodes.map fun p => p.2 / Real.sqrt Real.pi * logLogistic (mean + Real.sqrt 2 * p.1 / Real.sqrt info)).sum

/-- The magnitude of the numbers that occur in `get_e_log_logitnormal`. -/
def logitNormalSize (mean info : ℝ) (nodes : List (ℝ × ℝ)) : ℝ :=
  1 + (nodes.map fun p =>
    ((|p.2| + 1) * (2 * (|p.1| + 1) * max 1 (Real.sqrt info)⁻¹ + |mean| + 1) : ℝ)).sum

end

end LRVB
