import Verif.Model.ExpFam
import Mathlib.Probability.CDF
import Mathlib.Probability.Distributions.Gaussian.Real

/-!
# `Modeling.py`
-/

namespace LRVB

open Classical ProbabilityTheory

noncomputable section

namespace Modeling

open Arr

/-- `np.log1p(np.exp(z))`. -/
def log1pExp (z : ℝ) : ℝ := Real.log (1 + Real.exp z)

/-- `get_e_logistic_term(y, z_mean, z_sd, std_draws)`: `Modeling.py:16-32`. -/
def getELogisticTerm (y zMean zSd stdDraws : Arr) : Py ℝ := do
  if zSd.shape.length ≠ y.shape.length ∨ zMean.shape.length ≠ y.shape.length then
    .error .assertionError
  else
    let z ← (← zSd.expandLast.mul stdDraws).add zMean.expandLast
    if stdDraws.size = 0 then .error .nonFinite
    else
      let logitTerm := (z.map log1pExp).sumAll / stdDraws.size
      let p ← y.mul zMean
      .ok (p.sumAll - logitTerm)

/-- The terms summed by `get_e_logistic_term_guass_hermite`: `Modeling.py:38-48`. -/
def gaussHermiteTerms (zMean zSd ghX ghW : Arr) : Py Arr := do
  if zMean.shape ≠ zSd.shape then .error .assertionError
  else
    let z ← (← (zSd.expandLast.map (Real.sqrt 2 * ·)).mul ghX).add zMean.expandLast
    let t ← ghW.mul (z.map log1pExp)
    .ok (t.map (· / Real.sqrt Real.pi))

/-- `get_e_logistic_term_guass_hermite(..., aggregate_all=True)`: `Modeling.py:49-50`. -/
def getELogisticTermGH (zMean zSd ghX ghW : Arr) : Py ℝ := do
  let t ← gaussHermiteTerms zMean zSd ghX ghW
  .ok t.sumAll

/-- `get_e_logistic_term_guass_hermite(..., aggregate_all=False)`: `Modeling.py:51-52`. -/
def getELogisticTermGHEach (zMean zSd ghX ghW : Arr) : Py Arr := do
  let t ← gaussHermiteTerms zMean zSd ghX ghW
  if t.shape.length ≠ zSd.shape.length + 1 then .error .unmodelled else t.sumLast

/-- `np.linspace(a, b, n)`. -/
def linspace (a b : ℝ) (n : ℕ) : List ℝ :=
  if n = 1 then [a] else (List.range n).map fun i : ℕ => a + i * ((b - a) / (n - 1))

/-- `osp.stats.norm.ppf(q)`: the quantile function of the standard normal distribution, i.e. the
point whose cumulative probability is `q`; not finite unless `0 < q < 1`. -/
def normPpf (q : ℝ) : Py ℝ :=
  if h : 0 < q ∧ q < 1 ∧ ∃ x, cdf (gaussianReal 0 1) x = q then .ok h.2.2.choose
  else .error .nonFinite

/-- `get_standard_draws(num_draws)`: `Modeling.py:55-58`. -/
def getStandardDraws (n : ℕ) : Py (List ℝ) :=
  let spacing : ℝ := 1 / (n + 1)
  (linspace spacing (1 - spacing) n).mapM normPpf

/-- `univariate_normal_log_prob(u, u_mean, u_info)`: `Modeling.py:61-63`. -/
def univariateNormalLogProb (u uMean uInfo : Arr) : Py Arr := do
  let d ← u.minus uMean
  let a ← (uInfo.map (-0.5 * ·)).mul (d.map (· ^ 2))
  let b ← a.add (uInfo.map (0.5 * ·))
  b.minus (scalar (0.5 * Real.log (2 * Real.pi)))

end Modeling

end

end LRVB
