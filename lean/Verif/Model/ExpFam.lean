import Verif.Model.NdArr
import Mathlib.Analysis.SpecialFunctions.Gamma.Deriv

/-!
# `ExponentialFamilies.py` and `Modeling.py`

Arguments that the code allows to be numbers or arrays are arrays here; a number is an array
without axes.  Arithmetic is numpy arithmetic with broadcasting (`Model/NdArr.lean`).
-/

namespace LRVB

open Classical Matrix

noncomputable section

namespace ExpFam

open Arr

/-- `sp.special.gammaln` of one number; only positive arguments are modelled. -/
def gammalnR (x : ℝ) : Py ℝ :=
  if 0 < x then .ok (Real.log (Real.Gamma x)) else .error .nonFinite

/-- `sp.special.digamma` of one number: the derivative of `gammaln`; only positive arguments are
modelled. -/
def digammaR (x : ℝ) : Py ℝ :=
  if 0 < x then .ok (deriv (fun t => Real.log (Real.Gamma t)) x) else .error .nonFinite

/-- `sp.special.gammaln(a)`. -/
def gammaln (a : Arr) : Py Arr := a.mapPy gammalnR
/-- `sp.special.digamma(a)`. -/
def digamma (a : Arr) : Py Arr := a.mapPy digammaR

/-- `x - 0.5 * np.linspace(0, size - 1., int(size))`: `ExponentialFamilies.py:6,11`. -/
def mvArgs (x : ℝ) (size : ℕ) : List ℝ := (List.range size).map fun i : ℕ => x - 0.5 * i

/-- `multivariate_digamma(x, size)`: `ExponentialFamilies.py:5-7`. -/
def multivariateDigamma (x : ℝ) (size : ℕ) : Py ℝ := do
  let v ← (mvArgs x size).mapM digammaR
  .ok v.sum

/-- `multivariate_gammaln(x, size)`: `ExponentialFamilies.py:10-13`. -/
def multivariateGammaln (x : ℝ) (size : ℕ) : Py ℝ := do
  let v ← (mvArgs x size).mapM gammalnR
  .ok (v.sum + 0.25 * Real.log Real.pi * size * (size - 1.0))

/-! ### Entropies -/

/-- `multinoulli_entropy(p, min_prob)`: `ExponentialFamilies.py:20-21`; `p` is 2-d. -/
def multinoulliEntropy (p : Arr) (minProb : ℝ) : Py Arr :=
  match p.shape with
  | [_, _] => do
    let q ← p.add (scalar minProb)
    let l ← q.log
    let s ← (← p.mul l).sumLast
    .ok (s.map (-1 * ·))
  | _ => .error .unmodelled

/-- `univariate_normal_entropy(info_obs)`: `ExponentialFamilies.py:23-25`. -/
def univariateNormalEntropy (info : Arr) : Py ℝ := do
  let l ← info.log
  let a := l.map (-1 * ·)
  let b ← a.add (scalar 1)
  let c ← b.add (scalar (Real.log (2 * Real.pi)))
  .ok (0.5 * c.sumAll)

/-- `sign, logdet = np.linalg.slogdet(m); assert sign > 0` for a 2-d array: the logarithm of the
determinant.  `LinAlgError` when the matrix is not square. -/
def logDet (m : Arr) : Py ℝ :=
  match m.shape with
  | [r, c] =>
    if r ≠ c then .error .linAlgError
    else if 0 < (toMatrix r r m).det then .ok (Real.log (toMatrix r r m).det)
    else .error .assertionError
  | _ => .error .linAlgError

/-- `multivariate_normal_entropy(info_obs)`: `ExponentialFamilies.py:27-31`. -/
def multivariateNormalEntropy (info : Arr) : Py ℝ := do
  let logdet ← logDet info
  let k : ℝ := info.shape.getD 0 0
  .ok (0.5 * (-1 * logdet + k + k * Real.log (2 * Real.pi)))

/-- `gamma_entropy(shape, rate)`: `ExponentialFamilies.py:33-35`. -/
def gammaEntropy (shape rate : Arr) : Py ℝ := do
  let t1 ← shape.minus (← rate.log)
  let t2 ← t1.add (← gammaln shape)
  let t3 ← (← (scalar 1).minus shape).mul (← digamma shape)
  let t4 ← t2.add t3
  .ok t4.sumAll

/-- `dirichlet_entropy(alpha)`: `ExponentialFamilies.py:43-52`. -/
def dirichletEntropy (alpha : Arr) : Py Arr :=
  match alpha.shape with
  | [] => .error .indexError
  | dim :: _ => do
    let sumAlpha ← alpha.sum0Keep
    let logBeta ← (← (← gammaln alpha).sum0Keep).minus (← gammaln sumAlpha)
    let t1 ← (← (scalar dim).minus sumAlpha).mul (← digamma sumAlpha)
    let t2 ← (← (← alpha.minus (scalar 1)).mul (← digamma alpha)).sum0
    let e ← (← logBeta.minus t1).minus t2
    e.squeeze0

/-- `beta_entropy(tau)`: `ExponentialFamilies.py:54-69`. -/
def betaEntropy (tau : Arr) : Py ℝ := do
  let tau0 ← tau.col 0
  let tau1 ← tau.col 1
  let tauSum ← tau.sumLast
  let d0 ← digamma tau0
  let d1 ← digamma tau1
  let ds ← digamma tauSum
  let l0 ← gammaln tau0
  let l1 ← gammaln tau1
  let ls ← gammaln tauSum
  let lbeta ← (← l0.add l1).minus ls
  let a ← (← tau0.minus (scalar 1)).mul d0
  let b ← (← tau1.minus (scalar 1)).mul d1
  let c ← (← (← tau0.add tau1).minus (scalar 2)).mul ds
  let e ← (← (← lbeta.minus a).minus b).add c
  .ok e.sumAll

/-- `wishart_entropy(df, v)`: `ExponentialFamilies.py:72-82`. -/
def wishartEntropy (df : ℝ) (v : Arr) : Py ℝ :=
  match v.shape with
  | [n, m] =>
    if n ≠ m then .error .assertionError
    else do
      let k : ℝ := n
      let ld ← logDet v
      let g ← multivariateGammaln (0.5 * df) n
      let d ← multivariateDigamma (0.5 * df) n
      .ok (0.5 * (k + 1) * ld + 0.5 * k * (k + 1) * Real.log 2 + g -
        0.5 * (df - k - 1) * d + 0.5 * df * k)
  | _ => .error .indexError

/-! ### Expectations -/

/-- `e_log_det_wishart(df, v)`: `ExponentialFamilies.py:88-94`. -/
def eLogDetWishart (df : ℝ) (v : Arr) : Py ℝ :=
  match v.shape with
  | [n, m] =>
    if n ≠ m then .error .assertionError
    else do
      let ld ← logDet v
      let d ← multivariateDigamma (0.5 * df) n
      .ok (d + n * Real.log 2 + ld)
  | _ => .error .indexError

/-- `e_log_inv_wishart_diag(df, v)`: `ExponentialFamilies.py:97-102`. -/
def eLogInvWishartDiag (df : ℝ) (v : Arr) : Py Arr :=
  match v.shape with
  | [n, m] =>
    if n ≠ m then .error .assertionError
    else do
      let vi ← v.inv
      let l ← (ofFn [n] fun idx => vi.get (idx ++ idx)).log
      let d ← digammaR (0.5 * (df - n + 1))
      (← l.minus (scalar d)).minus (scalar (Real.log 2))
  | _ => .error .indexError

/-- `get_e_lognormal(mu, sigma_sq)`: `ExponentialFamilies.py:104-105`. -/
def getELognormal (mu sigmaSq : Arr) : Py Arr := do
  let s ← mu.add (sigmaSq.map (0.5 * ·))
  .ok s.exp

/-- `get_var_lognormal(mu, sigma_sq)`: `ExponentialFamilies.py:107-109`. -/
def getVarLognormal (mu sigmaSq : Arr) : Py Arr := do
  let e ← getELognormal mu sigmaSq
  let f ← sigmaSq.exp.minus (scalar 1)
  f.mul (e.map (· ^ 2))

/-- `get_e_log_gamma(shape, rate)`: `ExponentialFamilies.py:111-112`. -/
def getELogGamma (shape rate : Arr) : Py Arr := do
  (← digamma shape).minus (← rate.log)

/-- `get_e_dirichlet(alpha)`: `ExponentialFamilies.py:114-116`. -/
def getEDirichlet (alpha : Arr) : Py Arr := do
  let denom ← alpha.sum0Keep
  alpha.div denom

/-- `get_e_log_dirichlet(alpha)`: `ExponentialFamilies.py:118-120`. -/
def getELogDirichlet (alpha : Arr) : Py Arr := do
  let ds ← digamma (← alpha.sum0Keep)
  (← digamma alpha).minus ds

/-! ### Numeric integration -/

/-- `get_e_fun_normal(means, infos, gh_loc, gh_weights, fun)`: `ExponentialFamilies.py:126-143`.
`fun` is applied to the whole array of locations. -/
def getEFunNormal (means infos ghLoc ghWeights : Arr) (f : Arr → Py Arr) : Py Arr := do
  if means.shape ≠ infos.shape then .error .assertionError
  else
    let a := ghLoc.map (Real.sqrt 2 * ·)
    let b := a.map (· * 1)
    let c ← b.div (← infos.expandLast.sqrt)
    let x ← c.add means.expandLast
    let integrand ← f x
    let w := ghWeights.map (1 / Real.sqrt Real.pi * ·)
    let t ← w.mul integrand
    if t.shape.length ≠ means.shape.length + 1 then .error .unmodelled
    else t.sumLast

/-- `sp.special.expit`. -/
def expit (x : ℝ) : ℝ := 1 / (1 + Real.exp (-x))

/-- `get_e_logitnormal(...)`: `ExponentialFamilies.py:145-150`. -/
def getELogitnormal (means infos ghLoc ghWeights : Arr) : Py Arr :=
  getEFunNormal means infos ghLoc ghWeights fun x => .ok (x.map expit)

/-- `log_v`: `ExponentialFamilies.py:156-157` (a comparison is 0 or 1). -/
def logV (x : ℝ) : ℝ :=
  max (-Real.log (1 + Real.exp (-x))) (-1e16) * (if x > -1e2 then 1 else 0) +
    x * (if x ≤ -1e2 then 1 else 0)

/-- `get_e_log_logitnormal(...)`: `ExponentialFamilies.py:152-168`. -/
def getELogLogitnormal (means infos ghLoc ghWeights : Arr) : Py (Arr × Arr) := do
  let e ← getEFunNormal means infos ghLoc ghWeights fun x => .ok (x.map logV)
  let e1 ← (means.map (- ·)).add e
  .ok (e, e1)

/-! ### Natural parameters and priors -/

/-- `get_uvn_from_natural_parameters(e_term, e2_term)`: `ExponentialFamilies.py:176-179`. -/
def getUvnFromNatural (eTerm e2Term : Arr) : Py (Arr × Arr) := do
  let info := e2Term.map (-2.0 * ·)
  let mean ← eTerm.div info
  .ok (mean, info)

/-- `np.dot(a, b)` of two 1-d arrays. -/
def dot1 (a b : List ℝ) : Py ℝ :=
  if a.length = b.length then .ok (List.zipWith (· * ·) a b).sum else .error .valueError

/-- `np.trace(m)` of a 2-d array. -/
def trace (m : Arr) : Py ℝ :=
  match m.shape with
  | [r, c] => .ok (∑ i ∈ Finset.range (min r c), m.at2 i i)
  | _ => .error .valueError

/-- `mvn_prior(prior_mean, prior_info, e_obs, cov_obs)`: `ExponentialFamilies.py:186-189`, for 1-d
means and 2-d matrices. -/
def mvnPrior (priorMean : List ℝ) (priorInfo : Arr) (eObs : List ℝ) (covObs : Arr) : Py ℝ := do
  let d ← vsub eObs priorMean
  let q ← dot1 d (← priorInfo.mulVec d)
  let t ← trace (← priorInfo.matmul covObs)
  .ok (-0.5 * (q + t))

/-- `uvn_prior(prior_mean, prior_info, e_obs, var_obs)`: `ExponentialFamilies.py:191-192`. -/
def uvnPrior (priorMean priorInfo eObs varObs : Arr) : Py Arr := do
  let d ← eObs.minus priorMean
  let s ← (d.map (· ^ 2)).add varObs
  let r ← priorInfo.mul s
  .ok (r.map (-0.5 * ·))

/-- `gamma_prior(prior_shape, prior_rate, e_obs, e_log_obs)`: `ExponentialFamilies.py:194-195`. -/
def gammaPrior (priorShape priorRate eObs eLogObs : Arr) : Py Arr := do
  let a ← (← priorShape.minus (scalar 1)).mul eLogObs
  let b ← priorRate.mul eObs
  a.minus b

/-- `exponential_prior(lambda_par, e_obs)`: `ExponentialFamilies.py:197-198`. -/
def exponentialPrior (lambdaPar eObs : Arr) : Py Arr := (lambdaPar.map (-1 * ·)).mul eObs

/-- `dirichlet_prior(alpha, log_e_obs)`: `ExponentialFamilies.py:201-204`, for 1-d arrays. -/
def dirichletPrior (alpha logEObs : List ℝ) : Py ℝ :=
  if alpha.length ≠ logEObs.length then .error .assertionError
  else dot1 (alpha.map (· - 1)) logEObs

/-- `expected_ljk_prior(lkj_param, df, v)`: `ExponentialFamilies.py:208-211`. -/
def expectedLkjPrior (lkjParam df : ℝ) (v : Arr) : Py ℝ := do
  let a ← eLogDetWishart df v
  let b ← eLogInvWishartDiag df v
  .ok ((lkjParam - 1) * (-1 * a - b.sumAll))

/-- `get_e_dp_prior_logitnorm_approx(...)`: `ExponentialFamilies.py:213-221`. -/
def getEDpPriorLogitnormApprox (alpha means infos ghLoc ghWeights : Arr) : Py Arr := do
  let r ← getELogLogitnormal means infos ghLoc ghWeights
  (← alpha.minus (scalar 1)).mul r.2

end ExpFam

end

end LRVB
