import Verif.Model.Families
import Verif.Spec.Dict
import Mathlib.Probability.Distributions.Gaussian.Real
import Mathlib.Probability.Distributions.Gamma
import Mathlib.Probability.Distributions.Gaussian.Multivariate

/-!
# Specification vocabulary: distributions
-/

namespace LRVB

open MeasureTheory ProbabilityTheory

noncomputable section

/-- The call `p[key].get()` returns `v`. -/
def Holds (p : Param) (key : String) (v : Arr) : Prop := p.viewGet key = .ok (.arr v)

/-- The object after any finite history of calls, successful or not. -/
def Param.run (p : Param) : List ParamOp → Param
  | [] => p
  | op :: ops => (p.step op).1.run ops

/-- `idx` is a valid multi-index of an array of shape `s`. -/
def InShape (idx s : List ℕ) : Prop := List.Forall₂ (· < ·) idx s

/-- A well-formed array of shape `s`. -/
def IsArr (a : Arr) (s : List ℕ) : Prop := a.WF ∧ a.shape = s

/-- A well-formed array of shape `s` with positive entries. -/
def IsPosArr (a : Arr) (s : List ℕ) : Prop := IsArr a s ∧ ∀ idx, InShape idx s → 0 < a.get idx

/-- The variance that belongs to a precision, as a nonnegative number. -/
def varOf (info : ℝ) : NNReal := Real.toNNReal (1 / info)

/-- The normal distribution with given mean and precision. -/
def normal (mean info : ℝ) : Measure ℝ := gaussianReal mean (varOf info)

/-- The density of the normal distribution with given mean and precision. -/
def normalPdf (mean info : ℝ) : ℝ → ℝ := gaussianPDFReal mean (varOf info)

/-- The differential entropy of a density. -/
def diffEntropy (f : ℝ → ℝ) : ℝ := -∫ x, f x * Real.log (f x)

/-- Independent normal variables: the object `p` holds an array of means and an array of positive
precisions, of one shape. -/
structure HoldsNormals (p : Param) (s : List ℕ) (m i : Arr) : Prop where
  mean : Holds p "mean" m
  info : Holds p "info" i
  mean_arr : IsArr m s
  info_arr : IsPosArr i s

/-- A multivariate normal parameter of dimension `n` that holds the mean `m` and the information
matrix `i`. -/
structure HoldsMvn (p : Param) (n : ℕ) (m i : Arr) : Prop where
  mean : Holds p "mean" m
  info : Holds p "info" i
  mean_arr : IsArr m [n]
  info_arr : IsMat i n n

/-- A 1-d array as a vector of Mathlib's Euclidean space. -/
def euclid (n : ℕ) (m : Arr) : EuclideanSpace ℝ (Fin n) := WithLp.toLp 2 fun k => m.get [(k : ℕ)]

/-- The multivariate normal distribution with given mean and information matrix. -/
def mvn (n : ℕ) (m i : Arr) : Measure (EuclideanSpace ℝ (Fin n)) :=
  multivariateGaussian (euclid n m) (asMatrix n i)⁻¹

/-- The density of the multivariate normal distribution with given mean and information matrix:
`√det(info) (2π)^(-n/2) exp(-(x - mean)ᵀ info (x - mean) / 2)`. -/
def mvnPdf (n : ℕ) (m i : Arr) (x : EuclideanSpace ℝ (Fin n)) : ℝ :=
  √(asMatrix n i).det / √(2 * Real.pi) ^ n *
    Real.exp (-(∑ j : Fin n, ∑ k : Fin n,
      (x j - m.get [(j : ℕ)]) * i.at2 j k * (x k - m.get [(k : ℕ)])) / 2)

/-- The quadrature estimate of `E f(X)` for `X` normal with given mean and precision, for a rule with
nodes `x` and weights `w` for integrals against `exp(-t²)`. -/
def quadrature (x w : Arr) (K : ℕ) (mean info : ℝ) (f : ℝ → ℝ) : ℝ :=
  (∑ k ∈ Finset.range K, w.get [k] * f (√2 * x.get [k] / √info + mean)) / √Real.pi

/-- The rule with nodes `x` and weights `w` integrates polynomials of degree at most `D` exactly
against `exp(-t²)`. -/
def ExactRule (x w : Arr) (K D : ℕ) : Prop :=
  ∀ p : Polynomial ℝ, p.natDegree ≤ D →
    ∑ k ∈ Finset.range K, w.get [k] * p.eval (x.get [k]) = ∫ t, p.eval t * Real.exp (-t ^ 2)

/-- The log likelihood of a logistic regression at the linear predictor `z`: the logarithm of
`p^y (1-p)^(1-y)` for `p = 1 / (1 + exp(-z))`. -/
def logisticLogLik (y z : ℝ) : ℝ :=
  y * Real.log (1 / (1 + Real.exp (-z))) + (1 - y) * Real.log (1 - 1 / (1 + Real.exp (-z)))

/-- Gamma variables: the object `p` holds an array of positive shapes and an array of positive
rates. -/
structure HoldsGammas (p : Param) (s : List ℕ) (a r : Arr) : Prop where
  shape : Holds p "shape" a
  rate : Holds p "rate" r
  shape_arr : IsPosArr a s
  rate_arr : IsPosArr r s

end

end LRVB
