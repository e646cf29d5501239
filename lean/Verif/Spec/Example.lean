import Verif.Model.Example
import Verif.Spec.Families
import Verif.Props.LocalMin

/-!
# What the example notebook should compute

The observations are independent normal vectors, `y_n ~ N(βᵀ x_n, Λ⁻¹)`; observation `n` counts `w_n` times.
-/

namespace LRVB

namespace Example

open Families

noncomputable section

/-- The data: `N` observations of `d` responses and `d` regressors, and the weights. -/
structure Data (N d : ℕ) (y x w : Arr) : Prop where
  y : IsMat y N d
  x : IsMat x N d
  w : IsArr w [N]

/-- The mean of observation `n`: entry `j` is `∑ₖ x_nk β_kj`. -/
def meanOf (d : ℕ) (x b : Arr) (n : ℕ) : Arr := Arr.ofFn [d] fun idx => ∑ k : Fin d, x.at2 n k * b.at2 k (idx.getD 0 0)

/-- The weighted log likelihood: the sum of the weighted log densities of the observations. -/
def weightedLogLik (N d : ℕ) (y x w b l : Arr) : ℝ :=
  ∑ n : Fin N, w.get [(n : ℕ)] *
    Real.log (mvnPdf d (meanOf d x b n) l (WithLp.toLp 2 fun j : Fin d => y.at2 n j))

/-- The residual of response `j` of observation `n`. -/
def residual (d : ℕ) (y x b : Arr) (n j : ℕ) : ℝ := y.at2 n j - ∑ k : Fin d, x.at2 n k * b.at2 k j

/-- The likelihood equations: the weighted residuals are orthogonal to the regressors, and the covariance is
the weighted average of the outer products of the residuals. -/
def LikelihoodEquations (N d : ℕ) (y x w b l : Arr) : Prop :=
  (∀ i j : Fin d, ∑ n : Fin N, w.get [(n : ℕ)] * x.at2 n i * residual d y x b n j = 0) ∧
    ∀ i j : Fin d, ∑ n : Fin N, w.get [(n : ℕ)] * residual d y x b n i * residual d y x b n j =
      (∑ n : Fin N, w.get [(n : ℕ)]) * (asMatrix d l)⁻¹ i j

/-- The weighted Gram matrix of the regressors. -/
def gramMatrix (N d : ℕ) (x w : Arr) : Matrix (Fin d) (Fin d) ℝ :=
  Matrix.of fun i j => ∑ n : Fin N, w.get [(n : ℕ)] * x.at2 n i * x.at2 n j

/-- The free vector `z` is a local minimizer of `eval_objective`. -/
def ObjectiveLocalMin (p : Param) (y x w : Arr) (z : List ℝ) : Prop :=
  ∃ a, (evalObjective p y x w z).2 = .ok a ∧ ∃ ε > 0, ∀ (z' : List ℝ) (a' : ℝ), z'.length = p.freeSize →
    Within p.freeSize ε z' z → (evalObjective p y x w z').2 = .ok a' → a ≤ a'

/-- The influence of observation `n` on coefficient `(i, j)` in weighted least squares: the derivative of the
fitted coefficient in the weight of the observation. -/
def influence (N d : ℕ) (y x w b : Arr) (n : ℕ) (i : Fin d) (j : ℕ) : ℝ :=
  ∑ k : Fin d, (gramMatrix N d x w)⁻¹ i k * x.at2 n k * residual d y x b n j

/-- The leverage of observation `n`. -/
def leverage (N d : ℕ) (x w : Arr) (n : ℕ) : ℝ :=
  ∑ k : Fin d, ∑ l : Fin d, x.at2 n k * (gramMatrix N d x w)⁻¹ k l * x.at2 n l

/-- The weights with that of observation `n` changed by `t`. -/
def reweight (w : Arr) (n : ℕ) (t : ℝ) : Arr := ⟨w.shape, w.data.set n (w.data.getD n 0 + t)⟩

end

end Example

end LRVB
