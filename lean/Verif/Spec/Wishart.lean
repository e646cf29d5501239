import Verif.Spec.Matrix
import Mathlib.MeasureTheory.Constructions.Pi
import Mathlib.MeasureTheory.Measure.Lebesgue.Basic
import Mathlib.Analysis.SpecialFunctions.Gamma.Basic
import Mathlib.Analysis.Matrix.Order
import Mathlib.Analysis.SpecialFunctions.Sqrt
import Mathlib.Data.Sym.Card

/-!
# The Wishart distribution

A symmetric matrix is a number for every unordered pair of indices; "volume" is Lebesgue measure in
these independent entries.
-/

namespace LRVB

open MeasureTheory

noncomputable section

/-- The symmetric matrix with the given entries. -/
def symmMat {ι : Type*} (z : Sym2 ι → ℝ) : Matrix ι ι ℝ := Matrix.of fun i j => z s(i, j)

/-- The multivariate gamma function
`Γ_n(s) = π^(n(n-1)/4) Γ(s) Γ(s - 1/2) ... Γ(s - (n-1)/2)`. -/
def multiGamma (n : ℕ) (s : ℝ) : ℝ :=
  Real.pi ^ ((n : ℝ) * ((n : ℝ) - 1) / 4) * ∏ j ∈ Finset.range n, Real.Gamma (s - (j : ℝ) / 2)

open Classical in
/-- The density of the Wishart distribution with scale matrix `v` and `df` degrees of freedom:
`det(X)^((df-n-1)/2) exp(-tr(v⁻¹ X)/2) / (2^(df n/2) det(v)^(df/2) Γ_n(df/2))` on the positive
definite matrices, and zero elsewhere. -/
def wishartPdf (n : ℕ) (df : ℝ) (v : Matrix (Fin n) (Fin n) ℝ) (z : Sym2 (Fin n) → ℝ) : ℝ :=
  if (symmMat z).PosDef then
    (symmMat z).det ^ ((df - n - 1) / 2) * Real.exp (-(v⁻¹ * symmMat z).trace / 2) /
      (2 ^ (df * n / 2) * v.det ^ (df / 2) * multiGamma n (df / 2))
  else 0

/-- The Wishart distribution with scale matrix `v` and `df` degrees of freedom. -/
def wishart (n : ℕ) (df : ℝ) (v : Matrix (Fin n) (Fin n) ℝ) : Measure (Sym2 (Fin n) → ℝ) :=
  volume.withDensity fun z => ENNReal.ofReal (wishartPdf n df v z)

/-- The correlation matrix of a covariance matrix. -/
def corr {ι : Type*} (S : Matrix ι ι ℝ) : Matrix ι ι ℝ :=
  Matrix.of fun i j => S i j / (√(S i i) * √(S j j))

end

end LRVB
