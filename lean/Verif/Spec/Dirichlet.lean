import Mathlib.Analysis.SpecialFunctions.Gamma.Basic
import Mathlib.MeasureTheory.Measure.Lebesgue.Basic

/-!
# Specification vocabulary: the Dirichlet distribution

The standard simplex in dimension `m + 1` is parameterized by all coordinates but the first.
-/

namespace LRVB

open scoped BigOperators

noncomputable section

/-- The point `(1 - x_1 - ... - x_m, x_1, ..., x_m)`, whose coordinates sum to one. -/
def simplexPoint {m : ℕ} (x : Fin m → ℝ) : Fin (m + 1) → ℝ := Fin.cons (1 - ∑ i, x i) x

/-- The density of the Dirichlet distribution at `x`, with respect to Lebesgue measure. -/
def dirichletPdf {m : ℕ} (α : Fin (m + 1) → ℝ) (x : Fin m → ℝ) : ℝ :=
  open Classical in
  if ∀ i, 0 ≤ simplexPoint x i then
    Real.Gamma (∑ i, α i) / (∏ i, Real.Gamma (α i)) * ∏ i, simplexPoint x i ^ (α i - 1)
  else 0

end

end LRVB
