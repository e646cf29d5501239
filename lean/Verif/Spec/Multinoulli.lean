import Verif.Spec.Families

/-!
# Discrete distributions
-/

namespace LRVB

open Arr

noncomputable section

/-- Every row of the 2-d array `p` holds the probabilities of a distribution on `c` values. -/
structure IsProbRows (p : Arr) (r c : ℕ) : Prop where
  arr : IsArr p [r, c]
  nonneg : ∀ i < r, ∀ j < c, 0 ≤ p.get [i, j]
  sum : ∀ i < r, ∑ j ∈ Finset.range c, p.get [i, j] = 1

/-- The Shannon entropy of the distribution with probabilities `q 0, ..., q (c - 1)`
(`0 log 0 = 0`). -/
def shannon (c : ℕ) (q : ℕ → ℝ) : ℝ := -∑ j ∈ Finset.range c, q j * Real.log (q j)

end

end LRVB
