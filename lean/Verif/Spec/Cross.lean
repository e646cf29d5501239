import Verif.Spec.Deriv
import Verif.Spec.Matrix

/-!
# Specification vocabulary: mixed second derivatives of a function of two vectors
-/

namespace LRVB

/-- `d` is the mixed second partial derivative at `(x1, x2)` of the number `F` returns, first with
respect to entry `i` of the first vector and then with respect to entry `j` of the second. -/
def MixedPartial (F : List ℝ → List ℝ → Py Arr) (i j : ℕ) (x1 x2 : List ℝ) (d : ℝ) : Prop :=
  ∃ D : ℝ → ℝ, (∀ s, PartialDeriv (fun y => Arr.data <$> F y (x2.set j s)) 0 i x1 (D s)) ∧
    HasDerivAt D d (x2.getD j 0)

/-- `H` is the `n1 × n2` matrix of mixed partial derivatives of `F` at `(x1, x2)`, the first vector
in the rows. -/
def IsCrossHessian (F : List ℝ → List ℝ → Py Arr) (n1 n2 : ℕ) (x1 x2 : List ℝ) (H : Arr) : Prop :=
  IsMat H n1 n2 ∧ ∀ i < n1, ∀ j < n2, MixedPartial F i j x1 x2 (H.at2 i j)

end LRVB
