import Verif.Model.Regression
import Verif.Spec.Families

/-!
# Specification vocabulary: weighted least squares

Arrays of shape `b ++ [r, t]` hold one matrix for every multi-index of shape `b`.
-/

namespace LRVB

open Matrix Regression

noncomputable section

/-- The matrix `a[bi]` of an array of `r × t` matrices. -/
def matAt (a : Arr) (bi : List ℕ) (r t : ℕ) : Matrix (Fin r) (Fin t) ℝ :=
  Matrix.of fun i j => a.get (bi ++ [(i : ℕ), (j : ℕ)])

/-- The vector `a[bi]` of an array of vectors of length `r`. -/
def vecAt (a : Arr) (bi : List ℕ) (r : ℕ) : Fin r → ℝ := fun i => a.get (bi ++ [(i : ℕ)])

/-- The weight matrix at `bi`: the given one, or a multiple of the identity matrix. -/
def weightAt (info : Info) (bi : List ℕ) (s : ℕ) : Matrix (Fin s) (Fin s) ℝ :=
  match info with
  | .scalar c => c • 1
  | .arr a => matAt a bi s s

/-- `info` is a scalar or an array of `s × s` matrices. -/
def InfoShape (info : Info) (b : List ℕ) (s : ℕ) : Prop :=
  match info with
  | .scalar _ => True
  | .arr a => IsArr a (b ++ [s, s])

/-- The weighted least squares criterion at `bi`: the sum over all responses `y[bi, ei]` of
`(y - xβ)ᵀ W (y - xβ)`. -/
def wls (y x : Arr) (info : Info) (e bi : List ℕ) (s r : ℕ) (β : Fin r → ℝ) : ℝ :=
  ((indexProduct e).map fun ei =>
    (vecAt y (bi ++ ei) s - matAt x bi s r *ᵥ β) ⬝ᵥ
      (weightAt info bi s *ᵥ (vecAt y (bi ++ ei) s - matAt x bi s r *ᵥ β))).sum

/-- `(β - m)ᵀ L (β - m)`. -/
def quadForm {r : ℕ} (m : Fin r → ℝ) (L : Matrix (Fin r) (Fin r) ℝ) (β : Fin r → ℝ) : ℝ :=
  (β - m) ⬝ᵥ (L *ᵥ (β - m))

end

end LRVB
