import Verif.Model.Objective

/-!
# Free and vector coordinates of a parameter
-/

namespace LRVB

/-- The number of coordinates: of free values (`free = true`) or of vector entries. -/
def Param.sizeIn (p : Param) (free : Bool) : ℕ := if free then p.freeSize else p.vecSize

/-- The coordinates `x`, free values or vector entries, stand for the vector value `v`, and `P` is the
derivative of the vector value in the coordinates: what `free_to_vector_jac` returns for free values, the
identity matrix for vector entries. -/
structure Coordinates (p : Param) (free : Bool) (x v : List ℝ) (P : ℕ → ℕ → ℝ) : Prop where
  length : x.length = p.sizeIn free
  value : if free then p.freeToVectorVal x = .ok v else v = x
  jac : if free then ∃ p' J, p.jac x = (p', .ok J) ∧ ∀ i < p.vecSize, ∀ j < p.freeSize, P i j = J.toDense i j
    else ∀ i < p.vecSize, ∀ j < p.vecSize, P i j = if i = j then 1 else 0

end LRVB
