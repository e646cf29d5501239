import Verif.Model.Dict
import Mathlib.LinearAlgebra.Matrix.PosDef

/-!
# Which vectors are the vectors of legal values

The vector of a parameter lists the entries of its value; the vector of a matrix lists the lower
triangle row by row.  The vector of a dictionary is the vectors of its entries one after the other.
-/

namespace LRVB

open Flt

/-- The symmetric `n × n` matrix whose lower triangle is listed in `v`, less `d` on the diagonal, is
positive definite. -/
def LegalTri (n : ℕ) (d : ℝ) (v : List ℝ) : Prop :=
  (Matrix.of (fun i j : Fin n => v.getD (max i j * (max i j + 1) / 2 + min (i : ℕ) j) 0) -
    d • (1 : Matrix (Fin n) (Fin n) ℝ)).PosDef

/-- The vectors of the legal values of one parameter: entries strictly between the bounds; matrices
that stay positive definite when `diag_lb` is subtracted from the diagonal; rows of positive numbers
that sum to one; vectors orthogonal to whatever is orthogonal to the columns of the basis of the
subspace. -/
def Kind.LegalVec : Kind → List ℝ → Prop
  | .scalar lb ub, v => ∀ a ∈ v, lb < fin a ∧ fin a < ub
  | .vector _ lb ub, v => ∀ a ∈ v, lb < fin a ∧ fin a < ub
  | .array _ lb ub, v => ∀ a ∈ v, lb < fin a ∧ fin a < ub
  | .posdef n d, v => LegalTri n d v
  | .posdefVec len n d, v =>
    ∀ b < len, LegalTri n d ((v.drop (n * (n + 1) / 2 * b)).take (n * (n + 1) / 2))
  | .posdefArr s n d, v =>
    ∀ b < s.prod, LegalTri n d ((v.drop (n * (n + 1) / 2 * b)).take (n * (n + 1) / 2))
  | .simplex r c, v => (∀ a ∈ v, 0 < a) ∧
    ∀ i < r, ∑ j ∈ Finset.range c, v.getD (i * c + j) 0 = 1
  | .subspace dim free basis, v => ∀ u : ℕ → ℝ,
    (∀ j < free, ∑ k ∈ Finset.range dim, u k * basis.at2 k j = 0) →
      ∑ k ∈ Finset.range dim, u k * v.getD k 0 = 0

mutual
/-- The vectors of the legal values of a parameter or a dictionary. -/
def Param.LegalVec : Param → List ℝ → Prop
  | .leaf l, v => l.kind.LegalVec v
  | .dict _ es, v => es.LegalVec v
/-- ... of the entries of a dictionary. -/
def Entries.LegalVec : Entries → List ℝ → Prop
  | .nil, _ => True
  | .cons _ p rest, v => p.LegalVec (v.take p.vecSize) ∧ rest.LegalVec (v.drop p.vecSize)
end

end LRVB
