import Verif.Model.Arr
import Mathlib.LinearAlgebra.Matrix.PosDef
import Mathlib.Algebra.Order.Star.Real

/-!
# Specification vocabulary: arrays as Mathlib matrices, row-major rank
-/

namespace LRVB

/-- A 2-d array read as a Mathlib matrix. -/
def asMatrix (n : ℕ) (a : Arr) : Matrix (Fin n) (Fin n) ℝ := Matrix.of fun i j => a.at2 i j

/-- `a` is a well-formed `r × c` array. -/
def IsMat (a : Arr) (r c : ℕ) : Prop := a.WF ∧ a.shape = [r, c]

/-- The row-major (C order) rank of a multi-index: `∑ₖ idxₖ · (product of the later
dimensions)`. -/
def rowMajorRank (idx shape : List ℕ) : ℕ :=
  ∑ k ∈ Finset.range idx.length, idx.getD k 0 * (shape.drop (k + 1)).prod

/-- The inner product of two vectors. -/
def dot (x y : List ℝ) : ℝ := (List.zipWith (· * ·) x y).sum

/-- The vector `v + t g`. -/
def lineVec (v g : List ℝ) (t : ℝ) : List ℝ := List.zipWith (fun a b => a + t * b) v g

end LRVB
