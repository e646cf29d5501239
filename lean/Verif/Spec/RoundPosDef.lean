import Verif.Spec.RoundLogistic
import Verif.Model.RoundPosDef

/-!
# Specification vocabulary: the free values of a positive definite matrix
-/

namespace LRVB

noncomputable section

/-- The lower triangular matrix that is described by a free value: the free value lists its rows, with the
logarithms of the diagonal entries. -/
def posdefFactor (v : List ℝ) (i k : ℕ) : ℝ :=
  if i = k then Real.exp (v.getD (i * (i + 1) / 2 + i) 0)
  else if k < i then v.getD (i * (i + 1) / 2 + k) 0
  else 0

/-- The matrix that is described by a free value. -/
def posdefExact (n : ℕ) (lb : ℝ) (v : List ℝ) (i j : ℕ) : ℝ :=
  ((List.range n).map fun k => posdefFactor v i k * posdefFactor v j k).sum + if i = j then lb else 0

/-- The magnitude of the numbers that occur in the computation of the lower triangular matrix. -/
def posdefFactorSize (v : List ℝ) (i k : ℕ) : ℝ :=
  if i = k then |posdefFactor v i k| + 2 * |v.getD (i * (i + 1) / 2 + i) 0| + 3 else |posdefFactor v i k| + 1

/-- The magnitude of the numbers that occur in the computation of an entry. -/
def posdefSize (n : ℕ) (lb : ℝ) (v : List ℝ) (i j : ℕ) : ℝ :=
  ((List.range n).map fun k => posdefFactorSize v i k * posdefFactorSize v j k).sum + lb + 2

/-- The condition of a free value of a diagonal entry. -/
def logCondition (d : ℝ) : ℝ := (1 + |d|) * (Real.exp d + Real.exp (-d))

/-- A sum of at most two numbers is computed exactly, except for the rounding of the result. -/
structure SmallSums (o : FloatOps) : Prop where
  nil : o.sumR [] = Flt.fin 0
  one {a : ℝ} : o.Rep a → o.sumR [a] = Flt.fin a
  two {a b : ℝ} : o.Rep a → o.Rep b → o.sumR [a, b] = o.rnd (a + b)

end

end LRVB
