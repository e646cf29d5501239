import Verif.Model.Arr
import Mathlib.Analysis.SpecialFunctions.Exp
import Mathlib.Analysis.SpecialFunctions.Log.Basic
import Mathlib.Analysis.SpecialFunctions.Sqrt
import Mathlib.Algebra.BigOperators.Fin
import Mathlib.Algebra.Order.Floor.Semiring

/-!
# Lower-triangular packing — `MatrixParameters.py:15-130`
-/

namespace LRVB

open Classical

noncomputable section

/-- `MatrixParameters.py:16-23` `SymIndex`.  The inner `LDInd` computes
`int(k2 + k1 * (k1 + 1) / 2)`; the division is exact. -/
def symIndex (k1 k2 : ℕ) : ℕ :=
  if k2 ≤ k1 then k2 + k1 * (k1 + 1) / 2 else k1 + k2 * (k2 + 1) / 2

/-- `np.tril_indices(n)`, in numpy's row-by-row order. -/
def trilIndices (n : ℕ) : List (ℕ × ℕ) :=
  (List.range n).flatMap fun i => (List.range (i + 1)).map fun j => (i, j)

/-- `MatrixParameters.py:38-41` `vectorize_ld_matrix`.  `nrow, ncol = np.shape(mat)`
raises `ValueError` when `mat` is not 2-d. -/
def vectorizeLd (m : Arr) : Py (List ℝ) :=
  match m.shape with
  | [r, c] => if r ≠ c then .error .valueError
              else .ok ((trilIndices r).map fun p => m.at2 p.1 p.2)
  | _ => .error .valueError

/-- `MatrixParameters.py:61`: `int(0.5 * (math.sqrt(1 + 8 * vec.size) - 1))`, with the exact
square root. -/
def ldMatSize (len : ℕ) : ℕ := ⌊(1 / 2 : ℝ) * (Real.sqrt (1 + 8 * (len : ℝ)) - 1)⌋₊

/-- `MatrixParameters.py:59-68` `unvectorize_ld_matrix`.  The two assignment loops are
written as a function of the position: positions the loops do not visit keep 0. -/
def unvectorizeLd (v : List ℝ) : Py Arr :=
  let n := ldMatSize v.length
  if n * (n + 1) ≠ 2 * v.length then .error .valueError
  else .ok (Arr.ofFn2 n n fun k1 k2 => if k2 ≤ k1 then v.getD (symIndex k1 k2) 0 else 0)

/-- `MatrixParameters.py:70-75`, the reverse-mode rule. -/
def unvectorizeLdVjp (g : Arr) : Py (List ℝ) :=
  match g.shape with
  | r :: c :: _ => if r ≠ c then .error .assertionError else vectorizeLd g
  | _ => .error .indexError

/-- `MatrixParameters.py:77-80`, the forward-mode rule. -/
def unvectorizeLdJvp (g : List ℝ) : Py Arr := unvectorizeLd g

/-- `MatrixParameters.py:83-89` `exp_matrix_diagonal`, for 2-d arguments. -/
def expMatrixDiagonal (m : Arr) : Py Arr :=
  match m.shape with
  | [r, c] =>
    if r ≠ c then .error .assertionError
    else .ok (Arr.ofFn2 r r fun i j =>
      (if i = j then Real.exp (m.at2 i i) else 0) + m.at2 i j - (if i = j then m.at2 i i else 0))
  | _ => .error .unmodelled

/-- `MatrixParameters.py:92-98` `log_matrix_diagonal`, for 2-d arguments; a nonpositive
diagonal entry would give `-inf` or NaN. -/
def logMatrixDiagonal (m : Arr) : Py Arr :=
  match m.shape with
  | [r, c] =>
    if r ≠ c then .error .assertionError
    else if ¬ ∀ i < r, 0 < m.at2 i i then .error .nonFinite
    else .ok (Arr.ofFn2 r r fun i j =>
      (if i = j then Real.log (m.at2 i i) else 0) + m.at2 i j - (if i = j then m.at2 i i else 0))
  | _ => .error .unmodelled

/-- The recursion of the Cholesky factorization (what LAPACK `potrf` computes, in exact
arithmetic): entry `(i, j)` of the factor from the lower triangle of `A`. -/
def cholEntry (A : ℕ → ℕ → ℝ) (i j : ℕ) : ℝ :=
  if j < i then
    (A i j - ∑ k : Fin j, cholEntry A i k * cholEntry A j k) / cholEntry A j j
  else if j = i then
    Real.sqrt (A i i - ∑ k : Fin i, cholEntry A i k * cholEntry A i k)
  else 0
termination_by (i, j)
decreasing_by
  all_goals first
    | (apply Prod.Lex.right; omega)
    | (apply Prod.Lex.left; omega)

/-- The pivot of step `i`; `potrf` reports failure at the first nonpositive one. -/
def cholPivot (A : ℕ → ℕ → ℝ) (i : ℕ) : ℝ :=
  A i i - ∑ k : Fin i, cholEntry A i k * cholEntry A i k

/-- `np.linalg.cholesky`: reads the lower triangle only; `LinAlgError` when the argument is not
square or a pivot is not positive. -/
def cholesky (m : Arr) : Py Arr :=
  match m.shape with
  | [r, c] =>
    if r ≠ c then .error .linAlgError
    else if ∀ i < r, 0 < cholPivot m.at2 i then .ok (Arr.ofFn2 r r (cholEntry m.at2))
    else .error .linAlgError
  | _ => .error .linAlgError

/-- `MatrixParameters.py:101-105` `pack_posdef_matrix`.  A non-square argument is outside the
model (numpy would try to broadcast it). -/
def packPosdef (m : Arr) (diagLb : ℝ) : Py (List ℝ) :=
  match m.shape with
  | [r, c] =>
    if r ≠ c then .error .unmodelled
    else do
      let l ← cholesky (Arr.ofFn2 r r fun i j => m.at2 i j - (if i = j then diagLb else 0))
      let g ← logMatrixDiagonal l
      vectorizeLd g
  | _ => .error .unmodelled

/-- `MatrixParameters.py:108-112` `unpack_posdef_matrix`. -/
def unpackPosdef (x : List ℝ) (diagLb : ℝ) : Py Arr := do
  let m ← unvectorizeLd x
  let l ← expMatrixDiagonal m
  let n := l.shape.getD 0 0
  .ok (Arr.ofFn2 n n fun i j =>
    (∑ k ∈ Finset.range n, l.at2 i k * l.at2 j k) + (if i = j then diagLb else 0))

/-- `MatrixParameters.py:117-125` `unvectorize_symmetric_matrix`. -/
def unvectorizeSym (v : List ℝ) : Py Arr := do
  let m ← unvectorizeLd v
  let n := m.shape.getD 0 0
  .ok (Arr.ofFn2 n n fun i j =>
    m.at2 i j + m.at2 j i - (if i = j then m.at2 i i else 0))

/-- `MatrixParameters.py:128-130` `pos_def_matrix_free_to_vector`. -/
def posDefFreeToVector (x : List ℝ) (diagLb : ℝ) : Py (List ℝ) := do
  let m ← unpackPosdef x diagLb
  vectorizeLd m

end

end LRVB
