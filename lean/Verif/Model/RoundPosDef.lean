import Verif.Model.RoundLogistic

/-!
# Positive definite matrices in floating point

The transforms of `PosDefMatrixParam` (`MatrixParameters.py`) again, now with the result of every operation
rounded.  Matrices are functions of two indices.
-/

namespace LRVB

open Classical Flt

noncomputable section

namespace FloatOps

variable (o : FloatOps)

/-- `unvectorize_ld_matrix(vec)`, for a vector of the right size: `MatrixParameters.py:60-68`. -/
def ldMatrix (v : List ℝ) (i j : ℕ) : Flt := if j ≤ i then fin (v.getD (symIndex i j) 0) else fin 0

/-- `make_diagonal(d)`. -/
def makeDiagonal (d : ℕ → Flt) (i j : ℕ) : Flt := if i = j then d i else fin 0

/-- `exp_matrix_diagonal(mat)`: `MatrixParameters.py:82-88`. -/
def expMatrixDiagonal (mat : ℕ → ℕ → Flt) (i j : ℕ) : Flt :=
  o.sub (o.add (makeDiagonal (fun i => o.exp (mat i i)) i j) (mat i j)) (makeDiagonal (fun i => mat i i) i j)

/-- `log_matrix_diagonal(mat)`: `MatrixParameters.py:91-97`. -/
def logMatrixDiagonal (mat : ℕ → ℕ → Flt) (i j : ℕ) : Flt :=
  o.sub (o.add (makeDiagonal (fun i => o.log (mat i i)) i j) (mat i j)) (makeDiagonal (fun i => mat i i) i j)

/-- `np.matmul(a, a.T)` of a matrix with `n` columns; the order of the additions is that of `np.sum`. -/
def matmulTranspose (n : ℕ) (a : ℕ → ℕ → Flt) (i j : ℕ) : Flt :=
  o.sum ((List.range n).map fun k => o.mul (a i k) (a j k))

/-- `unpack_posdef_matrix(free_vec, diag_lb)`: `MatrixParameters.py:107-111`. -/
def unpackPosdef (n : ℕ) (diagLb : Flt) (v : List ℝ) (i j : ℕ) : Flt :=
  o.add (o.matmulTranspose n (o.expMatrixDiagonal (ldMatrix v)) i j) (makeDiagonal (fun _ => diagLb) i j)

/-- The columns before `m` of `np.linalg.cholesky(a)`, column by column as in LAPACK's `dpotf2`. -/
def choleskyColumns (a : ℕ → ℕ → Flt) : ℕ → Py (ℕ → ℕ → Flt)
  | 0 => .ok fun _ _ => fin 0
  | m + 1 => do
    let l ← choleskyColumns a m
    let pivot := o.sub (a m m) (o.sum ((List.range m).map fun k => o.mul (l m k) (l m k)))
    if ¬ fin 0 < pivot then .error .linAlgError
    else
      let d := o.sqrt pivot
      .ok fun i j =>
        if j = m then
          if i = m then d
          else if m < i then o.div (o.sub (a i m) (o.sum ((List.range m).map fun k => o.mul (l i k) (l m k)))) d
          else fin 0
        else l i j

/-- `pack_posdef_matrix(mat, diag_lb)`: `MatrixParameters.py:100-104`. -/
def packPosdef (n : ℕ) (diagLb : Flt) (mat : ℕ → ℕ → Flt) : Py (List Flt) := do
  let l ← o.choleskyColumns (fun i j => o.sub (mat i j) (makeDiagonal (fun _ => diagLb) i j)) n
  .ok ((trilIndices n).map fun p => o.logMatrixDiagonal l p.1 p.2)

/-- `set_free(free_val)` of a `PosDefMatrixParam`, for a free value of the right size: `MatrixParameters.py:170-173`,
with the check of `set` (`MatrixParameters.py:159-165`).  The result is the new value. -/
def posdefSetFree (n : ℕ) (diagLb : Flt) (v : List ℝ) : Py (ℕ → ℕ → Flt) :=
  if ∀ i < n, ∀ j < n, (o.unpackPosdef n diagLb v j i).eq (o.unpackPosdef n diagLb v i j) then
    .ok (o.unpackPosdef n diagLb v)
  else .error .valueError

/-- `set_free(free_val)` and then `get_free()`: `MatrixParameters.py:170-175`. -/
def posdefRoundTrip (n : ℕ) (diagLb : Flt) (v : List ℝ) : Py (List Flt) := do
  o.packPosdef n diagLb (← o.posdefSetFree n diagLb v)

end FloatOps

end

end LRVB
