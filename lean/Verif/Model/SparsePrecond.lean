import Verif.Model.Sparse
import Verif.Model.OptUtils

/-!
# Sparse preconditioners — `SparseObjectives.py:21-25, 202-240`

`Model/Objective.lean` has the preconditioned methods for a dense preconditioner.  Here the attribute
`preconditioner` is a dense matrix, a `csr_matrix` or a `csc_matrix` (what the transpose of a `csr_matrix`
is); it is an argument of the functions below, and the field `precond` of the objective is not used.
`np.matrix` is not modelled.
-/

namespace LRVB

open Classical

noncomputable section

namespace Csr

/-- The positions of row `i` in the arrays of the matrix. -/
def rowRange (m : Csr) (i : ℕ) : List ℕ :=
  List.range' (m.indptr.getD i 0) (m.indptr.getD (i + 1) 0 - m.indptr.getD i 0)

/-- The positions and columns are within the arrays.  scipy does not check it (see `Csr.make`); the
compiled loops would otherwise read or write outside of the arrays. -/
def Readable (m : Csr) : Prop :=
  ∀ i < m.nr, ∀ k ∈ m.rowRange i, k < m.data.length ∧ k < m.indices.length ∧ m.indices.getD k 0 < m.nc

/-- scipy's `csr_matvec`: for each row, add `data[k] * x[indices[k]]`. -/
def matvec (m : Csr) (x : List ℝ) : List ℝ :=
  (List.range m.nr).map fun i =>
    (m.rowRange i).foldl (fun s k => s + m.data.getD k 0 * x.getD (m.indices.getD k 0) 0) 0

/-- scipy's `csc_matvec` for the transpose, which has the same arrays: for each row `i` of `m` add
`data[k] * x[i]` to `y[indices[k]]`. -/
def matvecT (m : Csr) (x : List ℝ) : List ℝ :=
  (List.range m.nr).foldl
    (fun y i => (m.rowRange i).foldl
      (fun y k => y.modify (m.indices.getD k 0) (· + m.data.getD k 0 * x.getD i 0)) y)
    (List.replicate m.nc 0)

end Csr

/-- A matrix: a 2-d array, a `csr_matrix`, or a `csc_matrix` (given by its transpose). -/
inductive Mat
  | dense (a : Arr)
  | csr (m : Csr)
  | csc (m : Csr)

namespace Mat

/-- `issparse(x)`. -/
def isSparse : Mat → Bool
  | .dense _ => false
  | _ => true

/-- `x.T`. -/
def transpose : Mat → Mat
  | .dense a => .dense a.transpose
  | .csr m => .csc m
  | .csc m => .csr m

/-- `safe_matmul(x, y)` for a 1-d array `y`: `SparseObjectives.py:21-25`.  scipy raises `ValueError` for
a wrong length, as numpy does. -/
def safeMatVec : Mat → List ℝ → Py (List ℝ)
  | .dense a, y => a.mulVec y
  | .csr m, y =>
    if y.length ≠ m.nc then .error .valueError
    else if m.Readable then .ok (m.matvec y) else .error .unmodelled
  | .csc m, y =>
    if y.length ≠ m.nr then .error .valueError
    else if m.Readable then .ok (m.matvecT y) else .error .unmodelled

/-- Column `j` of a 2-d array with `r` rows. -/
def column (b : Arr) (r j : ℕ) : List ℝ := (List.range r).map fun i => b.at2 i j

/-- The product of a sparse matrix and a 2-d array: scipy's `csr_matvecs` and `csc_matvecs`, which do what
`csr_matvec` and `csc_matvec` do, for all columns at the same time. -/
def sparseMatmul : Mat → Arr → Py Arr
  | .dense _, _ => .error .unmodelled
  | .csr m, b =>
    match b.shape with
    | [r, c] =>
      if r ≠ m.nc then .error .valueError
      else if m.Readable then .ok (Arr.ofFn2 m.nr c fun i j => (m.matvec (column b r j)).getD i 0)
      else .error .unmodelled
    | _ => .error .unmodelled
  | .csc m, b =>
    match b.shape with
    | [r, c] =>
      if r ≠ m.nr then .error .valueError
      else if m.Readable then .ok (Arr.ofFn2 m.nc c fun i j => (m.matvecT (column b r j)).getD i 0)
      else .error .unmodelled
    | _ => .error .unmodelled

/-- `safe_matmul(x, y)` for matrices: `SparseObjectives.py:21-25`.  For a 2-d array times a sparse matrix
scipy's `__rmul__` returns `(y.T * x.T).T`.  For two sparse matrices see `Model/SparseProduct`. -/
def safeMatmul : Mat → Mat → Py Arr
  | .dense a, .dense b => a.matmul b
  | .dense a, y =>
    match a.shape with
    | [_, _] => do .ok (← y.transpose.sparseMatmul a.transpose).transpose
    | _ => .error .unmodelled
  | x, .dense b => x.sparseMatmul b
  | _, _ => .error .unmodelled

/-- `x.todense()` as an array. -/
def toArr : Mat → Arr
  | .dense a => a
  | .csr m => Arr.ofFn2 m.nr m.nc m.toDense
  | .csc m => Arr.ofFn2 m.nc m.nr fun i j => m.toDense j i

end Mat

namespace Objective

variable {A : Type}

/-- `fun_free_cond`: `SparseObjectives.py:207-210`. -/
def funFreeCondM (o : Objective A) (P : Mat) (x : List ℝ) (a : A) (verbose : Bool) : Objective A × Py Arr :=
  match P.safeMatVec x with
  | .error e => (o, .error e)
  | .ok y => o.funFree y a verbose

/-- `fun_free_grad_cond`: `SparseObjectives.py:212-216`. -/
def funFreeGradCondM (o : Objective A) (P : Mat) (x : List ℝ) (a : A) : Objective A × Py (List ℝ) :=
  match P.safeMatVec x with
  | .error e => (o, .error e)
  | .ok y =>
    let r := o.funFreeGrad y a
    (r.1, do P.transpose.safeMatVec (← r.2))

/-- `fun_free_hessian_cond`: `SparseObjectives.py:218-223`. -/
def funFreeHessianCondM (o : Objective A) (P : Mat) (x : List ℝ) (a : A) : Objective A × Py Arr :=
  match P.safeMatVec x with
  | .error e => (o, .error e)
  | .ok y =>
    let r := o.funFreeHessian y a
    (r.1, do P.transpose.safeMatmul (.dense (← (Mat.dense (← r.2)).safeMatmul P)))

/-- `fun_free_hvp_cond`: `SparseObjectives.py:226-235`. -/
def funFreeHvpCondM (o : Objective A) (P : Mat) (x : List ℝ) (a : A) (vec : List ℝ) :
    Objective A × Py (List ℝ) :=
  match P.safeMatVec x with
  | .error e => (o, .error e)
  | .ok y =>
    match P.safeMatVec vec with
    | .error e => (o, .error e)
    | .ok pv =>
      let r := o.funFreeHvp y a pv
      (r.1, do P.transpose.safeMatVec (← r.2))

end Objective

/-- `np.linalg.solve(P, v)`.  numpy makes a 0-d array of objects from a sparse matrix and raises
`LinAlgError`. -/
def npSolveM : Mat → List ℝ → Py (List ℝ)
  | .dense a, v => npSolve a v
  | _, _ => .error .linAlgError

/-- `minimize_objective_trust_ncg` and `minimize_objective_bfgs` with `precondition=True`:
`OptimizationUtils.py:44-75, 78-108`; see `minimizeObjective`. -/
def minimizePreconditioned (useHvp : Bool) (opt : List ℝ → Optimizer) (o : Objective Unit) (P : Mat)
    (initX : List ℝ) (disp : Bool) (printEvery : Option ℕ) (initLogger : Bool) :
    Objective Unit × Py (List ℝ × OptResult) :=
  let o1 := if initLogger then { o with logger := o.logger.reset } else o
  let o2 := match printEvery with
    | none => o1
    | some k => { o1 with logger := { o1.logger with printEvery := k } }
  match npSolveM P initX with
  | .error e => (o2, .error e)
  | .ok x0 =>
    let r := (opt x0).run (fun o x => o.funFreeCondM P x () disp) (fun o x => o.funFreeGradCondM P x ())
      (if useHvp then some fun o x v => o.funFreeHvpCondM P x () v else none) o2
    match r.2 with
    | .error e => (r.1, .error e)
    | .ok res =>
      match P.safeMatVec res.x with
      | .error e => (r.1, .error e)
      | .ok optX => (r.1, .ok (optX, res))

end

end LRVB
