import Verif.Model.SparsePrecond

/-!
# Products of two sparse matrices, and `compress` — `SparseObjectives.py:21-31`

The products of scipy are modelled loop by loop (`csr_matmat` of `scipy/sparse/sparsetools/csr.h`); the arrays
have reals as entries.
-/

namespace LRVB

open Classical

noncomputable section

namespace Csr

/-- The `(column, value)` pairs of row `i`, in the order in which they are stored. -/
def rowEntries (m : Csr) (i : ℕ) : List (ℕ × ℝ) :=
  (m.rowRange i).map fun k => (m.indices.getD k 0, m.data.getD k 0)

/-- scipy's `csr_tocsc`: the arrays of the same matrix by columns, that is, the rows of the transpose. -/
def byColumns (m : Csr) : Csr :=
  ofRows m.nc m.nr fun j =>
    (List.range m.nr).flatMap fun i => ((m.rowEntries i).filter fun e => decide (e.1 = j)).map fun e => (i, e.2)

/-- The loop of `csr_matmat` over the products of one row: `sums[k] += v`, and the column `k` is put in front of
the linked list of columns when it is seen for the first time. -/
def accumulate : List (ℕ × ℝ) → (ℕ → ℝ) × List ℕ → (ℕ → ℝ) × List ℕ
  | [], s => s
  | e :: es, s =>
    accumulate es (Function.update s.1 e.1 (s.1 e.1 + e.2), if e.1 ∈ s.2 then s.2 else e.1 :: s.2)

/-- scipy's `csr_matmat`.  Older versions drop entries that add to zero (`if(sums[head] != 0)`), newer ones keep
them: `dropZeros`. -/
def matmat (dropZeros : Bool) (a b : Csr) : Csr :=
  ofRows a.nr b.nc fun i =>
    let s := accumulate
      ((a.rowEntries i).flatMap fun e => (b.rowEntries e.1).map fun f => (f.1, e.2 * f.2)) (fun _ => 0, [])
    (s.2.map fun k => (k, s.1 k)).filter fun e => !dropZeros || decide (e.2 ≠ 0)

end Csr

namespace Mat

/-- `x.shape`. -/
def shape : Mat → List ℕ
  | .dense a => a.shape
  | .csr m => [m.nr, m.nc]
  | .csc m => [m.nc, m.nr]

/-- The product of two sparse matrices: scipy's `_mul_sparse_matrix`, which converts the second factor to the
format of the first one.  For two `csc_matrix` the same loop runs on the transposes. -/
def sparseSparse (dropZeros : Bool) : Mat → Mat → Py Mat
  | .csr a, .csr b =>
    if a.nc ≠ b.nr then .error .valueError
    else if a.Readable ∧ b.Readable then .ok (.csr (a.matmat dropZeros b)) else .error .unmodelled
  | .csr a, .csc b =>
    if a.nc ≠ b.nc then .error .valueError
    else if a.Readable ∧ b.Readable then .ok (.csr (a.matmat dropZeros b.byColumns)) else .error .unmodelled
  | .csc a, .csc b =>
    if a.nr ≠ b.nc then .error .valueError
    else if a.Readable ∧ b.Readable then .ok (.csc (b.matmat dropZeros a)) else .error .unmodelled
  | .csc a, .csr b =>
    if a.nr ≠ b.nr then .error .valueError
    else if a.Readable ∧ b.Readable then .ok (.csc (b.byColumns.matmat dropZeros a)) else .error .unmodelled
  | _, _ => .error .unmodelled

/-- `safe_matmul(x, y)` for two matrices in any format: `SparseObjectives.py:21-25`.  With exactly one sparse
factor the result is a 2-d array, see `safeMatmul`. -/
def safeProduct (dropZeros : Bool) (x y : Mat) : Py Mat :=
  if x.isSparse = true ∧ y.isSparse = true then sparseSparse dropZeros x y
  else do .ok (.dense (← x.safeMatmul y))

end Mat

/-- `np.squeeze(a)`: drops the axes of length one, the entries stay. -/
def Arr.squeeze (a : Arr) : Arr := ⟨a.shape.filter fun n => decide (n ≠ 1), a.data⟩

/-- `compress(x)`: `SparseObjectives.py:27-31`. -/
def compress (x : Mat) : Arr :=
  if x.isSparse = true then x.toArr.squeeze
  else match x with
    | .dense a => a.squeeze
    | _ => x.toArr.squeeze

end

end LRVB
