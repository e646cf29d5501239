import Verif.Model.Arr

/-!
# Sparse matrices in coordinate form (scipy `coo_matrix`)
-/

namespace LRVB

open Classical

noncomputable section

/-- A `coo_matrix`: shape and a list of `(row, col, value)` triples; repeated positions add. -/
structure Coo where
  nr : ℕ
  nc : ℕ
  entries : List (ℕ × ℕ × ℝ)

namespace Coo

/-- The value `toarray()[i, j]`. -/
def toDense (m : Coo) (i j : ℕ) : ℝ :=
  (m.entries.map fun e => if e.1 = i ∧ e.2.1 = j then e.2.2 else 0).sum

/-- `coo_matrix((vals, (rows, cols)), shape)`: `ValueError` when an index exceeds the shape. -/
def make (nr nc : ℕ) (es : List (ℕ × ℕ × ℝ)) : Py Coo :=
  if ∀ e ∈ es, e.1 < nr ∧ e.2.1 < nc then .ok ⟨nr, nc, es⟩ else .error .valueError

/-- `coo_matrix(dense)`: the nonzero entries in row-major order. -/
def ofDense (nr nc : ℕ) (f : ℕ → ℕ → ℝ) : Coo :=
  ⟨nr, nc, ((List.range nr).flatMap fun i => (List.range nc).map fun j => (i, j, f i j)).filter
    fun e => decide (e.2.2 ≠ 0)⟩

/-- `scipy.sparse.block_diag` of a list of sparse matrices; an empty list raises. -/
def blockDiag (ms : List Coo) : Py Coo :=
  if ms.isEmpty then .error .valueError
  else .ok (ms.foldl (fun acc m =>
    ⟨acc.nr + m.nr, acc.nc + m.nc,
      acc.entries ++ m.entries.map fun e => (acc.nr + e.1, acc.nc + e.2.1, e.2.2)⟩) ⟨0, 0, []⟩)

/-- `Parameters.py:362-366` `offset_sparse_matrix`. -/
def offset (m : Coo) (dr dc nr nc : ℕ) : Py Coo :=
  make nr nc (m.entries.map fun e => (e.1 + dr, e.2.1 + dc, e.2.2))

end Coo

end

end LRVB
