import Verif.Model.Leaf
import Mathlib.LinearAlgebra.Matrix.NonsingularInverse

/-!
# Vectors in a linear subspace — `ProjectionParams.py`

`np.linalg.eigh` is not determined by its argument (eigenvectors of repeated eigenvalues can be
rotated), so it is a parameter of the model; `Spec/Leaf.lean` states its contract.
-/

namespace LRVB

open Classical Matrix

noncomputable section

/-- An implementation of `np.linalg.eigh`: eigenvalues and a matrix of column eigenvectors. -/
abbrev Eigh := (d : ℕ) → Matrix (Fin d) (Fin d) ℝ → (Fin d → ℝ) × Matrix (Fin d) (Fin d) ℝ

/-- A 2-d array as a rectangular Mathlib matrix. -/
def toMatrix (r c : ℕ) (a : Arr) : Matrix (Fin r) (Fin c) ℝ := Matrix.of fun i j => a.at2 i j

/-- `ProjectionParams.py:14-16`: `eye - x.T solve(x x.T, x)`; `solve` raises `LinAlgError` when
`x x.T` is singular. -/
def projPerp {r d : ℕ} (X : Matrix (Fin r) (Fin d) ℝ) : Py (Matrix (Fin d) (Fin d) ℝ) :=
  if (X * Xᵀ).det = 0 then .error .linAlgError
  else .ok (1 - Xᵀ * ((X * Xᵀ)⁻¹ * X))

/-- `ProjectionParams.py:21`: the indices of the eigenvalues above the threshold. -/
def keepCols {d : ℕ} (w : Fin d → ℝ) : List (Fin d) :=
  (List.finRange d).filter fun i => decide ((1 : ℝ) / 10 ^ 8 < |w i|)

/-- `ProjectionParams.py:13-26` `get_perpendicular_subspace`. -/
def getPerpendicularSubspace (eigh : Eigh) (r d : ℕ) (x : Arr) : Py Arr := do
  let p ← projPerp (toMatrix r d x)
  let (w, V) := eigh d p
  let keep := keepCols w
  -- `np.sum(keep_cols) == x.shape[1] - x.shape[0]` over the integers
  if (keep.length : ℤ) ≠ (d : ℤ) - r then .error .assertionError
  else .ok (Arr.ofFn2 d keep.length fun i j =>
    if h : i < d ∧ j < keep.length then V ⟨i, h.1⟩ (keep[j]'h.2) else 0)

/-- `ProjectionParams.py:31-54` `SubspaceVectorParam.__init__`. -/
def mkSubspace (eigh : Eigh) (name : String) (dim : ℕ) (val perp : Option Arr) : Py Leaf :=
  let p := perp.getD (Arr.full [1, dim] 1)
  match p.shape with
  | [r, c] =>
    if c ≠ dim then .error .valueError
    else if dim ≤ r then .error .valueError
    else do
      let basis ← getPerpendicularSubspace eigh r dim p
      let l : Leaf := ⟨name, .subspace dim (dim - r) basis, Arr.scalar 0, false⟩
      l.set (val.getD (Arr.full [dim] 0))
  | _ => .error .unmodelled

end

end LRVB
