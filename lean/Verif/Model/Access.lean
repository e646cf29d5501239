import Verif.Model.Leaf

/-!
# Locating parts of a parameter

The public accessors of the matrix and simplex parameters: `free_obs_slice`, `stacked_obs_slice`,
`get_vector_indices`, `apply_matrix_function`, and the sizes and shapes.
-/

namespace LRVB

/-- The start of a Python slice of a sequence of length `n`: a negative bound counts from the end,
and bounds are clipped to the sequence (language reference, not in /repo). -/
def sliceBound (n : ℕ) (a : ℤ) : ℕ := if a < 0 then (a + n).toNat else min a.toNat n

/-- `x[slice(a, b)]` for a 1-d array and the slices built in `MatrixParameters.py:234,366`. -/
def pySlice (x : List ℝ) (s : ℤ × ℤ) : List ℝ :=
  (x.drop (sliceBound x.length s.1)).take (sliceBound x.length s.2 - sliceBound x.length s.1)

/-- `x[inds]` for an integer array of non-negative positions: `IndexError` out of range. -/
def pyTake (x : List ℝ) (inds : List ℕ) : Py (List ℝ) :=
  inds.mapM fun i => if i < x.length then .ok (x.getD i 0) else .error .indexError

namespace Leaf

/-- `free_obs_slice(obs)` of `PosDefMatrixParamVector`: `MatrixParameters.py:232-234`.  Other
classes have no such method. -/
def freeObsSlice (l : Leaf) (obs : ℤ) : Py (ℤ × ℤ) :=
  match l.kind with
  | .posdefVec len n _ =>
    if obs < len then .ok (vecSizeOf n * obs, vecSizeOf n * (obs + 1)) else .error .assertionError
  | _ => .error .attributeError

/-- `stacked_obs_slice(obs)` of `PosDefMatrixParamArray`: `MatrixParameters.py:362-366`.  Indices are
natural numbers; `np.ravel_multi_index` raises for negative ones as for too large ones. -/
def stackedObsSlice (l : Leaf) (obs : List ℕ) : Py (ℤ × ℤ) :=
  match l.kind with
  | .posdefArr s n _ =>
    if obs.length ≠ s.length then .error .assertionError
    else do
      let k ← ravel obs s
      .ok (k * vecSizeOf n, k * vecSizeOf n + vecSizeOf n)
  | _ => .error .attributeError

/-- `apply_matrix_function(mat_func)` of `PosDefMatrixParamArray`: `MatrixParameters.py:380-387`.
A scalar result is a 0-d array.  `mat_func_array[0]` raises `IndexError` for an empty array of
matrices; results of different shapes make `np.array` raise or build an object array
(`unmodelled`, the comment in the source excludes them). -/
def applyMatrixFunction (l : Leaf) (f : Arr → Py Arr) : Py Arr :=
  match l.kind with
  | .posdefArr s _ _ => do
    let rs ← (indexProduct s).mapM fun obs => do f (← l.val.sub obs)
    match rs with
    | [] => .error .indexError
    | r :: _ =>
      if rs.all fun q => q.shape == r.shape then (Arr.stack r.shape rs).reshape (s ++ r.shape)
      else .error .unmodelled
  | _ => .error .attributeError

/-- `get_vector_indices(row)` of `SimplexParam`: `SimplexParams.py:163-166`.  A simplex without
components (`np.ravel_multi_index` with an empty shape entry) is left out. -/
def getVectorIndices (l : Leaf) (row : ℕ) : Py (List ℕ) :=
  match l.kind with
  | .simplex r c =>
    if c = 0 then .error .unmodelled
    else (List.range c).mapM fun j => ravel [row, j] [r, c]
  | _ => .error .attributeError

/-- `matrix_size()` of the matrix vectors and arrays: `MatrixParameters.py:312,474`. -/
def matrixSize (l : Leaf) : Py ℕ :=
  match l.kind with
  | .posdefVec _ n _ => .ok n
  | .posdefArr _ n _ => .ok n
  | _ => .error .attributeError

/-- `get_array_ranges()` of `PosDefMatrixParamArray`: `MatrixParameters.py:480`, each range given
by its list. -/
def getArrayRanges (l : Leaf) : Py (List (List ℕ)) :=
  match l.kind with
  | .posdefArr s _ _ => .ok (s.map List.range)
  | _ => .error .attributeError

/-- `free_shape()` of `SimplexParam`: `SimplexParams.py:170`. -/
def freeShape (l : Leaf) : Py (ℤ × ℤ) :=
  match l.kind with
  | .simplex r c => .ok ((r : ℤ), (c : ℤ) - 1)
  | _ => .error .attributeError

end Leaf
end LRVB
