import Verif.Model.Py
import Mathlib.Data.Real.Basic

/-!
# Arrays

A numpy array of floats is a shape and the row-major list of its entries.
-/

namespace LRVB

/-- A numpy array (C order).  Well formed when `data.length = shape.prod`. -/
structure Arr where
  shape : List ℕ
  data : List ℝ

namespace Arr

/-- The shape and the number of entries agree. -/
def WF (a : Arr) : Prop := a.data.length = a.shape.prod

/-- `a.size`. -/
def size (a : Arr) : ℕ := a.data.length

/-- A 1-d array. -/
def vec (x : List ℝ) : Arr := ⟨[x.length], x⟩

/-- A 0-d array or Python float. -/
def scalar (x : ℝ) : Arr := ⟨[], [x]⟩

/-- `np.full(shape, c)`. -/
def full (shape : List ℕ) (c : ℝ) : Arr := ⟨shape, List.replicate shape.prod c⟩

/-- Entry `[i, j]` of a 2-d array (0 when out of range; callers check ranges). -/
def at2 (a : Arr) (i j : ℕ) : ℝ := a.data.getD (i * a.shape.getD 1 0 + j) 0

/-- The `r × c` array with entries `f i j`. -/
def ofFn2 (r c : ℕ) (f : ℕ → ℕ → ℝ) : Arr :=
  ⟨[r, c], (List.range r).flatMap fun i => (List.range c).map fun j => f i j⟩

/-- `a.reshape(shape)` for an explicit shape. -/
def reshape (a : Arr) (shape : List ℕ) : Py Arr :=
  if a.data.length = shape.prod then .ok ⟨shape, a.data⟩ else .error .valueError

/-- `a.transpose()` of a 2-d array. -/
def transpose (a : Arr) : Arr :=
  ofFn2 (a.shape.getD 1 0) (a.shape.getD 0 0) fun i j => a.at2 j i

/-- `np.hstack` of a list of 1-d arrays: an empty list raises `ValueError`. -/
def hstack (xs : List (List ℝ)) : Py (List ℝ) :=
  if xs.isEmpty then .error .valueError else .ok xs.flatten

/-- `np.array([a0, a1, ...])` for arrays which all have shape `s`; the empty list gives
an array of shape `(0,)`. -/
def stack (s : List ℕ) (as : List Arr) : Arr :=
  if as.isEmpty then ⟨[0], []⟩ else ⟨as.length :: s, as.flatMap Arr.data⟩

/-- Sub-array `a[idx]` for a tuple of leading indices. -/
def sub (a : Arr) : List ℕ → Py Arr
  | [] => .ok a
  | i :: idx =>
    match a.shape with
    | [] => .error .indexError
    | n :: s =>
      if i < n then sub ⟨s, (a.data.drop (i * s.prod)).take s.prod⟩ idx
      else .error .indexError
  termination_by idx => idx.length

end Arr

/-- `np.ravel_multi_index(idx, shape)` for one multi-index: `ValueError` when the lengths
differ or an index is out of range. -/
def ravel : List ℕ → List ℕ → Py ℕ
  | [], [] => .ok 0
  | i :: idx, n :: shape =>
    if i < n then (fun k => i * shape.prod + k) <$> ravel idx shape
    else .error .valueError
  | _, _ => .error .valueError

/-- `itertools.product(*[range(0, t) for t in shape])`. -/
def indexProduct : List ℕ → List (List ℕ)
  | [] => [[]]
  | n :: shape => (List.range n).flatMap fun i => (indexProduct shape).map (i :: ·)

end LRVB
