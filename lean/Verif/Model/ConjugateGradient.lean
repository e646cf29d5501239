import Verif.Model.Arr
import Mathlib.Algebra.Order.Ring.Int

/-!
# Conjugate gradient solver — `ConjugateGradient.py`

A boolean vector is a `List Bool`.
-/

namespace LRVB

/-- A vector of booleans. -/
abbrev Mask := List Bool

/-- `np.sum(mask)`. -/
def Mask.num (m : Mask) : ℕ := m.count true

/-- `np.argwhere(vec)`: the positions of the true entries, in increasing order. -/
def argwhere (vec : Mask) : List ℕ := (List.range vec.length).filter fun i => vec.getD i false

/-- `mask[inds] = True` for a list of positions. -/
def setTrue (mask : Mask) (inds : List ℕ) : Mask := inds.foldl (fun m i => m.set i true) mask

/-- `split_vector(vec)`: `ConjugateGradient.py:19-30`. -/
def splitVector (vec : Mask) : Mask × Mask :=
  let split1 : Mask := List.replicate vec.length false
  let split2 : Mask := List.replicate vec.length false
  let trueInds := argwhere vec
  let numTrue := trueInds.length
  let len1 := numTrue / 2
  let len2 := numTrue - len1
  (if 0 < len1 then setTrue split1 (trueInds.take len1) else split1,
   if 0 < len2 then setTrue split2 ((trueInds.drop len1).take len2) else split2)

/-- `recursive_split(mask, results, terminate_len)`: `ConjugateGradient.py:36-43`.  The first argument
is the number of nested calls the interpreter still allows; when it is exhausted Python raises
`RecursionError`.  The function appends to the list `results`; here it returns the new list.  (The
default value of `results` is one list shared by all calls; the model takes the list as given.) -/
def recursiveSplit : ℕ → Mask → List Mask → ℤ → List Mask × Option PyErr
  | 0, _, results, _ => (results, some .recursionError)
  | k + 1, mask, results, terminateLen =>
    if (mask.num : ℤ) > terminateLen then
      let s := splitVector mask
      let r := recursiveSplit k s.1 results terminateLen
      match r.2 with
      | some e => (r.1, some e)
      | none => recursiveSplit k s.2 r.1 terminateLen
    else (results ++ [mask], none)

/-- The loop of `get_masks`: `ConjugateGradient.py:50-57`. -/
def getMasksLoop (fullLen minLen : ℕ) (h : 0 < minLen) (ind : ℕ) (masks : List Mask) : List Mask :=
  if ind < fullLen then
    let indEnd := min (ind + minLen) fullLen
    let mask : Mask := (List.range fullLen).map fun i => decide (ind ≤ i ∧ i < indEnd)
    getMasksLoop fullLen minLen h (ind + minLen) (masks ++ [mask])
  else masks
termination_by fullLen - ind

/-- `get_masks(full_len, min_mask_len)`: `ConjugateGradient.py:46-57`. -/
def getMasks (fullLen minLen : ℤ) : Py (List Mask) :=
  if h : 0 < minLen then
    if minLen < fullLen then
      .ok (getMasksLoop fullLen.toNat minLen.toNat (by omega) 0 [])
    else .error .assertionError
  else .error .assertionError

/-- `scipy.sparse.linalg.cg(A, b, x0, tol, M)`: any function from the operator, the right hand side and
the options to a vector and a status, or an exception. -/
abbrev CgSolver :=
  (dim : ℕ) → (List ℝ → Py (List ℝ)) → List ℝ → Option (List ℝ) → ℝ → Option Arr → Py (List ℝ × ℤ)

/-- A `ConjugateGradientSolver`: `ConjugateGradient.py:63-79`.  `cg` is the scipy solver, and `clock`
gives the times read from `time.time()`, of which `ticks` have been read; these three are not
attributes of the Python object. -/
structure CgState where
  dim : ℕ
  op : List ℝ → Py (List ℝ)
  x0 : List ℝ
  preconditioner : Option Arr
  tol : ℝ
  vecs : List (List ℝ)
  hinvVecs : List (List ℝ)
  masks : List Mask
  times : List ℝ
  infos : List ℤ
  cg : CgSolver
  clock : ℕ → ℝ
  ticks : ℕ

namespace CgState

noncomputable section

/-- `initialize()`: `ConjugateGradient.py:74-79`. -/
def reset (s : CgState) : CgState :=
  { s with vecs := [], hinvVecs := [], masks := [], times := [], infos := [] }

/-- `__init__(eval_hessian_vector_product, x0)`: `ConjugateGradient.py:64-72`. -/
def new (cg : CgSolver) (clock : ℕ → ℝ) (hvp : List ℝ → List ℝ → Py (List ℝ)) (x0 : List ℝ) : CgState :=
  reset ⟨x0.length, fun v => hvp x0 v, x0, none, 1 / 10 ^ 8, [], [], [], [], [], cg, clock, 0⟩

/-- `get_hinv_vec(vec, x0)`: `ConjugateGradient.py:81-85`. -/
def getHinvVec (s : CgState) (vec : List ℝ) (x0 : Option (List ℝ)) : Py (List ℝ × ℤ) :=
  s.cg s.dim s.op vec x0 s.tol s.preconditioner

/-- `vec_masked = np.zeros(len(vec)); vec_masked[mask] = vec[mask]`: `ConjugateGradient.py:96-97`.  A
mask of another length raises `IndexError`. -/
def maskVec (vec : List ℝ) (mask : Mask) : Py (List ℝ) :=
  if mask.length = vec.length then .ok (List.zipWith (fun b v => if b then v else 0) mask vec)
  else .error .indexError

/-- The body of the loop of `get_hinv_vec_subsets`, for one mask: `ConjugateGradient.py:93-105`.  The
progress messages are in `Model/HeapCg`. -/
def solveSubset (s : CgState) (vec : List ℝ) (mask : Mask) : CgState × Option PyErr :=
  match maskVec vec mask with
  | .error e => (s, some e)
  | .ok vm =>
    match s.getHinvVec vm none with
    | .error e => ({ s with ticks := s.ticks + 1 }, some e)
    | .ok (hv, info) =>
      ({ s with
          times := s.times ++ [s.clock (s.ticks + 1) - s.clock s.ticks]
          vecs := s.vecs ++ [vm]
          masks := s.masks ++ [mask]
          hinvVecs := s.hinvVecs ++ [hv]
          infos := s.infos ++ [info]
          ticks := s.ticks + 2 }, none)

/-- `get_hinv_vec_subsets(vec, masks)`: `ConjugateGradient.py:89-105`. -/
def getHinvVecSubsets (s : CgState) (vec : List ℝ) : List Mask → CgState × Option PyErr
  | [] => (s, none)
  | mask :: rest =>
    let r := s.solveSubset vec mask
    match r.2 with
    | some e => (r.1, some e)
    | none => r.1.getHinvVecSubsets vec rest

end

end CgState

end LRVB
