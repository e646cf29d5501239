import Verif.Model.Solve

/-!
# n-dimensional numpy arrays: indexing, broadcasting, sums, `einsum`

The part of numpy that `ExponentialFamilies.py`, `Modeling.py`, `NormalParams.py` and
`regression_utils.py` use on arrays of any number of dimensions.  An entry is addressed by a
multi-index (a list with one index for each axis).

Results that numpy would fill with `nan` or `inf` (a logarithm of a number that is not positive, a
division by zero) stop the model with `nonFinite`.
-/

namespace LRVB

open Classical Matrix

noncomputable section

namespace Arr

/-- The row-major position of a multi-index. -/
def flat : List ℕ → List ℕ → ℕ
  | i :: idx, _ :: shape => i * shape.prod + flat idx shape
  | _, _ => 0

/-- `a[idx]` for a full multi-index in range. -/
def get (a : Arr) (idx : List ℕ) : ℝ := a.data.getD (flat idx a.shape) 0

/-- The array of a given shape with entries `f idx`. -/
def ofFn (shape : List ℕ) (f : List ℕ → ℝ) : Arr := ⟨shape, (indexProduct shape).map f⟩

/-- A function applied to every entry (`np.exp(a)`, `a ** 2`, `-1 * a`). -/
def map (f : ℝ → ℝ) (a : Arr) : Arr := ⟨a.shape, a.data.map f⟩

/-- A function which is not defined for every number, applied to every entry. -/
def mapPy (f : ℝ → Py ℝ) (a : Arr) : Py Arr := do .ok ⟨a.shape, ← a.data.mapM f⟩

/-! ### Broadcasting -/

/-- The shape with ones added on the left up to `n` axes. -/
def padLeft (n : ℕ) (s : List ℕ) : List ℕ := List.replicate (n - s.length) 1 ++ s

/-- Two sizes of one axis. -/
def bdim (a b : ℕ) : Py ℕ :=
  if a = b then .ok a else if a = 1 then .ok b else if b = 1 then .ok a else .error .valueError

/-- The shape two operands are broadcast to. -/
def bshape (s t : List ℕ) : Py (List ℕ) :=
  let n := max s.length t.length
  (List.zip (padLeft n s) (padLeft n t)).mapM fun p => bdim p.1 p.2

/-- The multi-index of an operand of shape `s` for the multi-index `idx` of the result: leading
axes are ignored and axes of size one are not moved along. -/
def bIndex (s idx : List ℕ) : List ℕ :=
  List.zipWith (fun d i => if d = 1 then 0 else i) s (idx.drop (idx.length - s.length))

/-- The entry of a broadcast operand. -/
def bget (a : Arr) (idx : List ℕ) : ℝ := a.get (bIndex a.shape idx)

/-- A binary ufunc. -/
def bin (f : ℝ → ℝ → ℝ) (a b : Arr) : Py Arr := do
  let s ← bshape a.shape b.shape
  .ok (ofFn s fun idx => f (a.bget idx) (b.bget idx))

/-- `a + b`. -/
def add (a b : Arr) : Py Arr := bin (· + ·) a b
/-- `a - b`. -/
def minus (a b : Arr) : Py Arr := bin (· - ·) a b
/-- `a * b`. -/
def mul (a b : Arr) : Py Arr := bin (· * ·) a b

/-- `a / b`. -/
def div (a b : Arr) : Py Arr :=
  if 0 ∈ b.data then .error .nonFinite else bin (· / ·) a b

/-- `np.log` of one number. -/
def logR (x : ℝ) : Py ℝ := if 0 < x then .ok (Real.log x) else .error .nonFinite
/-- `np.log(a)`. -/
def log (a : Arr) : Py Arr := a.mapPy logR
/-- `np.exp(a)`. -/
def exp (a : Arr) : Arr := a.map Real.exp

/-- `np.sqrt(a)`; `nan` below zero. -/
def sqrt (a : Arr) : Py Arr :=
  a.mapPy fun x => if 0 ≤ x then .ok (Real.sqrt x) else .error .nonFinite

/-! ### Sums and changes of shape -/

/-- `np.sum(a)`. -/
def sumAll (a : Arr) : ℝ := a.data.sum

/-- `np.sum(a, 0)`; there must be an axis. -/
def sum0 (a : Arr) : Py Arr :=
  match a.shape with
  | [] => .error .valueError
  | n :: s => .ok (ofFn s fun idx => ∑ i ∈ Finset.range n, a.get (i :: idx))

/-- `np.sum(a, 0, keepdims=True)`. -/
def sum0Keep (a : Arr) : Py Arr := do
  let r ← a.sum0
  .ok ⟨1 :: r.shape, r.data⟩

/-- `np.sum(a, axis=a.ndim - 1)`. -/
def sumLast (a : Arr) : Py Arr :=
  match a.shape.getLast? with
  | none => .error .valueError
  | some n => .ok (ofFn a.shape.dropLast fun idx => ∑ k ∈ Finset.range n, a.get (idx ++ [k]))

/-- `np.expand_dims(a, axis=a.ndim)`. -/
def expandLast (a : Arr) : Arr := ⟨a.shape ++ [1], a.data⟩

/-- `np.squeeze(a, axis=0)`. -/
def squeeze0 (a : Arr) : Py Arr :=
  match a.shape with
  | 1 :: s => .ok ⟨s, a.data⟩
  | _ => .error .valueError

/-- `a[:, j]` of a 2-d array. -/
def col (a : Arr) (j : ℕ) : Py Arr :=
  match a.shape with
  | [r, c] => if j < c then .ok (ofFn [r] fun idx => a.get (idx ++ [j])) else .error .indexError
  | _ => .error .indexError

/-- `np.tile(a, reps)`. -/
def tile (a : Arr) (reps : List ℕ) : Arr :=
  let n := max a.shape.length reps.length
  let s := padLeft n a.shape
  ofFn (List.zipWith (· * ·) s (padLeft n reps)) fun idx =>
    a.get ((List.zipWith (fun d i => i % d) s idx).drop (n - a.shape.length))

/-- `np.eye(n)`. -/
def eye (n : ℕ) : Arr := ofFn2 n n fun i j => if i = j then 1 else 0

/-- `np.linalg.inv(a)`: the last two axes hold square matrices (`LinAlgError` otherwise, and when
one of them is singular).  LAPACK is not modelled: the result is the exact inverse. -/
def inv (a : Arr) : Py Arr :=
  match a.shape.reverse with
  | c :: r :: s =>
    if r ≠ c then .error .linAlgError
    else
      let m (b : List ℕ) : Matrix (Fin r) (Fin r) ℝ :=
        Matrix.of fun i j => a.get (b ++ [(i : ℕ), (j : ℕ)])
      if ∃ b ∈ indexProduct s.reverse, (m b).det = 0 then .error .linAlgError
      else .ok (ofFn (s.reverse ++ [r, r]) fun idx =>
        let b := idx.take s.length
        let i := idx.getD s.length 0
        let j := idx.getD (s.length + 1) 0
        if h : i < r ∧ j < r then (m b)⁻¹ ⟨i, h.1⟩ ⟨j, h.2⟩ else 0)
  | _ => .error .linAlgError

/-! ### `np.einsum` with two operands and explicit index lists -/

/-- The size of an index of `einsum`: that of the first axis which carries it and does not have
size one. -/
def labelDim (axes : List (ℕ × ℕ)) (l : ℕ) : ℕ :=
  ((axes.find? fun p => p.1 = l ∧ p.2 ≠ 1).map Prod.snd).getD 1

/-- `np.einsum(x, lx, y, ly, out)` (`lx`, `ly` and `out` without repetitions).  Axes with one index
must have one size, or size one (then they are broadcast). -/
def einsum (x : Arr) (lx : List ℕ) (y : Arr) (ly out : List ℕ) : Py Arr :=
  let axes := List.zip lx x.shape ++ List.zip ly y.shape
  if lx.length ≠ x.shape.length ∨ ly.length ≠ y.shape.length then .error .valueError
  else if ∃ p ∈ axes, p.2 ≠ labelDim axes p.1 ∧ p.2 ≠ 1 then .error .valueError
  else if ∃ l ∈ out, l ∉ lx ∧ l ∉ ly then .error .valueError
  else
    let summed := ((lx ++ ly).filter fun l => l ∉ out).dedup
    .ok (ofFn (out.map (labelDim axes)) fun idx =>
      ((indexProduct (summed.map (labelDim axes))).map fun jdx =>
        let env (l : ℕ) : ℕ :=
          if l ∈ out then idx.getD (out.idxOf l) 0 else jdx.getD (summed.idxOf l) 0
        x.bget (lx.map env) * y.bget (ly.map env)).sum)

end Arr

/-- `s[-k]` of a tuple of sizes. -/
def fromEnd (s : List ℕ) (k : ℕ) : Py ℕ :=
  match s.reverse[k - 1]? with
  | some n => .ok n
  | none => .error .indexError

end

end LRVB
