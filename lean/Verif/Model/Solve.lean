import Verif.Model.Subspace
import Verif.Model.LinAlg

/-!
# Linear solves used by the sensitivity code

LAPACK is not modelled: a solve returns the exact solution.
-/

namespace LRVB

open Classical Matrix

noncomputable section

/-- `sp.linalg.cho_factor(h)`: reads the upper triangle (`lower=False`); `LinAlgError` when a pivot
is not positive, `ValueError` when the argument is not square.  The lower factor is kept. -/
def choFactor (h : Arr) : Py Arr :=
  match h.shape with
  | [r, c] => if r ≠ c then .error .valueError else cholesky h.transpose
  | _ => .error .valueError

/-- `sp.linalg.cho_solve(factor, b)` for a 2-d right hand side: two triangular solves, i.e. the
product of `(L Lᵀ)⁻¹` with `b`. -/
def choSolve (l b : Arr) : Py Arr :=
  match l.shape, b.shape with
  | [r, _], [r', k] =>
    if r ≠ r' then .error .valueError
    else
      let L := toMatrix r r l
      let X := (L * Lᵀ)⁻¹ * toMatrix r k b
      .ok (Arr.ofFn2 r k fun i j => if h : i < r ∧ j < k then X ⟨i, h.1⟩ ⟨j, h.2⟩ else 0)
  | _, _ => .error .unmodelled

/-- `np.linalg.solve(h, v)` for a vector: `LinAlgError` when `h` is not square or singular. -/
def npSolve (h : Arr) (v : List ℝ) : Py (List ℝ) :=
  match h.shape with
  | [r, c] =>
    if r ≠ c then .error .linAlgError
    else if v.length ≠ r then .error .valueError
    else if (toMatrix r r h).det = 0 then .error .linAlgError
    else .ok (List.ofFn ((toMatrix r r h)⁻¹ *ᵥ fun i : Fin r => v.getD i 0))
  | _ => .error .linAlgError

/-- `a + b` of two vectors (numpy would broadcast a vector of length 1: not modelled). -/
def vadd (a b : List ℝ) : Py (List ℝ) :=
  if a.length = b.length then .ok (List.zipWith (· + ·) a b) else .error .valueError

/-- `a - b` of two vectors. -/
def vsub (a b : List ℝ) : Py (List ℝ) :=
  if a.length = b.length then .ok (List.zipWith (· - ·) a b) else .error .valueError

/-- `c * a`. -/
def vscale (c : ℝ) (a : List ℝ) : List ℝ := a.map (c * ·)

/-- `-1 * m`. -/
def Arr.neg (m : Arr) : Arr := ⟨m.shape, m.data.map (-1 * ·)⟩

end

end LRVB
