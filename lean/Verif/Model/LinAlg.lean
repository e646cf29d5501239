import Verif.Model.Arr
import Mathlib.Algebra.BigOperators.Group.Finset.Basic

/-!
# Products of 2-d arrays (`np.matmul`)
-/

namespace LRVB

noncomputable section

namespace Arr

/-- `np.matmul(m, x)` of a 2-d and a 1-d array. -/
def mulVec (m : Arr) (x : List ℝ) : Py (List ℝ) :=
  match m.shape with
  | [r, c] =>
    if x.length = c then
      .ok ((List.range r).map fun i => ∑ j ∈ Finset.range c, m.at2 i j * x.getD j 0)
    else .error .valueError
  | _ => .error .unmodelled

/-- `np.matmul(a, b)` of two 2-d arrays. -/
def matmul (a b : Arr) : Py Arr :=
  match a.shape, b.shape with
  | [r, c], [c', d] =>
    if c = c' then .ok (ofFn2 r d fun i k => ∑ j ∈ Finset.range c, a.at2 i j * b.at2 j k)
    else .error .valueError
  | _, _ => .error .unmodelled

end Arr

end

end LRVB
