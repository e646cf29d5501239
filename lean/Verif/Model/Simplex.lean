import Verif.Model.Arr
import Mathlib.Analysis.SpecialFunctions.Exp
import Mathlib.Analysis.SpecialFunctions.Log.Basic

/-!
# Simplex transforms — `SimplexParams.py:10-63`
-/

namespace LRVB

open Classical

noncomputable section

/-- `SimplexParams.py:13-14`: the free matrix with a leading column of zeros. -/
def augment (free : Arr) (i j : ℕ) : ℝ := if j = 0 then 0 else free.at2 i (j - 1)

/-- `SimplexParams.py:11-18` `constrain_simplex_matrix`.  `logsumexp` is the exact
`log ∑ exp`. -/
def constrainSimplexMatrix (free : Arr) : Py Arr :=
  match free.shape with
  | [r, c] =>
    .ok (Arr.ofFn2 r (c + 1) fun i j =>
      Real.exp (augment free i j -
        Real.log (∑ k ∈ Finset.range (c + 1), Real.exp (augment free i k))))
  | _ => .error .unmodelled

/-- `SimplexParams.py:21-23` `unconstrain_simplex_matrix`; a nonpositive entry gives an
infinity or NaN. -/
def unconstrainSimplexMatrix (m : Arr) : Py Arr :=
  match m.shape with
  | [_, 0] => .error .indexError
  | [r, c + 1] =>
    if ∀ i < r, ∀ j < c + 1, 0 < m.at2 i j then
      .ok (Arr.ofFn2 r c fun i j => Real.log (m.at2 i (j + 1)) - Real.log (m.at2 i 0))
    else .error .nonFinite
  | _ => .error .indexError

/-- `SimplexParams.py:26-27` `constrain_simplex_vector`. -/
def constrainSimplexVector (x : List ℝ) : Py (List ℝ) := do
  let m ← constrainSimplexMatrix ⟨[1, x.length], x⟩
  .ok m.data

/-- `SimplexParams.py:33-38` `constrain_grad_from_moment`, as a function of the row and column;
the loop adds `z[k]` at `[k, k-1]` for `1 ≤ k < len(z)`. -/
def constrainGradFromMoment (z : List ℝ) : ℕ → ℕ → ℝ :=
  (List.range' 1 (z.length - 1)).foldl
    (fun jac k => fun a b => if a = k ∧ b = k - 1 then jac a b + z.getD k 0 else jac a b)
    (fun a b => -1 * (z.getD a 0 * z.getD (b + 1) 0))

/-- In-place `h[k, i, j] += v`. -/
def addAt (h : ℕ → ℕ → ℕ → ℝ) (k i j : ℕ) (v : ℝ) : ℕ → ℕ → ℕ → ℝ :=
  fun a b c => if a = k ∧ b = i ∧ c = j then h a b c + v else h a b c

/-- In-place `h[k] *= v`. -/
def scaleAt (h : ℕ → ℕ → ℕ → ℝ) (k : ℕ) (v : ℝ) : ℕ → ℕ → ℕ → ℝ :=
  fun a b c => if a = k then h a b c * v else h a b c

/-- `SimplexParams.py:54-61`, the body of the second loop. -/
def hessStep (z : List ℝ) (h : ℕ → ℕ → ℕ → ℝ) (k : ℕ) : ℕ → ℕ → ℕ → ℝ :=
  let h1 : ℕ → ℕ → ℕ → ℝ := fun a b c =>
    if a = k ∧ b = k - 1 then h a b c + -z.getD (c + 1) 0 else h a b c
  let h2 : ℕ → ℕ → ℕ → ℝ := fun a b c =>
    if a = k ∧ c = k - 1 then h1 a b c + -z.getD (b + 1) 0 else h1 a b c
  let h3 := (List.range' 1 (z.length - 1)).foldl
    (fun h j => if j = k then addAt h k (j - 1) (j - 1) (1 - z.getD j 0)
      else addAt h k (j - 1) (j - 1) (-z.getD j 0)) h2
  scaleAt h3 k (z.getD k 0)

/-- `SimplexParams.py:42-63` `constrain_hess_from_moment`, as a function of the three
indices; the loops are folds over the same ranges. -/
def constrainHessFromMoment (z : List ℝ) : ℕ → ℕ → ℕ → ℝ :=
  let h0 : ℕ → ℕ → ℕ → ℝ := fun _ b c => 2 * (z.getD (b + 1) 0 * z.getD (c + 1) 0)
  let h1 := (List.range' 1 (z.length - 1)).foldl
    (fun h k => addAt h 0 (k - 1) (k - 1) (-z.getD k 0)) h0
  let h2 := scaleAt h1 0 (z.getD 0 0)
  (List.range' 1 (z.length - 1)).foldl (hessStep z) h2

end

end LRVB
