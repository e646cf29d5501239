import Verif.Model.Heap
import Verif.Model.ConjugateGradient

/-!
# The conjugate gradient solver with references, and its messages — `ConjugateGradient.py:60-105`

`Model/ConjugateGradient` says what the methods compute.  Here the solver refers to arrays that the
caller may hold too.  A boolean array holds 1 for true and 0 for false.  The vector that scipy returns is a
new array.  `eval_hessian_vector_product` is a function of the contents of its arguments.
-/

namespace LRVB

open Classical

noncomputable section

/-- The contents of a boolean array. -/
def toMask (x : List ℝ) : Mask := x.map fun a => decide (a ≠ 0)

/-- A `ConjugateGradientSolver`: `ConjugateGradient.py:63-79`.  `hvp` and `x0` are what the closure in
line 68 refers to. -/
structure HCg where
  dim : ℕ
  hvp : List ℝ → List ℝ → Py (List ℝ)
  x0 : List ℕ
  precond : Option Ref
  tol : ℝ
  vecs : List (List ℕ)
  hinvVecs : List (List ℕ)
  masks : List (List ℕ)
  times : List ℝ
  infos : List ℤ
  cg : CgSolver
  clock : ℕ → ℝ
  ticks : ℕ
  /-- the messages printed: `ind` and `num_masks` -/
  printed : List (ℕ × ℕ)

/-- Arrays and a solver. -/
structure CgWorld where
  mem : Mem
  s : HCg

namespace CgWorld

/-- `initialize()`: `ConjugateGradient.py:74-79`. -/
def reset (w : CgWorld) : CgWorld :=
  { w with s := { w.s with vecs := [], hinvVecs := [], masks := [], times := [], infos := [] } }

/-- `ConjugateGradientSolver(eval_hessian_vector_product, x0)`: `ConjugateGradient.py:64-72`: neither
`self.x0 = x0` nor the closure copies the array. -/
def new (m : Mem) (cg : CgSolver) (clock : ℕ → ℝ) (hvp : List ℝ → List ℝ → Py (List ℝ)) (x0 : List ℕ) : CgWorld :=
  reset ⟨m, ⟨x0.length, hvp, x0, none, 1 / 10 ^ 8, [], [], [], [], [], cg, clock, 0, []⟩⟩

/-- `solver.preconditioner = r`: an attribute that the user sets. -/
def setPrecond (w : CgWorld) (r : Option Ref) : CgWorld := { w with s := { w.s with precond := r } }

/-- `get_hinv_vec(vec, x0)`: `ConjugateGradient.py:81-85`. -/
def getHinvVec (w : CgWorld) (vec : List ℕ) (x0 : Option (List ℕ)) : CgWorld × Py (List ℕ × ℤ) :=
  match w.s.cg w.s.dim (fun v => w.s.hvp (w.mem.vals w.s.x0) v) (w.mem.vals vec) (x0.map w.mem.vals) w.s.tol
      (w.s.precond.map w.mem.read) with
  | .error e => (w, .error e)
  | .ok (hv, info) =>
    (⟨(w.mem.alloc (Arr.vec hv)).1, w.s⟩, .ok ((w.mem.alloc (Arr.vec hv)).2.addr, info))

/-- The body of the loop of `get_hinv_vec_subsets`: `ConjugateGradient.py:92-105`.  `vec_masked` is a new
array, and `self.masks.append(mask)` keeps the mask that was passed. -/
def solveSubset (w : CgWorld) (vec mask : List ℕ) : CgWorld × Option PyErr :=
  match CgState.maskVec (w.mem.vals vec) (toMask (w.mem.vals mask)) with
  | .error e => (w, some e)
  | .ok vm =>
    let w1 : CgWorld := ⟨(w.mem.alloc (Arr.vec vm)).1, w.s⟩
    let v := (w.mem.alloc (Arr.vec vm)).2.addr
    let r := w1.getHinvVec v none
    match r.2 with
    | .error e => (⟨r.1.mem, { w.s with ticks := w.s.ticks + 1 }⟩, some e)
    | .ok (hv, info) =>
      (⟨r.1.mem, { w.s with
          times := w.s.times ++ [w.s.clock (w.s.ticks + 1) - w.s.clock w.s.ticks]
          vecs := w.s.vecs ++ [v]
          masks := w.s.masks ++ [mask]
          hinvVecs := w.s.hinvVecs ++ [hv]
          infos := w.s.infos ++ [info]
          ticks := w.s.ticks + 2 }⟩, none)

/-- The message of `ConjugateGradient.py:94-95`: `if verbose and print_every % ind == 0`. -/
def report (w : CgWorld) (verbose : Bool) (printEvery : ℤ) (ind numMasks : ℕ) : CgWorld :=
  if verbose = true ∧ printEvery % (ind : ℤ) = 0 then
    { w with s := { w.s with printed := w.s.printed ++ [(ind, numMasks)] } }
  else w

/-- The loop of `get_hinv_vec_subsets`: `ConjugateGradient.py:92-105`; `ind` is the counter. -/
def subsetsLoop (verbose : Bool) (printEvery : ℤ) (numMasks : ℕ) (vec : List ℕ) :
    ℕ → List (List ℕ) → CgWorld → CgWorld × Option PyErr
  | _, [], w => (w, none)
  | ind, mask :: rest, w =>
    let r := (w.report verbose printEvery (ind + 1) numMasks).solveSubset vec mask
    match r.2 with
    | some e => (r.1, some e)
    | none => subsetsLoop verbose printEvery numMasks vec (ind + 1) rest r.1

/-- `get_hinv_vec_subsets(vec, masks, verbose, print_every)`: `ConjugateGradient.py:89-105`. -/
def getHinvVecSubsets (w : CgWorld) (vec : List ℕ) (masks : List (List ℕ)) (verbose : Bool) (printEvery : ℤ) :
    CgWorld × Option PyErr :=
  subsetsLoop verbose printEvery masks.length vec 0 masks w

end CgWorld

end

end LRVB
