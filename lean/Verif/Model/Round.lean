import Verif.Model.Bounds
import Verif.Model.Ld
import Mathlib.Data.Int.Log

/-!
# Floats with rounding

The transforms of `Parameters.py` and `SimplexParams.py`, and the packing of `MatrixParameters.py`, again, now with the result of every operation
rounded to a representable number.  The library functions `np.exp`, `np.log` and `np.sum` are part of
the arithmetic, because their rounding is not standardized.  The sign of zero is not modelled.
-/

namespace LRVB

open Classical Flt

noncomputable section

/-- A floating point arithmetic. -/
structure FloatOps where
  /-- the finite numbers that can be represented -/
  Rep : ℝ → Prop
  /-- the rounding of an exact result of `+`, `-`, `*`, `/` -/
  rnd : ℝ → Flt
  /-- `np.exp` of a finite number -/
  expR : ℝ → Flt
  /-- `np.log` of a positive finite number -/
  logR : ℝ → Flt
  /-- `np.sum` of finite numbers, in an order that numpy chooses -/
  sumR : List ℝ → Flt

namespace FloatOps

variable (o : FloatOps)

/-- The rounding of the result of an operation on floats. -/
def round : Flt → Flt
  | fin r => o.rnd r
  | x => x

/-- `a + b` -/
def add (a b : Flt) : Flt := o.round (a + b)
/-- `a - b` -/
def sub (a b : Flt) : Flt := o.round (a - b)
/-- `a * b` -/
def mul (a b : Flt) : Flt := o.round (a * b)
/-- `a / b` -/
def div (a b : Flt) : Flt := o.round (a / b)

/-- `np.exp(a)` -/
def exp : Flt → Flt
  | fin a => o.expR a
  | x => Flt.exp x

/-- `np.log(a)` -/
def log : Flt → Flt
  | fin a => if 0 < a then o.logR a else Flt.log (fin a)
  | x => Flt.log x

/-- `unconstrain`, one element: `Parameters.py:31-44`. -/
def unconstrain (v lb ub : Flt) : Py Flt :=
  if ub ≤ lb then .error .valueError
  else if ub.eq pinf then
    if lb.eq ninf then .ok v
    else .ok (o.log (o.sub v lb))
  else
    if lb.eq ninf then .ok (o.mul (fin (-1)) (o.log (o.sub ub v)))
    else .ok (o.sub (o.log (o.sub v lb)) (o.log (o.sub ub v)))

/-- `constrain`, one element: `Parameters.py:47-61`. -/
def constrain (x lb ub : Flt) : Py Flt :=
  if ub ≤ lb then .error .valueError
  else if ub.eq pinf then
    if lb.eq ninf then .ok x
    else .ok (o.add (o.exp x) lb)
  else
    if lb.eq ninf then .ok (o.sub ub (o.exp (o.mul (fin (-1)) x)))
    else
      let e := o.exp x
      .ok (o.add (o.div (o.mul (o.sub ub lb) e) (o.add (fin 1) e)) lb)

/-- `unconstrain_scalar`, and one element of `unconstrain_array`: `Parameters.py:15-28`. -/
def unconstrainScalar (v lb ub : Flt) : Py Flt :=
  if ¬ v ≤ ub then .error .valueError
  else if ¬ lb ≤ v then .error .valueError
  else o.unconstrain v lb ub

/-- `get_inbounds_value`: `Parameters.py:66-79`. -/
def getInboundsValue (lb ub : Flt) : Py Flt :=
  if ¬ lb < ub then .error .assertionError
  else if ninf < lb ∧ ub < pinf then .ok (o.mul (fin (1 / 2)) (o.sub ub lb))
  else if ninf < lb then .ok (o.add lb (fin 1))
  else if ub < pinf then .ok (o.sub ub (fin 1))
  else .ok (fin 0)

/-- `np.sum` of floats: the exact sum is not finite when an entry is not. -/
def sum (l : List Flt) : Flt :=
  if ∀ a ∈ l, ∃ r, a = fin r then o.sumR (l.map fun a => match a with | fin r => r | _ => 0)
  else l.foldl Flt.add (fin 0)

/-- `np.amax` of finite numbers. -/
def amax (x : ℝ) (l : List ℝ) : ℝ := l.foldl max x

/-- `scipy.misc.logsumexp` of one row of finite numbers, as scipy computes it: `a_max = np.amax(a)`,
`np.log(np.sum(np.exp(a - a_max))) + a_max`. -/
def logsumexp (x : ℝ) (l : List ℝ) : Flt :=
  let m := amax x l
  o.add (o.log (o.sum ((x :: l).map fun a => o.exp (o.sub (fin a) (fin m))))) (fin m)

/-- One row of `constrain_simplex_matrix`, for a finite free value: `SimplexParams.py:11-18`. -/
def constrainSimplexRow (x : List ℝ) : List Flt :=
  let logNorm := o.logsumexp 0 x
  (0 :: x).map fun a => o.exp (o.sub (fin a) logNorm)

/-- One row of `unconstrain_simplex_matrix`: `SimplexParams.py:21-23`. -/
def unconstrainSimplexRow : List Flt → Py (List Flt)
  | [] => .error .indexError
  | z :: zs => .ok (zs.map fun a => o.sub (o.log a) (o.log z))

/-- `MatrixParameters.py:61`: `int(0.5 * (math.sqrt(1 + 8 * vec.size) - 1))`.  `math.sqrt` converts its integer
argument to a float and rounds the exact square root. -/
def ldMatSize (len : ℕ) : Py ℕ :=
  match o.mul (fin (1 / 2)) (o.sub (o.round (match o.rnd (1 + 8 * (len : ℝ)) with
    | fin a => fin (Real.sqrt a)
    | a => a)) (fin 1)) with
  | fin r => .ok ⌊r⌋₊
  | nan => .error .valueError
  | _ => .error .unmodelled

/-- `MatrixParameters.py:60-68` `unvectorize_ld_matrix`, the size check in line 62: `/` is the division of
floats, and Python compares its result with the integer exactly. -/
def ldMatSizeChecked (len : ℕ) : Py ℕ := do
  let n ← o.ldMatSize len
  match o.rnd ((n * (n + 1) : ℕ) / 2 : ℝ) with
  | fin r => if r ≠ len then .error .valueError else .ok n
  | _ => .error .unmodelled

/-- `unvectorize_symmetric_matrix`, one entry: `MatrixParameters.py:117-125`. -/
def unvectorizeSymEntry (v : List ℝ) (i j : ℕ) : Flt :=
  let m := fun k1 k2 => if k2 ≤ k1 then v.getD (symIndex k1 k2) 0 else 0
  o.sub (o.add (fin (m i j)) (fin (m j i))) (fin (if i = j then m i i else 0))

/-- `set_vector` followed by `get_vector` of a matrix parameter (`MatrixParameters.py:186-191`), for a vector
of the right size. -/
def symVectorRoundTrip (n : ℕ) (v : List ℝ) : List Flt :=
  (trilIndices n).map fun p => o.unvectorizeSymEntry v p.1 p.2

end FloatOps

/-! ### IEEE double precision, rounding to nearest, ties to even -/

namespace Binary64

/-- The exponent of the last place of the numbers near `x`. -/
def expo (x : ℝ) : ℤ := max (Int.log 2 |x| - 52) (-1074)

/-- The nearest integer; the even one when there are two. -/
def rne (m : ℝ) : ℤ :=
  if m - ⌊m⌋ < 1 / 2 then ⌊m⌋
  else if 1 / 2 < m - ⌊m⌋ then ⌊m⌋ + 1
  else if Even ⌊m⌋ then ⌊m⌋ else ⌊m⌋ + 1

/-- The nearest multiple of the last place. -/
def near (x : ℝ) : ℝ := rne (x / 2 ^ expo x) * 2 ^ expo x

/-- IEEE-754 rounding to nearest. -/
def rnd (x : ℝ) : Flt :=
  if |near x| < 2 ^ 1024 then fin (near x) else if 0 < x then pinf else ninf

/-- The finite doubles. -/
def Rep (x : ℝ) : Prop := ∃ m e : ℤ, |m| < 2 ^ 53 ∧ -1074 ≤ e ∧ e ≤ 971 ∧ x = m * 2 ^ e

/-- Double precision with given library functions. -/
def ops (expR logR : ℝ → Flt) (sumR : List ℝ → Flt) : FloatOps := ⟨Rep, rnd, expR, logR, sumR⟩

end Binary64

end

end LRVB
