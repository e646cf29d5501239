import Verif.Model.Py
import Mathlib.Analysis.SpecialFunctions.Log.Basic
import Mathlib.Analysis.SpecialFunctions.Exp

/-!
# Floats without rounding

`Flt` is IEEE-754 double arithmetic with rounding, overflow and the sign of
zero removed: a finite float is a real number, and there are two infinities
and a NaN.  It models the values that flow through `Parameters.py:15-79`, where
legal calls reach infinities (`-float("inf")` bounds, `log(0)`).
-/

namespace LRVB

/-- A float: a finite real, an infinity, or NaN. -/
inductive Flt where
  | fin (r : ℝ)
  | pinf
  | ninf
  | nan

namespace Flt

open Classical

noncomputable section

/-- IEEE `<=`: false as soon as one side is NaN. -/
def le : Flt → Flt → Prop
  | fin a, fin b => a ≤ b
  | nan, _ => False
  | _, nan => False
  | ninf, _ => True
  | _, pinf => True
  | _, _ => False

/-- IEEE `==`: NaN is different from everything. -/
def eq : Flt → Flt → Prop
  | fin a, fin b => a = b
  | pinf, pinf => True
  | ninf, ninf => True
  | _, _ => False

/-- IEEE `<`. -/
def lt : Flt → Flt → Prop
  | fin a, fin b => a < b
  | nan, _ => False
  | _, nan => False
  | ninf, ninf => False
  | ninf, _ => True
  | pinf, _ => False
  | _, pinf => True
  | fin _, ninf => False

/-- IEEE negation. -/
def neg : Flt → Flt
  | fin a => fin (-a)
  | pinf => ninf
  | ninf => pinf
  | nan => nan

/-- IEEE addition: `inf + (-inf)` is NaN. -/
def add : Flt → Flt → Flt
  | fin a, fin b => fin (a + b)
  | nan, _ => nan
  | _, nan => nan
  | pinf, ninf => nan
  | ninf, pinf => nan
  | pinf, _ => pinf
  | _, pinf => pinf
  | ninf, _ => ninf
  | _, ninf => ninf

/-- IEEE subtraction. -/
def sub (a b : Flt) : Flt := add a (neg b)

/-- The product of an infinity with a finite number: its sign is that of the
number, and `inf * 0` is NaN. -/
def infMul (a : ℝ) : Flt := if 0 < a then pinf else if a < 0 then ninf else nan

/-- IEEE multiplication. -/
def mul : Flt → Flt → Flt
  | fin a, fin b => fin (a * b)
  | nan, _ => nan
  | _, nan => nan
  | pinf, pinf => pinf
  | ninf, ninf => pinf
  | pinf, ninf => ninf
  | ninf, pinf => ninf
  | pinf, fin b => infMul b
  | fin a, pinf => infMul a
  | ninf, fin b => neg (infMul b)
  | fin a, ninf => neg (infMul a)

/-- IEEE division; zero divisors are read as `+0` (the sign of zero is not modelled). -/
def div : Flt → Flt → Flt
  | fin a, fin b => if b = 0 then infMul a else fin (a / b)
  | nan, _ => nan
  | _, nan => nan
  | fin _, _ => fin 0
  | pinf, fin b => if b = 0 then pinf else infMul b
  | ninf, fin b => if b = 0 then ninf else neg (infMul b)
  | _, _ => nan

/-- `np.exp`. -/
def exp : Flt → Flt
  | fin a => fin (Real.exp a)
  | pinf => pinf
  | ninf => fin 0
  | nan => nan

/-- `np.log`: `-inf` at zero, NaN below. -/
def log : Flt → Flt
  | fin a => if 0 < a then fin (Real.log a) else if a = 0 then ninf else nan
  | pinf => pinf
  | ninf => nan
  | nan => nan

instance : LE Flt := ⟨le⟩
instance : LT Flt := ⟨lt⟩
instance : Add Flt := ⟨add⟩
instance : Sub Flt := ⟨sub⟩
instance : Mul Flt := ⟨mul⟩
instance : Div Flt := ⟨div⟩
instance : Neg Flt := ⟨neg⟩
instance : Coe ℝ Flt := ⟨fin⟩

/-- A finite float as a real; anything else stops the model. -/
def toReal : Flt → Py ℝ
  | fin a => .ok a
  | _ => .error .nonFinite

end

end Flt

end LRVB
