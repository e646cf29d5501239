import Verif.Model.Round

/-!
# Specification vocabulary: floating point arithmetic
-/

namespace LRVB

open Flt

noncomputable section

/-- What is assumed of a floating point arithmetic.  `over` is a bound from which on results overflow, and
results of `np.exp` up to `under` underflow (`2 ^ 1024` and `2 ^ (-1075)` in double precision). -/
structure FloatContract (o : FloatOps) (over under : ℝ) : Prop where
  zero : o.Rep 0
  one : o.Rep 1
  neg {x : ℝ} : o.Rep x → o.Rep (-x)
  /-- representable results are exact -/
  rnd_rep {x : ℝ} : o.Rep x → o.rnd x = fin x
  /-- finite results are representable -/
  rep_rnd {x r : ℝ} : o.rnd x = fin r → o.Rep r
  /-- rounding is monotone -/
  rnd_mono {x y : ℝ} : x ≤ y → o.rnd x ≤ o.rnd y
  rnd_neg {x : ℝ} : o.rnd (-x) = -o.rnd x
  rnd_over {x : ℝ} : over ≤ x → o.rnd x = pinf
  /-- `np.exp` and `np.log` are faithful: no representable number lies between the exact result and the
  returned one -/
  rep_exp {x r : ℝ} : o.expR x = fin r → o.Rep r
  exp_ge {x f : ℝ} : o.Rep f → f ≤ Real.exp x → fin f ≤ o.expR x
  exp_le {x f : ℝ} : o.Rep f → Real.exp x ≤ f → o.expR x ≤ fin f
  exp_over {x : ℝ} : over ≤ Real.exp x → o.expR x = pinf
  exp_under {x : ℝ} : Real.exp x ≤ under → o.expR x = fin 0
  under_pos : 0 < under
  rep_log {x : ℝ} : 0 < x → o.Rep x → ∃ r, o.logR x = fin r ∧ o.Rep r
  log_ge {x f : ℝ} : 0 < x → o.Rep f → f ≤ Real.log x → fin f ≤ o.logR x
  log_le {x f : ℝ} : 0 < x → o.Rep f → Real.log x ≤ f → o.logR x ≤ fin f
  /-- a sum of numbers that are not negative is at least as large as each of them -/
  sum_ge {l : List ℝ} {a : ℝ} : (∀ b ∈ l, 0 ≤ b) → a ∈ l → o.Rep a → fin a ≤ o.sumR l
  /-- a sum of `n` numbers in `[0, 1]` is at most `n`, when the numbers up to `n` are representable -/
  sum_le {l : List ℝ} : (∀ b ∈ l, 0 ≤ b ∧ b ≤ 1) → (∀ k ≤ l.length, o.Rep k) → o.sumR l ≤ fin l.length

end

end LRVB
