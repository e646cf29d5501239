import Verif.Model.Taylor

/-!
# Printing the terms of a Taylor expansion — `ModelSensitivity.py:121-123, 507-515`

Strings are lists of characters.  What Python prints for a float is an arbitrary function `fmt`; integers are printed
in decimal digits.
-/

namespace LRVB

noncomputable section

/-- `str(n)` for an integer that is not negative. -/
def natStr (n : ℕ) : List Char := Nat.toDigits 10 n

/-- `str(l)` for a list of integers: `[0, 1, 2]`. -/
def natListStr (l : List ℕ) : List Char := '[' :: ([',', ' '].intercalate (l.map natStr) ++ [']'])

/-- `DerivativeTerm.__str__`: `ModelSensitivity.py:121-123`. -/
def DTerm.str (fmt : ℝ → List Char) (T : DTerm) : List Char :=
  "Order: ".toList ++ natStr T.order ++ ['\t'] ++ fmt T.prefactor ++ " * eta".toList ++
    natListStr T.etaOrders ++ " * eps[".toList ++ natStr T.epsOrder ++ [']']

/-- What `print_terms` prints above the terms of one order: `ModelSensitivity.py:513`. -/
def termsHeader (k : ℕ) : List Char := "\nTerms for order ".toList ++ natStr k ++ [':']

/-- The loop of `print_terms` over the orders, `range(self.order)`: `ModelSensitivity.py:511-515`. -/
def printLoop (fmt : ℝ → List Char) (terms : List (List DTerm)) (k : Option ℤ) :
    List ℕ → Py (List (List Char))
  | [] => .ok []
  | order :: rest =>
    if k = none ∨ k = some ((order : ℤ) + 1) then do
      let ts ← getIdx terms order
      let more ← printLoop fmt terms k rest
      .ok (termsHeader (order + 1) :: ts.map (DTerm.str fmt) ++ more)
    else printLoop fmt terms k rest

/-- `print_terms(k)`: `ModelSensitivity.py:507-515`.  The strings given to `print`, in order. -/
def Taylor.printTerms (fmt : ℝ → List Char) (T : Taylor) (k : Option ℤ) : Py (List (List Char)) :=
  if ∃ j, k = some j ∧ (T.order : ℤ) < j then .error .valueError
  else printLoop fmt T.termsList k (List.range T.order)

end

end LRVB
