import Verif.Model.Coo
import Mathlib.Analysis.Calculus.Deriv.Basic

/-!
# Specification vocabulary: partial derivatives of a method returning a vector

`F` is a (possibly raising) function from vectors to vectors.
-/

namespace LRVB

/-- `d` is the partial derivative at `x` of output entry `i` of `F` with respect to input entry
`j`: whatever number `s` replaces `x[j]`, the call succeeds and returns a vector with an entry `i`,
and that entry, as a function of `s`, has derivative `d` at `x[j]`. -/
def PartialDeriv (F : List ℝ → Py (List ℝ)) (i j : ℕ) (x : List ℝ) (d : ℝ) : Prop :=
  ∃ g : ℝ → ℝ, (∀ s, ∃ v, F (x.set j s) = .ok v ∧ v[i]? = some (g s)) ∧
    HasDerivAt g d (x.getD j 0)

/-- `d` is the second partial derivative at `x` of output entry `i` of `F`, first with respect to
input entry `a` and then with respect to input entry `b`. -/
def SecondPartialDeriv (F : List ℝ → Py (List ℝ)) (i a b : ℕ) (x : List ℝ) (d : ℝ) : Prop :=
  ∃ D : ℝ → ℝ, (∀ s, PartialDeriv F i a (x.set b s) (D s)) ∧ HasDerivAt D d (x.getD b 0)

/-- `m` is the `nv × nf` Jacobian of `F` at `x`: entry `(i, j)` of the dense form is the partial
derivative of output `i` in input `j`. -/
def IsJacobian (F : List ℝ → Py (List ℝ)) (nv nf : ℕ) (x : List ℝ) (m : Coo) : Prop :=
  m.nr = nv ∧ m.nc = nf ∧ ∀ i < nv, ∀ j < nf, PartialDeriv F i j x (m.toDense i j)

/-- `ms` are the `nf × nf` Hessians of the `nv` outputs of `F` at `x`. -/
def AreHessians (F : List ℝ → Py (List ℝ)) (nv nf : ℕ) (x : List ℝ) (ms : List Coo) : Prop :=
  ms.length = nv ∧ ∀ i (h : i < ms.length), ms[i].nr = nf ∧ ms[i].nc = nf ∧
    ∀ a < nf, ∀ b < nf, SecondPartialDeriv F i a b x (ms[i].toDense a b)

end LRVB
