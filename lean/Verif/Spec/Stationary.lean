import Verif.Spec.Optimum

/-!
# What two objectives with the same optima have in common
-/

namespace LRVB

open scoped Topology

variable {n m : ℕ}

/-- Near `(x, e)`, the stationary points in the first argument of one function are those of the other. -/
def SameStationary (F F' : (Fin n → ℝ) × (Fin m → ℝ) → ℝ) (x : Fin n → ℝ) (e : Fin m → ℝ) : Prop :=
  ∀ᶠ z in 𝓝 (x, e), fderiv ℝ (fun u => F (u, z.2)) z.1 = 0 ↔ fderiv ℝ (fun u => F' (u, z.2)) z.1 = 0

/-- `F'` is `F` on another scale: `F'(u, w) = φ(F(u, w), w)`, where `φ` strictly increases in its first argument at the rate `φ'`,
which may depend on the second one.  Examples: a positive multiple, a term added that depends only on `w`, the exponential. -/
structure Rescaled (F F' : (Fin n → ℝ) × (Fin m → ℝ) → ℝ) (φ φ' : ℝ → (Fin m → ℝ) → ℝ) : Prop where
  eq : ∀ u w, F' (u, w) = φ (F (u, w)) w
  deriv : ∀ s w, HasDerivAt (fun s => φ s w) (φ' s w) s
  pos : ∀ s w, 0 < φ' s w
  cont : ∀ w, Continuous fun s => φ' s w

end LRVB
