import Verif.Model.ConjugateGradient

/-!
# Specification vocabulary: masks
-/

namespace LRVB

/-- Position `i` is selected by the mask. -/
def Mask.Has (m : Mask) (i : ℕ) : Prop := m[i]? = some true

/-- The masks have the length of `target`, no position is selected by two of them, and they select
together the positions selected by `target`. -/
structure PartitionsMask (masks : List Mask) (target : Mask) : Prop where
  lengths : ∀ m ∈ masks, m.length = target.length
  disjoint : masks.Pairwise fun a b => ∀ i, ¬ (a.Has i ∧ b.Has i)
  union : ∀ i, target.Has i ↔ ∃ m ∈ masks, m.Has i

end LRVB
