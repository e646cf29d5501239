import Verif.Spec.Dict
import Verif.Model.Objective

/-! What it means that two dictionaries differ only in the order of their entries. -/

namespace LRVB

/-- `vec[indices]` for a range of indices. -/
def IdxRange.part (r : IdxRange) (x : List ℝ) : List ℝ := (x.drop r.start).take (r.stop - r.start)

/-- The vectors `x` and `y`, one indexed by the dictionary `a` of ranges and the other by `b`, hold the
same numbers under every key. -/
def SameParts (a b : List (String × IdxRange)) (x y : List ℝ) : Prop :=
  ∀ k r s, (k, r) ∈ a → (k, s) ∈ b → r.part x = s.part y

/-- Two dictionaries hold the same under every key. -/
def SameByKey (p q : Param) : Prop := p.IsDict ∧ q.IsDict ∧ ∀ k, p.find k = q.find k

/-- A function of a parameter (and of another one) that looks up the entries of a dictionary by their
keys, and so does not depend on the order of the entries. -/
def ReadsByKey {α : Type} (fn : Param → Param → α) : Prop := ∀ p q h, SameByKey p q → fn p h = fn q h

/-- `free_indices_dict` or `vector_indices_dict`. -/
def Param.indicesIn (p : Param) (free : Bool) : List (String × IdxRange) :=
  if free then p.freeIndices else p.vecIndices

end LRVB
