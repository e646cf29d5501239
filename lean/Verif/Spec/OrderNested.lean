import Verif.Spec.Order
import Verif.Spec.Coordinates

/-! What it means that two dictionaries differ only in the order of the entries, in them and in the dictionaries
nested in them. -/

namespace LRVB

/-- The same parameter, or two dictionaries with the same keys and, under every key, the same up to the order of
the entries. -/
inductive SameNested : Param → Param → Prop
  | leaf (l : Leaf) : SameNested (.leaf l) (.leaf l)
  | dict {p q : Param} : p.IsDict → q.IsDict → (∀ k, p.find k = none ↔ q.find k = none) →
      (∀ k a b, p.find k = some a → q.find k = some b → SameNested a b) → SameNested p q

/-- The vectors `x` of `p` and `y` of `q`, free (`free = true`) or not, hold the same numbers for every parameter: the parts
under the same key of nested dictionaries do. -/
inductive SameNumbers (free : Bool) : Param → Param → List ℝ → List ℝ → Prop
  | leaf (l m : Leaf) (x : List ℝ) : SameNumbers free (.leaf l) (.leaf m) x x
  | dict {p q : Param} {x y : List ℝ} : p.IsDict → q.IsDict →
      (∀ k r s a b, (k, r) ∈ p.indicesIn free → (k, s) ∈ q.indicesIn free → p.find k = some a → q.find k = some b →
        SameNumbers free a b (r.part x) (s.part y)) → SameNumbers free p q x y

/-- A function of a parameter (and of another one) that looks up the entries of dictionaries and of nested dictionaries by
their keys. -/
def ReadsNested {α : Type} (fn : Param → Param → α) : Prop := ∀ p q h, SameNested p q → fn p h = fn q h

end LRVB
