import Verif.Model.Export
import Verif.Spec.Dict

/-!
# Specification vocabulary: exported values
-/

namespace LRVB

/-- `d[k1][k2]...`: the parameter or dictionary at a path of keys. -/
def Param.sub (p : Param) : List String → Option Param
  | [] => some p
  | k :: ks => match p.find k with
    | some q => q.sub ks
    | none => none

namespace PyVal

/-- `v[key]` of a dictionary. -/
def item (v : PyVal) (key : String) : Option PyVal :=
  match v with
  | .dict items => items.lookup key
  | _ => none

/-- `v[k1][k2]...`. -/
def sub (v : PyVal) : List String → Option PyVal
  | [] => some v
  | k :: ks => match v.item k with
    | some w => w.sub ks
    | none => none

/-- `v` is `a` as nested lists: a number if `a` has no axes, and otherwise a list whose `i`-th element
is `a[i]` as nested lists. -/
def IsNested : PyVal → (shape : List ℕ) → (a : List ℕ → ℝ) → Prop
  | v, [], a => v = .num (a [])
  | v, n :: s, a => ∃ l : List PyVal, v = .list l ∧ l.length = n ∧
      ∀ (i : ℕ) (w : PyVal), l[i]? = some w → IsNested w s fun idx => a (i :: idx)

/-- The keys of a dictionary in order. -/
def keys : PyVal → List String
  | .dict items => items.map Prod.fst
  | _ => []

end PyVal

mutual
/-- No parameter was renamed after it was pushed: the name of every entry is its key. -/
def Param.NamesAreKeys : Param → Prop
  | .leaf _ => True
  | .dict _ es => es.NamesAreKeys
/-- ... of all entries. -/
def Entries.NamesAreKeys : Entries → Prop
  | .nil => True
  | .cons k p rest => p.name = k ∧ p.NamesAreKeys ∧ rest.NamesAreKeys
end

mutual
/-- All parameters are scalars, vectors or vectors in a subspace. -/
def Param.Labelled : Param → Prop
  | .leaf l => match l.kind with
    | .scalar _ _ | .vector _ _ _ | .subspace _ _ _ => True
    | _ => False
  | .dict _ es => es.Labelled
/-- ... of all entries. -/
def Entries.Labelled : Entries → Prop
  | .nil => True
  | .cons _ p rest => p.Labelled ∧ rest.Labelled
end

end LRVB
