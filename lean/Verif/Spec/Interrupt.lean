import Verif.Model.Objective

/-!
# Interruptions: specification
-/

namespace LRVB

mutual
/-- The parameters in a dictionary, in the order of the vector, dictionaries in it opened up. -/
def Param.leaves : Param → List Leaf
  | .leaf l => [l]
  | .dict _ es => es.leaves
/-- ... of all entries. -/
def Entries.leaves : Entries → List Leaf
  | .nil => []
  | .cons _ p rest => p.leaves ++ rest.leaves
end

/-- Two loggers with the same attributes (`reports` is not an attribute). -/
def Logger.Same {V : Type} (l l' : Logger V) : Prop := { l with reports := [] } = { l' with reports := [] }

end LRVB
