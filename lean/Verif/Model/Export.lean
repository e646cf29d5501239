import Verif.Model.Dict
import Verif.Model.NdArr

/-!
# Exporting values: `dictval()` and `names()`
-/

namespace LRVB

open Classical

noncomputable section

/-- A Python value made of floats, lists and dictionaries. -/
inductive PyVal
  | num (x : ℝ)
  | list (l : List PyVal)
  | dict (items : List (String × PyVal))

/-- `a.tolist()` of numpy, for an array of given shape with entries `data` in row-major order. -/
def tolist : List ℕ → List ℝ → PyVal
  | [], data => .num (data.getD 0 0)
  | n :: s, data => .list ((List.range n).map fun i => tolist s ((data.drop (i * s.prod)).take s.prod))

/-- `dictval()` of a parameter: `Parameters.py:103-108,175-176,255-256`,
`MatrixParameters.py:157-158,222-223,346-347`, `SimplexParams.py:83-84`, `ProjectionParams.py:60-61`.
A Python number and a 0-d array both give a number.  A differentiation placeholder has no attribute
`tolist`. -/
def Leaf.dictval (l : Leaf) : Py PyVal :=
  if l.boxed then .error .attributeError else .ok (tolist l.val.shape l.val.data)

mutual
/-- `dictval()`: `ParameterDictionary.py:49-53`. -/
def Param.dictval : Param → Py PyVal
  | .leaf l => l.dictval
  | .dict _ es => do .ok (.dict (← Entries.dictval es []))
/-- The loop of `dictval` from a partial `result`. -/
def Entries.dictval : Entries → List (String × PyVal) → Py (List (String × PyVal))
  | .nil, res => .ok res
  | .cons _ p rest, res => do
    let v ← p.dictval
    rest.dictval (assign p.name v res)
end

/-- `names()` of a parameter: `Parameters.py:101-102,173-174,253-254`,
`MatrixParameters.py:155-156,220-221,344-345`, `SimplexParams.py:81-82`, `ProjectionParams.py:58-59`.
For an `ArrayParam` the method returns the string itself and not a list with it; the caller in
`ModelParamsDict.names` wraps it with `np.atleast_1d`, and so does the model. -/
def Leaf.names (l : Leaf) : List String :=
  match l.kind with
  | .vector n _ _ => (List.range n).map fun k => l.name ++ "_" ++ toString k
  | .subspace dim _ _ => (List.range dim).map fun k => l.name ++ "_" ++ toString k
  | _ => [l.name]

mutual
/-- `names()`: `ParameterDictionary.py:101-103`.  `np.concatenate([])` raises. -/
def Param.names : Param → Py (List String)
  | .leaf l => .ok l.names
  | .dict _ .nil => .error .valueError
  | .dict _ (.cons k p rest) => Entries.names (.cons k p rest)
/-- The names of all entries in order. -/
def Entries.names : Entries → Py (List String)
  | .nil => .ok []
  | .cons _ p rest => do .ok ((← p.names) ++ (← rest.names))
end

end

end LRVB
