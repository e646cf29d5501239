import Verif.Model.Dict

/-!
# The printed form: `__str__`

Strings are lists of characters.  What numpy and Python print for a value is an arbitrary function `fmt` of the value and
of whether it is a differentiation placeholder.
-/

namespace LRVB

noncomputable section

/-- `str(param)`: `Parameters.py:99-100,171-172,251-252`, `MatrixParameters.py:153-154,218-219,342-343`,
`SimplexParams.py:79-80`, `ProjectionParams.py:56-57`.  Scalars and simplexes have the value on the same line. -/
def Leaf.str (fmt : Bool → Arr → List Char) (l : Leaf) : List Char :=
  match l.kind with
  | .scalar .. => l.name.toList ++ [':', ' '] ++ fmt l.boxed l.val
  | .simplex .. => l.name.toList ++ [':', ' '] ++ fmt l.boxed l.val
  | _ => l.name.toList ++ [':', '\n'] ++ fmt l.boxed l.val

mutual
/-- `str(param)`: `ParameterDictionary.py:32-34`. -/
def Param.str (fmt : Bool → Arr → List Char) : Param → List Char
  | .leaf l => l.str fmt
  | .dict h es => h.name.toList ++ [':', '\n'] ++ (['\n'].intercalate (Entries.strs fmt es))
/-- The list in `join`. -/
def Entries.strs (fmt : Bool → Arr → List Char) : Entries → List (List Char)
  | .nil => []
  | .cons _ p rest => ('\t' :: p.str fmt) :: Entries.strs fmt rest
end

end

end LRVB
