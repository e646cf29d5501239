import Verif.Model.Interrupt
import Verif.Lemmas.Blank

/-!
# Interrupted calls of two-parameter objectives and of converters

As in `Model/Interrupt`: the states that the objects go through during a call.
-/

namespace LRVB

noncomputable section

namespace TwoObjective

variable {A : Type}

/-- The states during `eval_fun`: `SparseObjectives.py:353-359`: the first parameter is set, then the second, then
the user's function is called.  `t1` and `t2` say which of the arguments are placeholders. -/
def duringEval (o : TwoObjective A) (x1 x2 : List ℝ) (free1 free2 t1 t2 : Bool) : List (TwoObjective A) :=
  (o.par1.during free1 t1 x1).map (fun p => { o with par1 := p }) ++
    match (setPar o.par1 x1 free1).2 with
    | some _ => []
    | none =>
      let p1 := if t1 then (setPar o.par1 x1 free1).1.mark true else (setPar o.par1 x1 free1).1
      (o.par2.during free2 t2 x2).map fun q => { o with par1 := p1, par2 := q }

/-- The states during `cache_and_eval`: `SparseObjectives.py:341-351`: autograd calls the function with placeholders,
then both parameters are set again. -/
def duringDeriv {β : Type} (o : TwoObjective A) (x1 x2 : List ℝ) (free1 free2 t1 t2 : Bool) (ag : Py β) :
    List (TwoObjective A) :=
  o.duringEval x1 x2 free1 free2 t1 t2 ++
    match ag with
    | .error _ => []
    | .ok _ => (o.trace x1 x2 free1 free2 t1 t2).duringEval x1 x2 free1 free2 false false

end TwoObjective

namespace Converter

/-- `s` is a state during a conversion: `SparseObjectives.py:260-278`.  While the user's converter runs, the output
parameter can hold anything.  With `box = true` the argument is a placeholder. -/
def DuringConvert (c : Converter) (freeIn box : Bool) (x : List ℝ) (s : Converter) : Prop :=
  (∃ p ∈ c.parIn.during freeIn box x, s = { c with parIn := p }) ∨
  ((setPar c.parIn x freeIn).2 = none ∧ ∃ q : Param, q.blank = c.parOut.blank ∧
    s = { c with parIn := if box then (setPar c.parIn x freeIn).1.mark true else (setPar c.parIn x freeIn).1,
                 parOut := q })

/-- `s` is a state during a Jacobian method: `SparseObjectives.py:280-308`: the vector of the output parameter is
read, autograd calls the conversion with placeholders, the input parameter is set, the output parameter is set to
the vector that was read. -/
def DuringJacobian (c : Converter) (freeIn freeOut : Bool) (x : List ℝ) (s : Converter) : Prop :=
  s = c ∨ ∃ w, c.parOut.getVector = .ok w ∧
    (c.DuringConvert freeIn true x s ∨ ∃ J, agJac (c.valueAt freeIn freeOut) x = .ok J ∧
      ((∃ p ∈ (c.trace freeIn freeOut x).parIn.during freeIn false x,
          s = { c.trace freeIn freeOut x with parIn := p }) ∨
        ((setPar (c.trace freeIn freeOut x).parIn x freeIn).2 = none ∧
          ∃ q ∈ (c.trace freeIn freeOut x).parOut.during false c.parOut.hasBox w,
            s = { c.trace freeIn freeOut x with
                  parIn := (setPar (c.trace freeIn freeOut x).parIn x freeIn).1, parOut := q })))

end Converter

end

end LRVB
