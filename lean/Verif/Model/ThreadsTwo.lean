import Verif.Model.ThreadsDeriv
import Verif.Model.Sensitivity

/-!
# Threads that share a two-parameter objective or a converter — `SparseObjectives.py:244-449`

As in `Model/Threads` and `Model/ThreadsDeriv`.  The shared state is the list of the parameters in the first parameter
(the input), followed by those in the second one (the output); neither contains an empty dictionary.
-/

namespace LRVB

open Classical

noncomputable section

namespace Thread

/-- Make the steps, with placeholders if `t`, then go on with `k`. -/
def setsIf (t free : Bool) (ms : List SetStep) (k : Thread) : Thread :=
  if t then traceSets free ms k else sets free ms k

/-- `eval_fun`, `fun_free`, `fun_vector` of a two-parameter objective: `SparseObjectives.py:353-371`. -/
def evaluateTwo (par1 par2 : Param) (fn : Reader) (free1 free2 : Bool) (x1 x2 : List ℝ) : Thread :=
  sets free1 (par1.setSteps free1 x1 0) <| sets free2 (par2.setSteps free2 x2 par1.leaves.length) <|
    user fn fun v => .ret (.ok v)

/-- The derivative methods of a two-parameter objective, with `cache_and_eval`: `SparseObjectives.py:341-351`, `373-449`.
`t1` and `t2` say which arguments are placeholders, `res` is what autograd makes of the value. -/
def deriveTwo (par1 par2 : Param) (fn : Reader) (free1 free2 t1 t2 : Bool) (x1 x2 : List ℝ) (res : Arr → Py Arr) :
    Thread :=
  setsIf t1 free1 (par1.setSteps free1 x1 0) <| setsIf t2 free2 (par2.setSteps free2 x2 par1.leaves.length) <|
    user fn fun v =>
      match res v with
      | .error e => .ret (.error e)
      | .ok d =>
        sets free1 (par1.setSteps free1 x1 0) <| sets free2 (par2.setSteps free2 x2 par1.leaves.length) <|
          .ret (.ok d)

end Thread

/-- A user's converter: it reads parameters and sets parameters, one at a time, and then returns or raises.  `box` says
whether the value it sets is a placeholder (it is computed from one). -/
inductive Rewriter where
  | ret (r : Option PyErr)
  | read (i : ℕ) (k : Leaf → Rewriter)
  | write (i : ℕ) (y : List ℝ) (box : Bool) (k : Rewriter)

namespace Thread

/-- Call the user's converter, then go on with `k`.  The parameters it sets are those of the output, which start at
position `n`. -/
def rewrite (n : ℕ) : Rewriter → Thread → Thread
  | .ret (some e), _ => .ret (.error e)
  | .ret none, k => k
  | .read i r, k => .step id fun s =>
    match s.leaves[i]? with
    | none => .ret (.error .keyError)
    | some l => rewrite n (r l) k
  | .write i y box r, k =>
    .step (fun s => if box then s.assignTraced false (n + i) y else s.assign false (n + i) y) fun s =>
      match s.compute false (n + i) y with
      | .error e => .ret (.error e)
      | .ok _ => rewrite n r k

/-- Read `m` parameters from position `i` on. -/
def readLeaves : ℕ → ℕ → (List Leaf → Thread) → Thread
  | 0, _, k => k []
  | m + 1, i, k => .step id fun s =>
    match s.leaves[i]? with
    | none => .ret (.error .keyError)
    | some l => readLeaves m (i + 1) fun ls => k (l :: ls)

/-- A conversion: `SparseObjectives.py:260-278`; `out` is `get_free()` or `get_vector()` of the parameters read. -/
def convert (parIn parOut : Param) (conv : Rewriter) (freeIn : Bool) (x : List ℝ) (out : List Leaf → Py Arr) : Thread :=
  sets freeIn (parIn.setSteps freeIn x 0) <| rewrite parIn.leaves.length conv <|
    readLeaves parOut.leaves.length parIn.leaves.length fun ls => .ret (out ls)

/-- A Jacobian of a conversion, with `cache_free_and_eval` or `cache_vector_and_eval`: `SparseObjectives.py:280-308`: the vector
of the output parameter is read, and put back at the end; if some parameter that was read held a placeholder, the vector
is one. -/
def jacobian (parIn parOut : Param) (conv : Rewriter) (freeIn : Bool) (x : List ℝ) (res : List Leaf → Py Arr) : Thread :=
  readLeaves parOut.leaves.length parIn.leaves.length fun old =>
    match old.mapM Leaf.getVector with
    | .error e => .ret (.error e)
    | .ok vs =>
      traceSets freeIn (parIn.setSteps freeIn x 0) <| rewrite parIn.leaves.length conv <|
        readLeaves parOut.leaves.length parIn.leaves.length fun new =>
          match res new with
          | .error e => .ret (.error e)
          | .ok J =>
            sets freeIn (parIn.setSteps freeIn x 0) <|
              setsIf (old.any (·.boxed)) false (parOut.setSteps false vs.flatten parIn.leaves.length) <| .ret (.ok J)

end Thread

/-- A call on a two-parameter objective. -/
inductive TwoThreadCall where
  | value (fn : Reader) (free1 free2 : Bool) (x1 x2 : List ℝ)
  | deriv (fn : Reader) (free1 free2 t1 t2 : Bool) (x1 x2 : List ℝ) (res : Arr → Py Arr)

/-- Its thread. -/
def TwoThreadCall.thread (par1 par2 : Param) : TwoThreadCall → Thread
  | .value fn free1 free2 x1 x2 => Thread.evaluateTwo par1 par2 fn free1 free2 x1 x2
  | .deriv fn free1 free2 t1 t2 x1 x2 res => Thread.deriveTwo par1 par2 fn free1 free2 t1 t2 x1 x2 res

/-- A call on a converter. -/
inductive ConvThreadCall where
  | convert (conv : Rewriter) (freeIn : Bool) (x : List ℝ) (out : List Leaf → Py Arr)
  | jacobian (conv : Rewriter) (freeIn : Bool) (x : List ℝ) (res : List Leaf → Py Arr)

/-- Its thread. -/
def ConvThreadCall.thread (parIn parOut : Param) : ConvThreadCall → Thread
  | .convert conv freeIn x out => Thread.convert parIn parOut conv freeIn x out
  | .jacobian conv freeIn x res => Thread.jacobian parIn parOut conv freeIn x res

/-- `predict_output_par_from_hyperparameters(new_hyper_par, linear)`: `SparseObjectives.py:560-573`.  Apart from the conversion
it only reads attributes that no prediction changes. -/
def Thread.predictOutput (S : Sens) (conv : Rewriter) (newHyper : List ℝ) (linear : Bool) (out : List Leaf → Py Arr) : Thread :=
  if linear then
    .ret do
      let d ← vsub newHyper S.optHyper
      .ok (Arr.vec (← vadd S.optOutput (← (← S.doutDin.matmul S.sens).mulVec d)))
  else
    match S.predictInput newHyper with
    | .error e => .ret (.error e)
    | .ok x => Thread.convert S.inputPar S.outputPar conv true x out

end

end LRVB
