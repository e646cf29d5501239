import Verif.Spec.HeapTwo
import Verif.Model.HeapPSens

/-!
# Specification vocabulary: programs that hold a `ParametricSensitivity`
-/

namespace LRVB

noncomputable section

/-- The object as a value: what its parameters and arrays contain now; `conv` describes the user's
converter. -/
def SWorld.view (depth : ℕ) (conv : Param → Param → Param × Option PyErr) (w : SWorld) : Option Sens := do
  let p ← w.st.tree depth w.o.inputPar
  let q ← w.st.tree depth w.o.outputPar
  let r ← w.st.tree depth w.o.hyperPar
  some ⟨p, q, r, conv, w.o.objFn, w.o.hyperFn, w.st.mem.vals w.o.optInput, w.st.mem.vals w.o.optHyper,
    w.st.mem.vals w.o.optOutput, w.st.mem.read w.o.hess, w.o.chol, w.o.doutDin, w.o.cross,
    w.st.mem.read w.o.sens⟩

/-- No two of the three parameters have an object in common. -/
def Store.Apart3 (depth : ℕ) (st : Store) (i j k : ℕ) : Prop :=
  st.Apart depth i j ∧ st.Apart depth i k ∧ st.Apart depth j k

/-- The prediction of the input for a new array with the numbers `y`. -/
def SWorld.inputAt (w : SWorld) (y : List ℝ) : Py (List ℝ) :=
  let s := w.st.newVec y
  let r := SWorld.predictInput ⟨s.1, w.o⟩ s.2
  r.1.st.mem.vals <$> r.2

/-- The linear prediction of the output for a new array with the numbers `y`. -/
def SWorld.outputAt (depth : ℕ) (w : SWorld) (y : List ℝ) : Py (List ℝ) :=
  let s := w.st.newVec y
  let r := SWorld.predictOutput depth ⟨s.1, w.o⟩ s.2 true
  r.1.st.mem.vals <$> r.2

/-- The arrays that predictions are computed from (attributes of the object). -/
def SWorld.cells (w : SWorld) : List ℕ := w.o.optInput ++ w.o.optHyper ++ w.o.optOutput ++ w.o.sens.addr

/-- The array that a parameter holds; a dictionary holds none itself. -/
def Store.holds (st : Store) (i : ℕ) : List ℕ :=
  match st.objs[i]? with
  | some (.leaf l) => l.ref.addr
  | _ => []

/-- What a program with a `ParametricSensitivity` does. -/
inductive SEvent
  | setOptimal (x : Option (List ℕ)) (hess : Option Ref)
  | predictInput (newHyper : List ℕ)
  | predictOutput (newHyper : List ℕ) (linear : Bool)
  | other (e : PEvent Unit)

/-- The state after an event. -/
def SEvent.run (depth : ℕ) (w : SWorld) : SEvent → SWorld
  | .setOptimal x hess => (w.setOptimal depth x hess).1
  | .predictInput n => (w.predictInput n).1
  | .predictOutput n linear => (w.predictOutput depth n linear).1
  | .other e => ⟨e.run depth w.st, w.o⟩

/-- The arrays an event uses exist. -/
def SEvent.Ok (depth : ℕ) (w : SWorld) : SEvent → Prop
  | .setOptimal x hess => (∀ y, x = some y → (Ref.vec y).Alive w.st.mem) ∧ ∀ r, hess = some r → r.Alive w.st.mem
  | .predictInput n => (Ref.vec n).Alive w.st.mem
  | .predictOutput n _ => (Ref.vec n).Alive w.st.mem
  | .other e => e.Ok depth w.st

/-- The state after a program. -/
def runS (depth : ℕ) (w : SWorld) : List SEvent → SWorld
  | [] => w
  | e :: es => runS depth (e.run depth w) es

/-- Every event uses arrays that exist. -/
def okS (depth : ℕ) (w : SWorld) : List SEvent → Prop
  | [] => True
  | e :: es => e.Ok depth w ∧ okS depth (e.run depth w) es

/-- The event gives the object a new optimal input. -/
def SEvent.Resets : SEvent → Prop
  | .setOptimal _ _ => True
  | _ => False

/-- The cells that an event changes in place: an assignment to an entry of an array. -/
def SEvent.writes : SEvent → List ℕ
  | .other (.other (.assign w)) => w.r.addr
  | _ => []

/-- The states programs can reach that make a `ParametricSensitivity` at some point; its converter only
assigns new values to objects of the output parameter. -/
inductive SReached (depth : ℕ) : SWorld → Prop
  | start {st : Store} (h : PReached Unit depth st) (objFn : Param → Param → Py Arr)
      (inputPar outputPar hyperPar : ℕ) (conv : Store → Store × Py Unit) (x : Option (List ℕ)) (hess : Option Ref)
      (hyperFn : Option (Param → Param → Py Arr)) (hc : (HConverter.mk inputPar outputPar conv).Assigns depth)
      (hx : ∀ y, x = some y → (Ref.vec y).Alive st.mem) (hh : ∀ r, hess = some r → r.Alive st.mem)
      (ok : (SWorld.new depth st objFn inputPar outputPar hyperPar conv x hess hyperFn).2 = .ok ()) :
      SReached depth (SWorld.new depth st objFn inputPar outputPar hyperPar conv x hess hyperFn).1
  | step {w : SWorld} (h : SReached depth w) (e : SEvent) (ok : e.Ok depth w) : SReached depth (e.run depth w)

end

end LRVB
