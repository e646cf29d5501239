import Verif.Spec.HeapTwo
import Verif.Model.HeapSens

/-!
# Specification vocabulary: programs that hold a linear approximation
-/

namespace LRVB

noncomputable section

/-- The object as a value: what its parameters and arrays contain now. -/
def LWorld.view (depth : ℕ) (w : LWorld) : Option LinApprox := do
  let p ← w.st.tree depth w.o.inputPar
  let q ← w.st.tree depth w.o.hyperPar
  some ⟨p, q, w.o.inputIsFree, w.o.hyperIsFree, w.o.objFn, w.o.hyperFn,
    ⟨w.st.mem.read w.o.hess0, w.st.mem.vals w.o.inputVal0, w.st.mem.vals w.o.hyperVal0⟩, w.o.chol, w.o.cross,
    w.st.mem.read w.o.sens⟩

/-- The prediction for a new array with the numbers `y`. -/
def LWorld.predictAt (w : LWorld) (y : List ℝ) : Py (List ℝ) :=
  let s := w.st.newVec y
  let r := LWorld.predict ⟨s.1, w.o⟩ s.2
  r.1.st.mem.vals <$> r.2

/-- What a program with a linear approximation does. -/
inductive LEvent
  | setBase (x h : List ℕ) (hess0 : Option Ref)
  | predict (newHyper : List ℕ)
  | other (e : PEvent Unit)

/-- The state after an event. -/
def LEvent.run (depth : ℕ) (w : LWorld) : LEvent → LWorld
  | .setBase x h hess0 => (w.setBaseValues depth x h hess0).1
  | .predict n => (w.predict n).1
  | .other e => ⟨e.run depth w.st, w.o⟩

/-- The arrays an event uses exist. -/
def LEvent.Ok (depth : ℕ) (w : LWorld) : LEvent → Prop
  | .setBase x h hess0 => (Ref.vec x).Alive w.st.mem ∧ (Ref.vec h).Alive w.st.mem ∧
      ∀ r, hess0 = some r → r.Alive w.st.mem
  | .predict n => (Ref.vec n).Alive w.st.mem
  | .other e => e.Ok depth w.st

/-- The state after a program. -/
def runL (depth : ℕ) (w : LWorld) : List LEvent → LWorld
  | [] => w
  | e :: es => runL depth (e.run depth w) es

/-- Every event uses arrays that exist. -/
def okL (depth : ℕ) (w : LWorld) : List LEvent → Prop
  | [] => True
  | e :: es => e.Ok depth w ∧ okL depth (e.run depth w) es

/-- The event gives the object new base values. -/
def LEvent.Resets : LEvent → Prop
  | .setBase _ _ _ => True
  | _ => False

/-- The cells that an event changes in place: an assignment to an entry of an array. -/
def LEvent.writes : LEvent → List ℕ
  | .other (.other (.assign w)) => w.r.addr
  | _ => []

/-- The states programs can reach that make a linear approximation at some point. -/
inductive LReached (depth : ℕ) : LWorld → Prop
  | start {st : Store} (h : PReached Unit depth st) (objFn : Param → Param → Py Arr) (inputPar hyperPar : ℕ)
      (x v : List ℕ) (inputIsFree hyperIsFree : Bool) (hess0 : Option Ref)
      (hyperFn : Option (Param → Param → Py Arr)) (hx : (Ref.vec x).Alive st.mem) (hv : (Ref.vec v).Alive st.mem)
      (ok : (LWorld.new depth st objFn inputPar hyperPar x v inputIsFree hyperIsFree hess0 hyperFn).2 = .ok ()) :
      LReached depth (LWorld.new depth st objFn inputPar hyperPar x v inputIsFree hyperIsFree hess0 hyperFn).1
  | step {w : LWorld} (h : LReached depth w) (e : LEvent) (ok : e.Ok depth w) : LReached depth (e.run depth w)

end

end LRVB
