import Verif.Spec.HeapTwo
import Verif.Model.HeapTaylor

/-!
# Specification vocabulary: programs that hold a Taylor expansion
-/

namespace LRVB

noncomputable section

/-- The object as a value: what its parameters and arrays contain now, and the lists that `set_order` makes
from them. -/
def TWorld.view (depth : ℕ) (w : TWorld) : Option Taylor := do
  let p ← w.st.tree depth w.o.inputPar
  let q ← w.st.tree depth w.o.hyperPar
  let T : Taylor := ⟨p, q, w.o.inputIsFree, w.o.hyperIsFree, w.o.objFn, w.o.hyperFn,
    ⟨w.st.mem.read w.o.hess0, w.st.mem.vals w.o.inputVal0, w.st.mem.vals w.o.hyperVal0⟩, w.o.chol, w.o.order, [], []⟩
  let L := listsOf T.objectiveGradient w.o.listOrder
  some { T with termsList := L, dkList := L.map dkinputFromTerms }

/-- The `k`-th derivative in the direction of a new array with the numbers `y`. -/
def TWorld.dkAt (depth : ℕ) (w : TWorld) (y : List ℝ) (k : ℤ) : Py (List ℝ) :=
  let s := w.st.newVec y
  let r := TWorld.evaluateDk depth ⟨s.1, w.o⟩ s.2 k
  r.1.st.mem.vals <$> r.2

/-- The Taylor series at a new array with the numbers `y`. -/
def TWorld.seriesAt (depth : ℕ) (w : TWorld) (y : List ℝ) (addOffset : Bool) (maxOrder : Option ℤ) : Py (List ℝ) :=
  let s := w.st.newVec y
  let r := TWorld.evaluateSeries depth ⟨s.1, w.o⟩ s.2 addOffset maxOrder
  r.1.st.mem.vals <$> r.2

/-- What a program with a Taylor expansion does. -/
inductive TEvent
  | setBase (x h : List ℕ) (hess0 : Option Ref)
  | setOrder (order : ℕ)
  | evaluateDk (dhyper : List ℕ) (k : ℤ)
  | evaluateSeries (dhyper : List ℕ) (addOffset : Bool) (maxOrder : Option ℤ)
  | other (e : PEvent Unit)

/-- The state after an event. -/
def TEvent.run (depth : ℕ) (w : TWorld) : TEvent → TWorld
  | .setBase x h hess0 => (w.setBaseValues depth x h hess0).1
  | .setOrder n => (w.setOrder depth n).1
  | .evaluateDk d k => (w.evaluateDk depth d k).1
  | .evaluateSeries d off m => (w.evaluateSeries depth d off m).1
  | .other e => ⟨e.run depth w.st, w.o⟩

/-- The arrays an event uses exist. -/
def TEvent.Ok (depth : ℕ) (w : TWorld) : TEvent → Prop
  | .setBase x h hess0 => (Ref.vec x).Alive w.st.mem ∧ (Ref.vec h).Alive w.st.mem ∧
      ∀ r, hess0 = some r → r.Alive w.st.mem
  | .setOrder _ => True
  | .evaluateDk d _ => (Ref.vec d).Alive w.st.mem
  | .evaluateSeries d _ _ => (Ref.vec d).Alive w.st.mem
  | .other e => e.Ok depth w.st

/-- The state after a program. -/
def runT (depth : ℕ) (w : TWorld) : List TEvent → TWorld
  | [] => w
  | e :: es => runT depth (e.run depth w) es

/-- Every event uses arrays that exist. -/
def okT (depth : ℕ) (w : TWorld) : List TEvent → Prop
  | [] => True
  | e :: es => e.Ok depth w ∧ okT depth (e.run depth w) es

/-- The event gives the object new base values or another order. -/
def TEvent.Resets : TEvent → Prop
  | .setBase _ _ _ => True
  | .setOrder _ => True
  | _ => False

/-- The cells that an event changes in place: an assignment to an entry of an array. -/
def TEvent.writes : TEvent → List ℕ
  | .other (.other (.assign w)) => w.r.addr
  | _ => []

/-- The states programs can reach that make a Taylor expansion at some point. -/
inductive TReached (depth : ℕ) : TWorld → Prop
  | start {st : Store} (h : PReached Unit depth st) (objFn : Param → Param → Py Arr) (inputPar hyperPar : ℕ)
      (x v : List ℕ) (order : ℕ) (inputIsFree hyperIsFree : Bool) (hess0 : Option Ref)
      (hyperFn : Option (Param → Param → Py Arr)) (hx : (Ref.vec x).Alive st.mem) (hv : (Ref.vec v).Alive st.mem)
      (ok : (TWorld.new depth st objFn inputPar hyperPar x v order inputIsFree hyperIsFree hess0 hyperFn).2 = .ok ()) :
      TReached depth (TWorld.new depth st objFn inputPar hyperPar x v order inputIsFree hyperIsFree hess0 hyperFn).1
  | step {w : TWorld} (h : TReached depth w) (e : TEvent) (ok : e.Ok depth w) : TReached depth (e.run depth w)

end

end LRVB
