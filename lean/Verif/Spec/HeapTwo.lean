import Verif.Model.HeapTwo

/-!
# Specification vocabulary: programs that hold two-parameter objectives and converters
-/

namespace LRVB

noncomputable section

variable {A : Type}

/-- No object is part of both parameters, or occurs twice in one of them. -/
def Store.Apart (depth : ℕ) (st : Store) (i j : ℕ) : Prop := (st.foot depth i ++ st.foot depth j).Nodup

/-- The arrays that objects hold exist. -/
def Store.Sound (st : Store) : Prop := ∀ (i : ℕ) (l : HLeaf), st.objs[i]? = some (.leaf l) → l.ref.Alive st.mem

/-- The objective as a value: what its parameters contain now. -/
def HTwo.view (depth : ℕ) (o : HTwo A) (st : Store) : Option (TwoObjective A) := do
  let p ← st.tree depth o.par1
  let q ← st.tree depth o.par2
  some ⟨p, q, o.fn⟩

/-- The calls of a two-parameter objective at the arrays `x1` and `x2`; `free1` and `free2` say which of
them are free vectors. -/
structure TCall (A : Type) where
  x1 : List ℕ
  x2 : List ℕ
  free1 : Bool
  free2 : Bool
  a : A

/-- The methods. -/
inductive TMethod
  | eval
  | grad1
  | grad2
  | hessian12
  | hessian21

/-- What a call does. -/
def HTwo.run (depth : ℕ) (o : HTwo A) (st : Store) (c : TCall A) : TMethod → Store × Py Arr
  | .eval => o.evalFun depth st c.x1 c.x2 c.free1 c.free2 c.a
  | .grad1 => ((o.grad1 depth st c.x1 c.x2 c.free1 c.free2 c.a).1,
      Arr.vec <$> (o.grad1 depth st c.x1 c.x2 c.free1 c.free2 c.a).2)
  | .grad2 => ((o.grad2 depth st c.x1 c.x2 c.free1 c.free2 c.a).1,
      Arr.vec <$> (o.grad2 depth st c.x1 c.x2 c.free1 c.free2 c.a).2)
  | .hessian12 => o.hessian12 depth st c.x1 c.x2 c.free1 c.free2 c.a
  | .hessian21 => o.hessian21 depth st c.x1 c.x2 c.free1 c.free2 c.a

/-- What the call does in the model without references (`Model/Objective`), given the contents of the
arguments. -/
def TwoObjective.run (o : TwoObjective A) (y1 y2 : List ℝ) (free1 free2 : Bool) (a : A) :
    TMethod → TwoObjective A × Py Arr
  | .eval => o.evalFun y1 y2 free1 free2 a
  | .grad1 => ((o.funGrad1 y1 y2 free1 free2 a).1, Arr.vec <$> (o.funGrad1 y1 y2 free1 free2 a).2)
  | .grad2 => ((o.funGrad2 y1 y2 free1 free2 a).1, Arr.vec <$> (o.funGrad2 y1 y2 free1 free2 a).2)
  | .hessian12 => o.hessian12 y1 y2 free1 free2 a
  | .hessian21 => o.hessian21 y1 y2 free1 free2 a

/-- The arrays passed to a call exist. -/
def TCall.Ok (st : Store) (c : TCall A) : Prop :=
  (Ref.vec c.x1).Alive st.mem ∧ (Ref.vec c.x2).Alive st.mem

/-- The converter as a value: what its parameters contain now, and a function `conv` that describes the
user's converter. -/
def HConverter.view (depth : ℕ) (c : HConverter) (conv : Param → Param → Param × Option PyErr)
    (st : Store) : Option Converter := do
  let p ← st.tree depth c.parIn
  let q ← st.tree depth c.parOut
  some ⟨p, q, conv⟩

/-- The user's converter only gives new values to objects of `par_out`: it changes no array in place, and
does not change classes, names, or the entries of dictionaries. -/
structure HConverter.Assigns (depth : ℕ) (c : HConverter) : Prop where
  /-- the arrays in use have the same contents -/
  arrays : ∀ st : Store, st.Sound → st.mem.next ≤ (c.conv st).1.mem.next ∧
    ∀ k < st.mem.next, (c.conv st).1.mem.cell k = st.mem.cell k
  /-- other objects are not touched -/
  other : ∀ (st : Store) (j : ℕ), st.Sound → j ∉ st.foot depth c.parOut → (c.conv st).1.objs[j]? = st.objs[j]?
  /-- a parameter keeps its name and class -/
  leaf : ∀ (st : Store) (j : ℕ) (l : HLeaf), st.Sound → st.objs[j]? = some (.leaf l) →
    ∃ l', (c.conv st).1.objs[j]? = some (.leaf l') ∧ l'.name = l.name ∧ l'.kind = l.kind
  /-- dictionaries stay as they are -/
  dict : ∀ (st : Store) (j : ℕ) (h : Hdr) (es : List (String × ℕ)), st.Sound →
    st.objs[j]? = some (.dict h es) →
    (c.conv st).1.objs[j]? = some (.dict h es)
  /-- no objects are made -/
  none : ∀ (st : Store) (j : ℕ), st.Sound → st.objs[j]? = none → (c.conv st).1.objs[j]? = none
  /-- the arrays that objects hold exist -/
  sound : ∀ st : Store, st.Sound → (c.conv st).1.Sound

/-- If nothing is shared, what the user's converter does to `par_out` is described by `conv`, a function of
what `par_in` and `par_out` contain. -/
def HConverter.Describes (depth : ℕ) (c : HConverter) (conv : Param → Param → Param × Option PyErr) : Prop :=
  ∀ (st : Store) (p q : Param), st.Sound → st.Apart depth c.parIn c.parOut →
    st.tree depth c.parIn = some p → st.tree depth c.parOut = some q →
    (c.conv st).1.tree depth c.parOut = some (conv (p.mark false) q).1 ∧
    outcome (c.conv st).2 = (conv (p.mark false) q).2

/-- What a program does that makes two-parameter objectives and converters (which have no state of their
own). -/
inductive PEvent (A : Type)
  | two (o : HTwo A) (m : TMethod) (c : TCall A)
  | convert (c : HConverter) (freeIn freeOut : Bool) (x : List ℕ)
  | jacobian (c : HConverter) (freeIn freeOut : Bool) (x : List ℕ)
  | other (e : Event)

/-- The store after an event. -/
def PEvent.run (depth : ℕ) (st : Store) : PEvent A → Store
  | .two o m c => (o.run depth st c m).1
  | .convert c fi fo x => (c.convert depth st fi fo x).1
  | .jacobian c fi fo x => (c.jacobian depth st fi fo x).1
  | .other e => e.run depth st

/-- The arrays an event uses exist, and converters only assign. -/
def PEvent.Ok (depth : ℕ) (st : Store) : PEvent A → Prop
  | .two _ _ c => c.Ok st
  | .convert c _ _ x => c.Assigns depth ∧ (Ref.vec x).Alive st.mem
  | .jacobian c _ _ x => c.Assigns depth ∧ (Ref.vec x).Alive st.mem
  | .other e => e.Ok st

/-- The stores such programs can reach. -/
inductive PReached (A : Type) (depth : ℕ) : Store → Prop
  | start (cell : ℕ → ℝ) : PReached A depth ⟨⟨0, cell⟩, []⟩
  | step {st : Store} (h : PReached A depth st) (e : PEvent A) (ok : e.Ok depth st) : PReached A depth (e.run depth st)

end

end LRVB
