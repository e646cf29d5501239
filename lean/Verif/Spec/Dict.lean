import Verif.Model.Dict
import Verif.Spec.Leaf

/-!
# Specification vocabulary: parameter dictionaries
-/

namespace LRVB

/-- The exception raised by a call, if any. -/
def errOf {α : Type} : Py α → Option PyErr
  | .ok _ => none
  | .error e => some e

/-- Method calls on a parameter or dictionary, or on a parameter nested in it
(`child key op` is `d[key].op`).  Pushing is not among them. -/
inductive ParamOp
  | set (v : Arr)
  | setFree (x : List ℝ)
  | setVector (v : List ℝ)
  | freeToVector (x : List ℝ)
  | freeToVectorJac (x : List ℝ)
  | freeToVectorHess (x : List ℝ)
  | convertHessian (x grad : List ℝ) (H : Arr)
  | setName (name : String)
  | viewSet (key : String) (v : Arr)
  | child (key : String) (op : ParamOp)

/-- The object after a call, which may raise. -/
noncomputable def Param.step (p : Param) : ParamOp → Param × Option PyErr
  | .set v => p.set v
  | .setFree x => p.setFree x
  | .setVector v => p.setVector v
  | .freeToVector x => ((p.freeToVector x).1, errOf (p.freeToVector x).2)
  | .freeToVectorJac x => ((p.jac x).1, errOf (p.jac x).2)
  | .freeToVectorHess x => ((p.hess x).1, errOf (p.hess x).2)
  | .convertHessian x g H => ((p.convertHessian x g H).1, errOf (p.convertHessian x g H).2)
  | .setName n => (p.setName n, none)
  | .viewSet key v => p.viewSet key v
  | .child key op => match p with
    | .leaf l => (.leaf l, some .typeError)
    | .dict h es => (.dict h (Param.onEntry (fun q => q.step op) key es).1,
        (Param.onEntry (fun q => q.step op) key es).2)

/-- The keys of a dictionary, in order. -/
def Param.keys (p : Param) : List String := p.items.map Prod.fst

/-- `d[key]`. -/
def Param.find (p : Param) (key : String) : Option Param :=
  match p with
  | .leaf _ => none
  | .dict _ es => es.find key

/-- The object is a dictionary. -/
def Param.IsDict : Param → Prop
  | .leaf _ => False
  | .dict _ _ => True

/-- Not an empty dictionary. -/
def Param.HasParams : Param → Prop
  | .leaf _ => True
  | .dict _ es => es ≠ .nil

/-- The objects obtained by constructing parameters, pushing parameters and (filled) dictionaries
under names not used before, and calling any methods in between.  A dictionary that was pushed is
not extended any more. -/
inductive Built (eigh : Eigh) : Param → Prop
  | leaf {l} : Reachable eigh l → l.HoldsMatrix → Built eigh (.leaf l)
  | empty (name) : Built eigh (.emptyDict name)
  | push {d p} : Built eigh d → Built eigh p → d.IsDict → p.HasParams → p.name ∉ d.keys →
      Built eigh (d.push p)
  | step {p} (op) : Built eigh p → Built eigh (p.step op).1

/-- The shape a parameter declares for its value. -/
def Kind.shapeOf : Kind → List ℕ
  | .scalar _ _ => []
  | .vector n _ _ => [n]
  | .array s _ _ => s
  | .posdef n _ => [n, n]
  | .posdefVec len n _ => [len, n, n]
  | .posdefArr s n _ => s ++ [n, n]
  | .simplex r c => [r, c]
  | .subspace dim _ _ => [dim]

/-- The held value has the declared shape (for scalars: one number). -/
def Leaf.Proper (l : Leaf) : Prop :=
  l.val.WF ∧ match l.kind with
    | .scalar _ _ => l.val.size = 1
    | k => l.val.shape = k.shapeOf

mutual
/-- All held values have the declared shapes. -/
def Param.Proper : Param → Prop
  | .leaf l => l.Proper
  | .dict _ es => es.Proper
/-- All held values have the declared shapes. -/
def Entries.Proper : Entries → Prop
  | .nil => True
  | .cons _ p rest => p.Proper ∧ rest.Proper
end

mutual
/-- All held values are plain numbers, not differentiation placeholders. -/
def Param.Plain : Param → Prop
  | .leaf l => l.boxed = false
  | .dict _ es => es.Plain
/-- All held values are plain numbers, not differentiation placeholders. -/
def Entries.Plain : Entries → Prop
  | .nil => True
  | .cons _ p rest => p.Plain ∧ rest.Plain
end

mutual
/-- None of the parameters is a scalar or a single positive definite matrix (the two types that
differentiate through their own `free_to_vector`). -/
def Param.Untraced : Param → Prop
  | .leaf l => match l.kind with
    | .scalar _ _ | .posdef _ _ => False
    | _ => True
  | .dict _ es => es.Untraced
/-- ... of all entries. -/
def Entries.Untraced : Entries → Prop
  | .nil => True
  | .cons _ p rest => p.Untraced ∧ rest.Untraced
end

/-- `d.free_indices_dict`. -/
def Param.freeIndices : Param → List (String × IdxRange)
  | .leaf _ => []
  | .dict h _ => h.freeIdx

/-- `d.vector_indices_dict`. -/
def Param.vecIndices : Param → List (String × IdxRange)
  | .leaf _ => []
  | .dict h _ => h.vecIdx

/-- The dictionary after a sequence of writes through the view, `d.get()[key] = v`, exceptions
caught and ignored. -/
noncomputable def Param.writes : Param → List (String × Arr) → Param
  | d, [] => d
  | d, w :: ws => (d.viewSet w.1 w.2).1.writes ws

/-- Consecutive ranges from `a` to `b`. -/
def Tiles : ℕ → List IdxRange → ℕ → Prop
  | a, [], b => a = b
  | a, r :: rs, b => r.start = a ∧ r.start ≤ r.stop ∧ Tiles r.stop rs b

end LRVB
