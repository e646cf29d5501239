import Verif.Model.Subspace
import Verif.Spec.Matrix

/-!
# Specification vocabulary: which parameter objects exist

`Reachable` describes the objects a program can have: those returned by a constructor and then
changed by any number of method calls.
-/

namespace LRVB

open Matrix

/-- The contract of `np.linalg.eigh` on one symmetric matrix: an orthonormal eigenbasis (columns)
with the corresponding eigenvalues.  (numpy also sorts them; nothing here depends on it.) -/
structure IsEigh {d : ℕ} (M : Matrix (Fin d) (Fin d) ℝ) (w : Fin d → ℝ)
    (V : Matrix (Fin d) (Fin d) ℝ) : Prop where
  orthonormal : Vᵀ * V = 1
  decomposition : M * V = V * Matrix.diagonal w

/-- The contract of `np.linalg.eigh`. -/
def EighContract (eigh : Eigh) : Prop :=
  ∀ d (M : Matrix (Fin d) (Fin d) ℝ), M.IsSymm → IsEigh M (eigh d M).1 (eigh d M).2

/-- `l` was returned by a constructor. -/
inductive Constructed (eigh : Eigh) : Leaf → Prop
  | scalar {name lb ub val l} : mkScalar name lb ub val = .ok l → Constructed eigh l
  | vector {name n lb ub val l} : mkVector name n lb ub val = .ok l → Constructed eigh l
  | array {name s lb ub val l} : mkArray name s lb ub val = .ok l → Constructed eigh l
  | posDef {name n d val l} : mkPosDef name n d val = .ok l → Constructed eigh l
  | posDefVec {name k n d val l} : mkPosDefVec name k n d val = .ok l → Constructed eigh l
  | posDefArr {name s n d val l} : mkPosDefArr name s n d val = .ok l → Constructed eigh l
  | simplex {name r c val l} : mkSimplex name r c val = .ok l → Constructed eigh l
  | subspace {name dim val perp l} : mkSubspace eigh name dim val perp = .ok l → Constructed eigh l

/-- The method calls that can change an object. -/
inductive LeafOp
  | set (v : Arr)
  | setFree (x : List ℝ)
  | setVector (v : List ℝ)
  | freeToVector (x : List ℝ)
  | freeToVectorJac (x : List ℝ)
  | freeToVectorHess (x : List ℝ)

/-- The object after a call, which may raise: the held value is assigned by the last statement of
`set`, `set_free` and `set_vector`, so a call that raises leaves the object unchanged. -/
noncomputable def Leaf.step (l : Leaf) : LeafOp → Leaf × Option PyErr
  | .set v => match l.set v with | .ok l' => (l', none) | .error e => (l, some e)
  | .setFree x => match l.setFree x with | .ok l' => (l', none) | .error e => (l, some e)
  | .setVector v => match l.setVector v with | .ok l' => (l', none) | .error e => (l, some e)
  | .freeToVector x => match l.setFree x with
    | .error e => (l, some e)
    | .ok l' => match l.freeToVector x with | .ok p => (p.1, none) | .error e => (l', some e)
  | .freeToVectorJac x => match l.jac x with | .ok p => (p.1, none) | .error e => (l, some e)
  | .freeToVectorHess x => match l.hess x with | .ok p => (p.1, none) | .error e => (l, some e)

/-- The object after any finite history of calls, successful or not. -/
noncomputable def Leaf.run (l : Leaf) : List LeafOp → Leaf
  | [] => l
  | op :: ops => (l.step op).1.run ops

/-- The objects a program can hold. -/
def Reachable (eigh : Eigh) (l : Leaf) : Prop :=
  ∃ l₀ ops, Constructed eigh l₀ ∧ l = l₀.run ops

/-- A vector or array of matrices holds at least one matrix (all other types qualify). -/
def Leaf.HoldsMatrix (l : Leaf) : Prop :=
  match l.kind with
  | .posdefVec len _ _ => 0 < len
  | .posdefArr s _ _ => 0 < s.prod
  | _ => True

end LRVB
