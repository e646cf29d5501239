import Verif.Model.Heap

/-!
# Specification vocabulary: programs that hold arrays and objects
-/

namespace LRVB

noncomputable section

/-- The array lies in memory that is in use. -/
def Ref.Alive (r : Ref) (m : Mem) : Prop := ∀ k ∈ r.addr, k < m.next

/-- The classes of positive definite matrices. -/
def Kind.IsMatrix : Kind → Prop
  | .posdef _ _ => True
  | .posdefVec _ _ _ => True
  | .posdefArr _ _ _ => True
  | _ => False

/-- The entries of a dictionary whose values are given by `f`. -/
def treeEntries (f : ℕ → Option Param) : List (String × ℕ) → Option Entries
  | [] => some .nil
  | (k, c) :: rest => do
    let p ← f c
    let es ← treeEntries f rest
    some (.cons k p es)

/-- Everything an object contains at the moment: its class, name and value, and for a dictionary the
contents of its entries.  There is none for an object nested deeper than `depth` (or in itself). -/
def Store.tree : (depth : ℕ) → Store → ℕ → Option Param
  | 0, _, _ => none
  | depth + 1, st, i => match st.objs[i]? with
    | none => none
    | some (.leaf l) => some (.leaf (l.view st.mem))
    | some (.dict h es) => (treeEntries (Store.tree depth st) es).map (.dict h)

/-- The objects an object consists of, each as often as it occurs. -/
def Store.foot : (depth : ℕ) → Store → ℕ → List ℕ
  | 0, _, _ => []
  | depth + 1, st, i => match st.objs[i]? with
    | none => []
    | some (.leaf _) => [i]
    | some (.dict _ es) => i :: es.flatMap fun e => Store.foot depth st e.2

/-- An in-place assignment by the caller: entry `i` of array `r` becomes `y`. -/
structure Assign where
  r : Ref
  i : ℕ
  y : ℝ

/-- The caller changes arrays in place. -/
def Store.assign (st : Store) (ws : List Assign) : Store :=
  ⟨ws.foldl (fun m w => m.write w.r w.i w.y) st.mem, st.objs⟩

/-- The calls of the parameter classes. -/
inductive Call
  | newParam (mk : Option Arr → Py Leaf) (val : Option Ref)
  | newDict (name : String)
  | push (d c : ℕ)
  | setName (i : ℕ) (name : String)
  | set (i : ℕ) (r : Ref)
  | setFree (i : ℕ) (x : List ℕ)
  | setVector (i : ℕ) (x : List ℕ)
  | freeToVector (i : ℕ) (x : List ℕ)
  | jac (i : ℕ) (x : List ℕ)
  | hess (i : ℕ) (x : List ℕ)
  | get (i : ℕ)
  | getFree (i : ℕ)
  | getVector (i : ℕ)
  | entry (d : ℕ) (key : String)

/-- What a call returns, apart from sparse matrices, which are new objects. -/
inductive Result
  | nothing
  | arr (r : Ref)
  | obj (i : ℕ)

/-- The store after a call, and what the call returns or raises. -/
def Call.run (depth : ℕ) (st : Store) : Call → Store × Py Result
  | .newParam mk val => ((st.newParam mk val).1, Result.obj <$> (st.newParam mk val).2)
  | .newDict name => ((st.newDict name).1, .ok (.obj (st.newDict name).2))
  | .push d c => ((st.push d c).1, (fun _ => .nothing) <$> (st.push d c).2)
  | .setName i n => (st.setName i n, .ok .nothing)
  | .set i r => ((st.set i r).1, (fun _ => .nothing) <$> (st.set i r).2)
  | .setFree i x => ((st.setFree depth i x).1, (fun _ => .nothing) <$> (st.setFree depth i x).2)
  | .setVector i x => ((st.setVector depth i x).1, (fun _ => .nothing) <$> (st.setVector depth i x).2)
  | .freeToVector i x =>
    ((st.freeToVector depth i x).1, (fun y => .arr (Ref.vec y)) <$> (st.freeToVector depth i x).2)
  | .jac i x => ((st.jac depth i x).1, (fun _ => .nothing) <$> (st.jac depth i x).2)
  | .hess i x => ((st.hess depth i x).1, (fun _ => .nothing) <$> (st.hess depth i x).2)
  | .get i => (st, Result.arr <$> st.get i)
  | .getFree i => ((st.getFree depth i).1, (fun y => .arr (Ref.vec y)) <$> (st.getFree depth i).2)
  | .getVector i => ((st.getVector depth i).1, (fun y => .arr (Ref.vec y)) <$> (st.getVector depth i).2)
  | .entry d key => (st, Result.obj <$> st.entry d key)

/-- What a call that returns nothing raises. -/
def outcome : Py Unit → Option PyErr
  | .ok _ => none
  | .error e => some e

/-- The arrays passed to a call. -/
def Call.args : Call → List Ref
  | .newParam _ (some r) => [r]
  | .set _ r => [r]
  | .setFree _ x => [Ref.vec x]
  | .setVector _ x => [Ref.vec x]
  | .freeToVector _ x => [Ref.vec x]
  | .jac _ x => [Ref.vec x]
  | .hess _ x => [Ref.vec x]
  | _ => []

/-- What the program does: it creates arrays, changes arrays in place and calls methods. -/
inductive Event
  | newArray (a : Arr)
  | assign (w : Assign)
  | call (c : Call)

/-- The store after an event. -/
def Event.run (depth : ℕ) (st : Store) : Event → Store
  | .newArray a => ⟨(st.mem.alloc a).1, st.objs⟩
  | .assign w => st.assign [w]
  | .call c => (c.run depth st).1

/-- The arrays an event uses exist. -/
def Event.Ok (st : Store) : Event → Prop
  | .newArray _ => True
  | .assign w => w.r.Alive st.mem
  | .call c => ∀ r ∈ c.args, r.Alive st.mem

/-- The store after a program. -/
def runEvents (depth : ℕ) (st : Store) : List Event → Store
  | [] => st
  | e :: es => runEvents depth (e.run depth st) es

/-- Every event uses arrays that exist. -/
def okEvents (depth : ℕ) (st : Store) : List Event → Prop
  | [] => True
  | e :: es => e.Ok st ∧ okEvents depth (e.run depth st) es

/-- The stores programs can reach: every event uses arrays that exist. -/
inductive Reached (depth : ℕ) : Store → Prop
  | start (cell : ℕ → ℝ) : Reached depth ⟨⟨0, cell⟩, []⟩
  | step {st : Store} (h : Reached depth st) (e : Event) (ok : e.Ok st) : Reached depth (e.run depth st)

end

end LRVB
