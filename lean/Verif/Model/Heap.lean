import Verif.Model.Export

/-!
# Memory: numpy arrays and parameter objects as references

In Python a parameter holds a *reference* to an array, which the caller may hold too and change in
place, and a dictionary holds references to parameter objects, which may be held by several
dictionaries.  The rest of the model passes values.  Here is the model with references; what a method
computes is taken from the value model (`Model/Leaf`, `Model/Dict`), and this file says which arrays
are new and which are shared.

An array is the list of its memory cells.  Views (`a[i:j]`, `a.reshape(...)`, `np.reshape(a, ...)` of
a 1-d array) share cells.  Arrays that nobody holds after a call are not recorded.  A Python `float`
is treated as a 0-d array that may be shared.  `np.broadcast_to` in the default values of vectors and
arrays of matrices gives a read-only array; in the model it is an array of its own.  Objects are
numbers, positions in a list.
-/

namespace LRVB

open Classical

noncomputable section

/-- Memory: cells from `next` on are not in use. -/
structure Mem where
  next : ℕ
  cell : ℕ → ℝ

/-- A numpy array: its shape, and the cell of each entry in row-major order. -/
structure Ref where
  shape : List ℕ
  addr : List ℕ

namespace Mem

/-- The entries of the cells. -/
def vals (m : Mem) (x : List ℕ) : List ℝ := x.map m.cell

/-- The value of an array. -/
def read (m : Mem) (r : Ref) : Arr := ⟨r.shape, m.vals r.addr⟩

/-- A new array with the given value. -/
def alloc (m : Mem) (a : Arr) : Mem × Ref :=
  (⟨m.next + a.data.length, fun k => if k < m.next then m.cell k else a.data.getD (k - m.next) 0⟩,
    ⟨a.shape, (List.range a.data.length).map (m.next + ·)⟩)

/-- An in-place assignment to one entry of an array, `a.flat[i] = y` (numpy raises when there is no
such entry). -/
def write (m : Mem) (r : Ref) (i : ℕ) (y : ℝ) : Mem :=
  match r.addr[i]? with
  | some k => { m with cell := Function.update m.cell k y }
  | none => m

end Mem

namespace Ref

/-- `a.reshape(shape)`: a view. -/
def reshape (r : Ref) (shape : List ℕ) : Py Ref :=
  if r.addr.length = shape.prod then .ok ⟨shape, r.addr⟩ else .error .valueError

/-- A 1-d array. -/
def vec (x : List ℕ) : Ref := ⟨[x.length], x⟩

/-- `a[off : off + size]` of a 1-d array: a view. -/
def slice (x : List ℕ) (off size : ℕ) : List ℕ := (x.drop off).take size

end Ref

/-- A parameter object that is not a dictionary, holding a reference. -/
structure HLeaf where
  name : String
  kind : Kind
  ref : Ref
  boxed : Bool := false

namespace HLeaf

/-- The object with the value that it holds now. -/
def view (m : Mem) (l : HLeaf) : Leaf := ⟨l.name, l.kind, m.read l.ref, l.boxed⟩

/-- `set(val)`: `Parameters.py:110,178,258`, `MatrixParameters.py:160,225,349`, `SimplexParams.py:86`,
`ProjectionParams.py:66`: checks, then `self.__val = val` stores the reference. -/
def set (m : Mem) (l : HLeaf) (r : Ref) : Py HLeaf := do
  let _ ← (l.view m).set (m.read r)
  .ok { l with ref := r, boxed := false }

/-- `get()`: `return self.__val`. -/
def get (l : HLeaf) : Ref := l.ref

/-- A new array is computed and passed to `set`. -/
def setNew (m : Mem) (l : HLeaf) (a : Arr) : Py (Mem × HLeaf) := do
  let l' ← l.set (m.alloc a).1 (m.alloc a).2
  .ok ((m.alloc a).1, l')

/-- A new array is assigned to `self.__val`. -/
def holdNew (m : Mem) (l : HLeaf) (a : Arr) : Mem × HLeaf :=
  ((m.alloc a).1, { l with ref := (m.alloc a).2, boxed := false })

/-- `set_free(free_val)`: `Parameters.py:122,191,271`, `MatrixParameters.py:170,236,368`,
`SimplexParams.py:93`, `ProjectionParams.py:73`.  `constrain` copies with `copy.copy` or does
arithmetic, so the result is a new array for every class. -/
def setFree (m : Mem) (l : HLeaf) (x : List ℕ) : Py (Mem × HLeaf) :=
  match l.kind with
  | .scalar lb ub => do
    let v ← Leaf.constrainVec (m.vals x) lb ub
    l.setNew m (Arr.vec v)
  | .vector n lb ub =>
    if x.length ≠ n then .error .valueError
    else do
      let v ← Leaf.constrainVec (m.vals x) lb ub
      l.setNew m (Arr.vec v)
  | .array s lb ub =>
    if x.length ≠ s.prod then .error .valueError
    else do
      let v ← Leaf.constrainVec (m.vals x) lb ub
      let l' ← l.set (m.alloc (Arr.vec v)).1 (← (m.alloc (Arr.vec v)).2.reshape s)
      .ok ((m.alloc (Arr.vec v)).1, l')
  | .posdef n d =>
    if x.length ≠ vecSizeOf n then .error .valueError
    else do
      let a ← unpackPosdef (m.vals x) d
      l.setNew m a
  | .posdefVec len n d =>
    if x.length ≠ vecSizeOf n * len then .error .valueError
    else do
      let ms ← (List.range len).mapM fun obs =>
        unpackPosdef (m.vals (Ref.slice x (vecSizeOf n * obs) (vecSizeOf n))) d
      .ok (l.holdNew m (Arr.stack [n, n] ms))
  | .posdefArr s n d =>
    if x.length ≠ vecSizeOf n * s.prod then .error .valueError
    else do
      let ms ← (indexProduct s).mapM fun obs => do
        let k ← ravel obs s
        unpackPosdef (m.vals (Ref.slice x (k * vecSizeOf n) (vecSizeOf n))) d
      let v ← (Arr.stack [n, n] ms).reshape (s ++ [n, n])
      .ok (l.holdNew m v)
  | .simplex r c =>
    if x.length ≠ r * (c - 1) then .error .valueError
    else do
      let a ← constrainSimplexMatrix ⟨[r, c - 1], m.vals x⟩
      l.setNew m a
  | .subspace dim free basis =>
    if x.length ≠ free then .error .valueError
    else l.setNew m (Arr.vec (Leaf.matvec basis dim free (m.vals x)))

/-- `set_vector(vec_val)`: `Parameters.py:140,221,307`, `MatrixParameters.py:186,299,397`,
`SimplexParams.py:157`, `ProjectionParams.py:90`.  Scalars, vectors, arrays, simplexes and subspace
vectors store the argument or a view of it; matrices are assembled in new arrays. -/
def setVector (m : Mem) (l : HLeaf) (x : List ℕ) : Py (Mem × HLeaf) :=
  match l.kind with
  | .scalar _ _ => do .ok (m, ← l.set m (Ref.vec x))
  | .vector _ _ _ => do .ok (m, ← l.set m (Ref.vec x))
  | .array s _ _ =>
    if x.length ≠ s.prod then .error .valueError
    else do .ok (m, ← l.set m (← (Ref.vec x).reshape s))
  | .posdef n _ =>
    if x.length ≠ vecSizeOf n then .error .valueError
    else do
      let a ← unvectorizeSym (m.vals x)
      l.setNew m a
  | .posdefVec len n _ =>
    if x.length ≠ vecSizeOf n * len then .error .valueError
    else do
      let ms ← (List.range len).mapM fun obs =>
        unvectorizeSym (m.vals (Ref.slice x (vecSizeOf n * obs) (vecSizeOf n)))
      .ok (l.holdNew m (Arr.stack [n, n] ms))
  | .posdefArr s n _ =>
    if x.length ≠ vecSizeOf n * s.prod then .error .valueError
    else do
      let ms ← (indexProduct s).mapM fun obs => do
        let k ← ravel obs s
        unvectorizeSym (m.vals (Ref.slice x (k * vecSizeOf n) (vecSizeOf n)))
      let w ← (Arr.stack [n, n] ms).reshape (s ++ [n, n])
      .ok (l.holdNew m w)
  | .simplex r c =>
    if x.length ≠ r * c then .error .valueError
    else do .ok (m, ← l.set m (← (Ref.vec x).reshape [r, c]))
  | .subspace _ _ _ => do .ok (m, ← l.set m (Ref.vec x))

/-- `get_free()`: `Parameters.py:124,195,278`, `MatrixParameters.py:174,244,389`,
`SimplexParams.py:98`, `ProjectionParams.py:77`: `unconstrain` copies with `copy.copy` or does
arithmetic, `flatten` copies, and so on: always a new array. -/
def getFree (m : Mem) (l : HLeaf) : Py (Mem × List ℕ) := do
  let v ← (l.view m).getFree
  .ok ((m.alloc (Arr.vec v)).1, (m.alloc (Arr.vec v)).2.addr)

/-- `get_vector()`: `Parameters.py:142,223,314`, `MatrixParameters.py:190,307,406`,
`SimplexParams.py:161`, `ProjectionParams.py:92`: vectors and subspace vectors return the held array,
scalars a view of it (`np.reshape`), arrays and simplexes a copy (`flatten`), matrices a new array. -/
def getVector (m : Mem) (l : HLeaf) : Py (Mem × List ℕ) := do
  let v ← (l.view m).getVector
  match l.kind with
  | .scalar _ _ => .ok (m, l.ref.addr)
  | .vector _ _ _ => .ok (m, l.ref.addr)
  | .subspace _ _ _ => .ok (m, l.ref.addr)
  | .array _ _ _ => .ok ((m.alloc (Arr.vec v)).1, (m.alloc (Arr.vec v)).2.addr)
  | .simplex _ _ => .ok ((m.alloc (Arr.vec v)).1, (m.alloc (Arr.vec v)).2.addr)
  | .posdef _ _ => .ok ((m.alloc (Arr.vec v)).1, (m.alloc (Arr.vec v)).2.addr)
  | .posdefVec _ _ _ => .ok ((m.alloc (Arr.vec v)).1, (m.alloc (Arr.vec v)).2.addr)
  | .posdefArr _ _ _ => .ok ((m.alloc (Arr.vec v)).1, (m.alloc (Arr.vec v)).2.addr)

/-- The object after a derivative was taken: `ScalarParam` and `PosDefMatrixParam` differentiate
through their own `free_to_vector` (`Parameters.py:130-138`, `MatrixParameters.py:179-184`), which
leaves a new (traced) array in them; the others do not touch their value. -/
def afterDeriv (m : Mem) (l : HLeaf) (l' : Leaf) : Mem × HLeaf :=
  match l.kind with
  | .scalar _ _ => ((m.alloc l'.val).1, { l with ref := (m.alloc l'.val).2, boxed := true })
  | .posdef _ _ => ((m.alloc l'.val).1, { l with ref := (m.alloc l'.val).2, boxed := true })
  | _ => (m, l)

/-- `free_to_vector_jac(free_val)`: `Parameters.py:130,200,283`, `MatrixParameters.py:179,253,417`,
`SimplexParams.py:106`, `ProjectionParams.py:83`. -/
def jac (m : Mem) (l : HLeaf) (x : List ℕ) : Py (Mem × HLeaf × Coo) := do
  let r ← (l.view m).jac (m.vals x)
  .ok ((l.afterDeriv m r.1).1, (l.afterDeriv m r.1).2, r.2)

/-- `free_to_vector_hess(free_val)`: `Parameters.py:132,207,294`, `MatrixParameters.py:181,273,442`,
`SimplexParams.py:129`, `ProjectionParams.py:85`. -/
def hess (m : Mem) (l : HLeaf) (x : List ℕ) : Py (Mem × HLeaf × List Coo) := do
  let r ← (l.view m).hess (m.vals x)
  .ok ((l.afterDeriv m r.1).1, (l.afterDeriv m r.1).2, r.2)

end HLeaf

/-- An object: a parameter, or a `ModelParamsDict` whose `param_dict` refers to objects. -/
inductive Obj
  | leaf (l : HLeaf)
  | dict (h : Hdr) (es : List (String × ℕ))

namespace Obj

/-- `obj.name`. -/
def name : Obj → String
  | leaf l => l.name
  | dict h _ => h.name

/-- `free_size()`: `ParameterDictionary.py:104`. -/
def freeSize : Obj → ℕ
  | leaf l => l.kind.freeSize
  | dict h _ => h.fs

/-- `vector_size()`: `ParameterDictionary.py:106`. -/
def vecSize : Obj → ℕ
  | leaf l => l.kind.vecSize
  | dict h _ => h.vs

end Obj

/-- All arrays and objects. -/
structure Store where
  mem : Mem
  objs : List Obj

/-- What the loops of `set_free`, `set_vector`, `free_to_vector_jac` and `free_to_vector_hess` of a
dictionary (`ParameterDictionary.py:55-63,70-86,88-96`) have in common, with results of type `β`. -/
structure Visit (β : Type) where
  /-- `free_size()` or `vector_size()` of an entry -/
  size : Obj → ℕ
  /-- the sizes that are rejected -/
  reject : Hdr → ℕ → Bool
  /-- the call on an entry that is not a dictionary -/
  leaf : Mem → HLeaf → List ℕ → Py (Mem × HLeaf × β)
  /-- what the loop does with the result of an entry, given the offset -/
  part : Hdr → ℕ → β → Py β
  /-- what is made of the results after the loop -/
  join : List β → Py β

namespace Store

/-- The loop over the entries; `rec` is the call on an entry (`Parameters.py:326-328,340-342,352-357,
371-380`). -/
def visitEntries {β : Type} (w : Visit β) (rec : Store → ℕ → List ℕ → Store × Py β) (h : Hdr) :
    List (String × ℕ) → Store → List ℕ → ℕ → Store × Py (List β)
  | [], st, _, _ => (st, .ok [])
  | (_, c) :: rest, st, x, off =>
    match st.objs[c]? with
    | none => (st, .error .unmodelled)
    | some o =>
      let r := rec st c (Ref.slice x off (w.size o))
      match r.2 >>= w.part h off with
      | .error e => (r.1, .error e)
      | .ok b =>
        let s := visitEntries w rec h rest r.1 x (off + w.size o)
        (s.1, (b :: ·) <$> s.2)

/-- A call on an object.  `depth` is what remains of the interpreter's recursion limit. -/
def visit {β : Type} (w : Visit β) : (depth : ℕ) → Store → ℕ → List ℕ → Store × Py β
  | 0, st, _, _ => (st, .error .recursionError)
  | depth + 1, st, i, x =>
    match st.objs[i]? with
    | none => (st, .error .unmodelled)
    | some (.leaf l) =>
      match w.leaf st.mem l x with
      | .ok r => (⟨r.1, st.objs.set i (.leaf r.2.1)⟩, .ok r.2.2)
      | .error e => (st, .error e)
    | some (.dict h es) =>
      if w.reject h x.length then (st, .error .valueError)
      else
        let r := visitEntries w (visit w depth) h es st x 0
        (r.1, r.2 >>= w.join)

/-- `set_free`: `ParameterDictionary.py:55-63`. -/
def freeVisit : Visit Unit where
  size := Obj.freeSize
  reject h n := decide (n ≠ h.fs)
  leaf m l x := do let r ← l.setFree m x; .ok (r.1, r.2, ())
  part _ _ _ := .ok ()
  join _ := .ok ()

/-- `set_vector`: `ParameterDictionary.py:88-96`. -/
def vecVisit : Visit Unit where
  size := Obj.vecSize
  reject h n := decide (n ≠ h.vs)
  leaf m l x := do let r ← l.setVector m x; .ok (r.1, r.2, ())
  part _ _ _ := .ok ()
  join _ := .ok ()

/-- `free_to_vector_jac`: `ParameterDictionary.py:70-78`. -/
def jacVisit : Visit Coo where
  size := Obj.freeSize
  reject _ _ := false
  leaf m l x := l.jac m x
  part _ _ b := .ok b
  join bs := Coo.blockDiag bs

/-- `free_to_vector_hess`: `ParameterDictionary.py:79-86`. -/
def hessVisit : Visit (List Coo) where
  size := Obj.freeSize
  reject _ _ := false
  leaf m l x := l.hess m x
  part h off ms := ms.mapM fun c => c.offset off off h.fs h.fs
  join bs := .ok bs.flatten

/-- `obj.set_free(x)`. -/
def setFree (depth : ℕ) (st : Store) (i : ℕ) (x : List ℕ) : Store × Py Unit :=
  visit freeVisit depth st i x

/-- `obj.set_vector(x)`. -/
def setVector (depth : ℕ) (st : Store) (i : ℕ) (x : List ℕ) : Store × Py Unit :=
  visit vecVisit depth st i x

/-- `obj.free_to_vector_jac(x)`. -/
def jac (depth : ℕ) (st : Store) (i : ℕ) (x : List ℕ) : Store × Py Coo :=
  visit jacVisit depth st i x

/-- `obj.free_to_vector_hess(x)`. -/
def hess (depth : ℕ) (st : Store) (i : ℕ) (x : List ℕ) : Store × Py (List Coo) :=
  visit hessVisit depth st i x

/-- The entries that the list comprehensions of `get_free` and `get_vector` of a dictionary collect
(`ParameterDictionary.py:64-65,97-99`). -/
def gather (f : Leaf → Py (List ℝ)) : (depth : ℕ) → Store → ℕ → Py (List ℝ)
  | 0, _, _ => .error .recursionError
  | depth + 1, st, i =>
    match st.objs[i]? with
    | none => .error .unmodelled
    | some (.leaf l) => f (l.view st.mem)
    | some (.dict _ es) => do
      let xs ← es.mapM fun e => gather f depth st e.2
      Arr.hstack xs

/-- A new array for the result of `np.hstack`. -/
def newVec (st : Store) (v : List ℝ) : Store × List ℕ :=
  (⟨(st.mem.alloc (Arr.vec v)).1, st.objs⟩, (st.mem.alloc (Arr.vec v)).2.addr)

/-- `obj.get_free()`; `np.hstack` makes a new array. -/
def getFree (depth : ℕ) (st : Store) (i : ℕ) : Store × Py (List ℕ) :=
  match depth, st.objs[i]? with
  | 0, _ => (st, .error .recursionError)
  | _, none => (st, .error .unmodelled)
  | _, some (.leaf l) => match l.getFree st.mem with
    | .ok r => (⟨r.1, st.objs⟩, .ok r.2)
    | .error e => (st, .error e)
  | _, some (.dict _ _) => match st.gather Leaf.getFree depth i with
    | .ok v => ((st.newVec v).1, .ok (st.newVec v).2)
    | .error e => (st, .error e)

/-- `obj.get_vector()`; `np.hstack` makes a new array. -/
def getVector (depth : ℕ) (st : Store) (i : ℕ) : Store × Py (List ℕ) :=
  match depth, st.objs[i]? with
  | 0, _ => (st, .error .recursionError)
  | _, none => (st, .error .unmodelled)
  | _, some (.leaf l) => match l.getVector st.mem with
    | .ok r => (⟨r.1, st.objs⟩, .ok r.2)
    | .error e => (st, .error e)
  | _, some (.dict _ _) => match st.gather Leaf.getVector depth i with
    | .ok v => ((st.newVec v).1, .ok (st.newVec v).2)
    | .error e => (st, .error e)

/-- `obj.free_to_vector(x)`: `Parameters.py:127,197,280`, `MatrixParameters.py:176,249,413`,
`SimplexParams.py:101`, `ProjectionParams.py:80`, `ParameterDictionary.py:67-69`: `set_free`, then
`get_vector` (`get` of a scalar). -/
def freeToVector (depth : ℕ) (st : Store) (i : ℕ) (x : List ℕ) : Store × Py (List ℕ) :=
  let r := st.setFree depth i x
  match r.2 with
  | .error e => (r.1, .error e)
  | .ok () => match r.1.objs[i]? with
    | some (.leaf ⟨_, .scalar _ _, ref, _⟩) => (r.1, .ok ref.addr)
    | _ => r.1.getVector depth i

/-- `obj.set(val)`; a dictionary has no such method. -/
def set (st : Store) (i : ℕ) (r : Ref) : Store × Py Unit :=
  match st.objs[i]? with
  | none => (st, .error .unmodelled)
  | some (.dict _ _) => (st, .error .attributeError)
  | some (.leaf l) => match l.set st.mem r with
    | .ok l' => (⟨st.mem, st.objs.set i (.leaf l')⟩, .ok ())
    | .error e => (st, .error e)

/-- `obj.get()` of a parameter that is not a dictionary. -/
def get (st : Store) (i : ℕ) : Py Ref :=
  match st.objs[i]? with
  | some (.leaf l) => .ok l.get
  | _ => .error .unmodelled

/-- `d[key]`: `ParameterDictionary.py:36-37`. -/
def entry (st : Store) (d : ℕ) (key : String) : Py ℕ :=
  match st.objs[d]? with
  | some (.dict _ es) => match es.find? fun e => e.1 = key with
    | some e => .ok e.2
    | none => .error .keyError
  | some (.leaf _) => .error .typeError
  | none => .error .unmodelled

/-- `obj.set_name(name)`, `obj.name = name`: `ParameterDictionary.py:47`. -/
def setName (st : Store) (i : ℕ) (name : String) : Store :=
  match st.objs[i]? with
  | none => st
  | some (.leaf l) => ⟨st.mem, st.objs.set i (.leaf { l with name := name })⟩
  | some (.dict h es) => ⟨st.mem, st.objs.set i (.dict { h with name := name } es)⟩

/-- `d.push_param(obj)`: `ParameterDictionary.py:39-46`: the dictionary keeps a reference. -/
def push (st : Store) (d c : ℕ) : Store × Py Unit :=
  match st.objs[d]?, st.objs[c]? with
  | some (.dict h es), some o =>
    (⟨st.mem, st.objs.set d (.dict { h with
      freeIdx := assign o.name ⟨h.fs, h.fs + o.freeSize⟩ h.freeIdx
      vecIdx := assign o.name ⟨h.vs, h.vs + o.vecSize⟩ h.vecIdx
      fs := h.fs + o.freeSize
      vs := h.vs + o.vecSize } (assign o.name c es))⟩, .ok ())
  | some (.leaf _), _ => (st, .error .attributeError)
  | _, _ => (st, .error .unmodelled)

/-- A constructor call: `mk` is the constructor (`mkScalar`, `mkVector`, ...) with its other arguments
and `val` the argument `val`.  A given value is stored by `set`, as a reference; the default value is
a new array. -/
def newParam (st : Store) (mk : Option Arr → Py Leaf) (val : Option Ref) : Store × Py ℕ :=
  match val with
  | some r => match mk (some (st.mem.read r)) with
    | .ok l => (⟨st.mem, st.objs ++ [.leaf ⟨l.name, l.kind, r, l.boxed⟩]⟩, .ok st.objs.length)
    | .error e => (st, .error e)
  | none => match mk none with
    | .ok l => (⟨(st.mem.alloc l.val).1,
        st.objs ++ [.leaf ⟨l.name, l.kind, (st.mem.alloc l.val).2, l.boxed⟩]⟩, .ok st.objs.length)
    | .error e => (st, .error e)

/-- `ModelParamsDict(name)`: `ParameterDictionary.py:20-30`. -/
def newDict (st : Store) (name : String) : Store × ℕ :=
  (⟨st.mem, st.objs ++ [.dict ⟨name, [], [], 0, 0⟩ []]⟩, st.objs.length)

end Store

end

end LRVB
