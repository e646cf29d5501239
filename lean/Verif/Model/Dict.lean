import Verif.Model.Leaf

/-!
# Parameter dictionaries — `ParameterDictionary.py`, `Parameters.py:325-424`

A `Param` is a parameter object or a `ModelParamsDict`, whose entries are again `Param`s.
Python keeps references: changing a parameter that was pushed into a dictionary changes the
dictionary's entry.  In the model the entry *is* the parameter, and a change of a nested object
is a change of the tree at that place.  (One object held at two places is not modelled.)

A dictionary method that fails half way leaves the entries it has already visited changed, so
methods return the object together with the outcome.
-/

namespace LRVB

open Classical

noncomputable section

/-- An entry of `free_indices_dict` or `vector_indices_dict`: `range(start, stop)`. -/
structure IdxRange where
  start : ℕ
  stop : ℕ
  deriving DecidableEq

/-- The attributes of a `ModelParamsDict` other than the held parameters
(`ParameterDictionary.py:20-30`). -/
structure Hdr where
  name : String
  freeIdx : List (String × IdxRange)
  vecIdx : List (String × IdxRange)
  /-- `self.__free_size` -/
  fs : ℕ
  /-- `self.__vector_size` -/
  vs : ℕ

mutual
/-- A parameter object or a dictionary of parameters. -/
inductive Param
  | leaf (l : Leaf)
  | dict (h : Hdr) (es : Entries)
/-- The items of `param_dict`, in order. -/
inductive Entries
  | nil
  | cons (key : String) (p : Param) (rest : Entries)
end

/-- Item assignment `od[key] = v` of an `OrderedDict`: replaces in place or appends. -/
def assign {α : Type} (key : String) (v : α) : List (String × α) → List (String × α)
  | [] => [(key, v)]
  | (k, w) :: rest => if k = key then (k, v) :: rest else (k, w) :: assign key v rest

namespace Entries

/-- `param_dict[key] = p`. -/
def assign (key : String) (p : Param) : Entries → Entries
  | nil => cons key p nil
  | cons k q rest => if k = key then cons k p rest else cons k q (rest.assign key p)

/-- The items as a list. -/
def toList : Entries → List (String × Param)
  | nil => []
  | cons k p rest => (k, p) :: rest.toList

/-- `param_dict[key]`. -/
def find (key : String) : Entries → Option Param
  | nil => none
  | cons k p rest => if k = key then some p else rest.find key

end Entries

namespace Param

/-- `param.name`. -/
def name : Param → String
  | leaf l => l.name
  | dict h _ => h.name

/-- `free_size()`: `ParameterDictionary.py:104`. -/
def freeSize : Param → ℕ
  | leaf l => l.freeSize
  | dict h _ => h.fs

/-- `vector_size()`: `ParameterDictionary.py:106`. -/
def vecSize : Param → ℕ
  | leaf l => l.vecSize
  | dict h _ => h.vs

/-- The items of `param_dict`. -/
def items : Param → List (String × Param)
  | leaf _ => []
  | dict _ es => es.toList

/-- `ModelParamsDict(name)`: `ParameterDictionary.py:20-30`. -/
def emptyDict (name : String) : Param := dict ⟨name, [], [], 0, 0⟩ .nil

/-- `push_param(param)`: `ParameterDictionary.py:39-46`. -/
def push : Param → Param → Param
  | leaf l, _ => leaf l
  | dict h es, p =>
    dict { h with
      freeIdx := assign p.name ⟨h.fs, h.fs + p.freeSize⟩ h.freeIdx
      vecIdx := assign p.name ⟨h.vs, h.vs + p.vecSize⟩ h.vecIdx
      fs := h.fs + p.freeSize
      vs := h.vs + p.vecSize } (es.assign p.name p)

/-- `set_name(name)` of a dictionary: `ParameterDictionary.py:47`. -/
def setName : Param → String → Param
  | leaf l, n => leaf { l with name := n }
  | dict h es, n => dict { h with name := n } es

mutual
/-- `set_free(vec)`: `ParameterDictionary.py:55-63`. -/
def setFree : Param → List ℝ → Param × Option PyErr
  | leaf l, x => match l.setFree x with
    | .ok l' => (leaf l', none)
    | .error e => (leaf l, some e)
  | dict h es, x =>
    if x.length ≠ h.fs then (dict h es, some .valueError)
    else let r := setFreeEntries es x 0; (dict h r.1, r.2)
/-- The loop of `set_free`, with `set_free_offset` (`Parameters.py:326-328`). -/
def setFreeEntries : Entries → List ℝ → ℕ → Entries × Option PyErr
  | .nil, _, _ => (.nil, none)
  | .cons k p rest, x, off =>
    let r := setFree p (Leaf.slice x off p.freeSize)
    match r.2 with
    | some e => (.cons k r.1 rest, some e)
    | none => let s := setFreeEntries rest x (off + p.freeSize); (.cons k r.1 s.1, s.2)
end

mutual
/-- `set_vector(vec)`: `ParameterDictionary.py:88-96`. -/
def setVector : Param → List ℝ → Param × Option PyErr
  | leaf l, x => match l.setVector x with
    | .ok l' => (leaf l', none)
    | .error e => (leaf l, some e)
  | dict h es, x =>
    if x.length ≠ h.vs then (dict h es, some .valueError)
    else let r := setVectorEntries es x 0; (dict h r.1, r.2)
/-- The loop of `set_vector`, with `set_vector_offset` (`Parameters.py:340-342`). -/
def setVectorEntries : Entries → List ℝ → ℕ → Entries × Option PyErr
  | .nil, _, _ => (.nil, none)
  | .cons k p rest, x, off =>
    let r := setVector p (Leaf.slice x off p.vecSize)
    match r.2 with
    | some e => (.cons k r.1 rest, some e)
    | none => let s := setVectorEntries rest x (off + p.vecSize); (.cons k r.1 s.1, s.2)
end

mutual
/-- `get_free()`: `ParameterDictionary.py:64-65`. -/
def getFree : Param → Py (List ℝ)
  | leaf l => l.getFree
  | dict _ es => do Arr.hstack (← getFreeEntries es)
/-- The list comprehension of `get_free`. -/
def getFreeEntries : Entries → Py (List (List ℝ))
  | .nil => .ok []
  | .cons _ p rest => do
    let x ← getFree p
    let xs ← getFreeEntries rest
    .ok (x :: xs)
end

mutual
/-- `get_vector()`: `ParameterDictionary.py:97-99`. -/
def getVector : Param → Py (List ℝ)
  | leaf l => l.getVector
  | dict _ es => do Arr.hstack (← getVectorEntries es)
/-- The list comprehension of `get_vector`. -/
def getVectorEntries : Entries → Py (List (List ℝ))
  | .nil => .ok []
  | .cons _ p rest => do
    let x ← getVector p
    let xs ← getVectorEntries rest
    .ok (x :: xs)
end

/-- `free_to_vector(free_val)`: `ParameterDictionary.py:67-69`. -/
def freeToVector : Param → List ℝ → Param × Py (List ℝ)
  | leaf l, x => match l.setFree x with
    | .error e => (leaf l, .error e)
    | .ok l' => match l.freeToVector x with
      | .ok r => (leaf r.1, .ok r.2)
      | .error e => (leaf l', .error e)
  | dict h es, x =>
    let r := setFree (dict h es) x
    match r.2 with
    | some e => (r.1, .error e)
    | none => (r.1, getVector r.1)

/-- The value returned by `free_to_vector`. -/
def freeToVectorVal (p : Param) (x : List ℝ) : Py (List ℝ) := (p.freeToVector x).2

mutual
/-- `free_to_vector_jac(free_val)`: `ParameterDictionary.py:70-78`. -/
def jac : Param → List ℝ → Param × Py Coo
  | leaf l, x => match l.jac x with
    | .ok r => (leaf r.1, .ok r.2)
    | .error e => (leaf l, .error e)
  | dict h es, x =>
    let r := jacEntries es x 0
    (dict h r.1, r.2 >>= Coo.blockDiag)
/-- The loop of `free_to_vector_jac`, with `free_to_vector_jac_offset` (`Parameters.py:352-357`).
The vector offset that the code also computes is not used for anything. -/
def jacEntries : Entries → List ℝ → ℕ → Entries × Py (List Coo)
  | .nil, _, _ => (.nil, .ok [])
  | .cons k p rest, x, off =>
    let r := jac p (Leaf.slice x off p.freeSize)
    match r.2 with
    | .error e => (.cons k r.1 rest, .error e)
    | .ok m =>
      let s := jacEntries rest x (off + p.freeSize)
      (.cons k r.1 s.1, (m :: ·) <$> s.2)
end

mutual
/-- `free_to_vector_hess(free_val)`: `ParameterDictionary.py:79-86`. -/
def hess : Param → List ℝ → Param × Py (List Coo)
  | leaf l, x => match l.hess x with
    | .ok r => (leaf r.1, .ok r.2)
    | .error e => (leaf l, .error e)
  | dict h es, x =>
    let r := hessEntries h.fs es x 0
    (dict h r.1, r.2)
/-- The loop of `free_to_vector_hess`, with `free_to_vector_hess_offset` (`Parameters.py:371-380`). -/
def hessEntries (full : ℕ) : Entries → List ℝ → ℕ → Entries × Py (List Coo)
  | .nil, _, _ => (.nil, .ok [])
  | .cons k p rest, x, off =>
    let r := hess p (Leaf.slice x off p.freeSize)
    match r.2 >>= fun ms => ms.mapM fun m => m.offset off off full full with
    | .error e => (.cons k r.1 rest, .error e)
    | .ok ms =>
      let s := hessEntries full rest x (off + p.freeSize)
      (.cons k r.1 s.1, (ms ++ ·) <$> s.2)
end

/-- The matrix product `jacᵀ * vector_hess * jac`, entry `(a, b)`. -/
def sandwich (J : Coo) (H : Arr) (a b : ℕ) : ℝ :=
  ∑ i ∈ Finset.range J.nr, ∑ j ∈ Finset.range J.nr, J.toDense i a * H.at2 i j * J.toDense j b

/-- `convert_vector_to_free_hessian(param, free_val, vector_grad, vector_hess)`:
`Parameters.py:397-424`.  `vector_hess` is a matrix (dense, or the dense form of a sparse one).
The result is returned in dense form. -/
def convertHessian (p : Param) (x : List ℝ) (grad : List ℝ) (H : Arr) : Param × Py Arr :=
  let r1 := p.setFree x
  match r1.2 with
  | some e => (r1.1, .error e)
  | none =>
    let r2 := r1.1.jac x
    match r2.2 with
    | .error e => (r2.1, .error e)
    | .ok J =>
      let r3 := r2.1.setFree x
      match r3.2 with
      | some e => (r3.1, .error e)
      | none =>
        let r4 := r3.1.hess x
        (r4.1, do
          let ms ← r4.2
          let q := r4.1
          let es ← (List.range q.vecSize).mapM fun i =>
            match ms[i]?, grad[i]? with
            | some m, some g => (.ok (m.entries.map fun e => (e.1, e.2.1, e.2.2 * g)) : Py _)
            | _, _ => .error .indexError
          if q.vecSize = 0 then .error .valueError
          else
            let third ← Coo.make q.freeSize q.freeSize es.flatten
            if H.shape ≠ [J.nr, J.nr] ∨ J.nc ≠ q.freeSize then .error .valueError
            else .ok (Arr.ofFn2 q.freeSize q.freeSize fun a b =>
              third.toDense a b + sandwich J H a b))

/-! ### The attribute-style view — `ParameterDictionary.py:109-124` -/

/-- What `get()` returns: an array, or the view of a nested dictionary. -/
inductive ViewVal
  | arr (v : Arr)
  | view (p : Param)

/-- `param.get()`. -/
def get : Param → ViewVal
  | leaf l => .arr l.get
  | dict h es => .view (dict h es)

/-- `d.get()[key]`. -/
def viewGet : Param → String → Py ViewVal
  | leaf _, _ => .error .typeError
  | dict _ es, key => match es.find key with
    | some p => .ok p.get
    | none => .error .keyError

/-- `param.set(val)`; a dictionary has no such method. -/
def set : Param → Arr → Param × Option PyErr
  | leaf l, v => match l.set v with
    | .ok l' => (leaf l', none)
    | .error e => (leaf l, some e)
  | dict h es, _ => (dict h es, some .attributeError)

/-- Run a call on the entry with a given key: `d[key].method(...)`. -/
def onEntry (f : Param → Param × Option PyErr) (key : String) : Entries → Entries × Option PyErr
  | .nil => (.nil, some .keyError)
  | .cons k p rest =>
    if k = key then let r := f p; (.cons k r.1 rest, r.2)
    else let r := onEntry f key rest; (.cons k p r.1, r.2)

/-- `q.push_param(p)`; only dictionaries have this method. -/
def pushCall (p : Param) : Param → Param × Option PyErr
  | leaf l => (leaf l, some .attributeError)
  | dict h es => ((dict h es).push p, none)

/-- `d[key].push_param(p)`, or `child.push_param(p)` on an object that was pushed before under
`key` (`ParameterDictionary.py:39-46`): the parent holds a reference to the child and is not told. -/
def pushInto : Param → String → Param → Param × Option PyErr
  | leaf l, _, _ => (leaf l, some .typeError)
  | dict h es, key, p => let r := onEntry (pushCall p) key es; (dict h r.1, r.2)

/-- `d.get()[key] = val`. -/
def viewSet : Param → String → Arr → Param × Option PyErr
  | leaf l, _, _ => (leaf l, some .typeError)
  | dict h es, key, v => let r := onEntry (fun p => p.set v) key es; (dict h r.1, r.2)

end Param

end

end LRVB
