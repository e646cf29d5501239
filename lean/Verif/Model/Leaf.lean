import Verif.Model.Bounds
import Verif.Model.Ld
import Verif.Model.Simplex
import Verif.Model.Coo
import Verif.Model.Autograd

/-!
# Parameter objects that are not dictionaries

`ScalarParam`, `VectorParam`, `ArrayParam` (`Parameters.py:82-322`),
`PosDefMatrixParam`, `PosDefMatrixParamVector`, `PosDefMatrixParamArray`
(`MatrixParameters.py:137-481`), `SimplexParam` (`SimplexParams.py:69-175`) and
`SubspaceVectorParam` (`ProjectionParams.py:30-100`).

A `Leaf` is such an object: the constructor arguments that the object keeps (`Kind`), the held
value and a flag telling that the held value is an autograd tracing placeholder.
All methods that assign the held value do so as their last step, so a failing call leaves the
object as it was: methods return `Py Leaf`.

Vectors passed to `set_free` and `set_vector` are 1-d arrays (`List ℝ`).
-/

namespace LRVB

open Classical Flt

noncomputable section

/-- The class and the constructor arguments. -/
inductive Kind
  /-- `ScalarParam(lb, ub)` -/
  | scalar (lb ub : Flt)
  /-- `VectorParam(size, lb, ub)` -/
  | vector (size : ℕ) (lb ub : Flt)
  /-- `ArrayParam(shape, lb, ub)` -/
  | array (shape : List ℕ) (lb ub : Flt)
  /-- `PosDefMatrixParam(size, diag_lb)` -/
  | posdef (n : ℕ) (diagLb : ℝ)
  /-- `PosDefMatrixParamVector(length, matrix_size, diag_lb)` -/
  | posdefVec (len n : ℕ) (diagLb : ℝ)
  /-- `PosDefMatrixParamArray(array_shape, matrix_size, diag_lb)` -/
  | posdefArr (ashape : List ℕ) (n : ℕ) (diagLb : ℝ)
  /-- `SimplexParam(shape=(r, c))` -/
  | simplex (r c : ℕ)
  /-- `SubspaceVectorParam(dim)` with `proj_basis` a `dim × free` matrix -/
  | subspace (dim free : ℕ) (basis : Arr)

/-- `int(size * (size + 1) / 2)` — `MatrixParameters.py:141,209,333`. -/
def vecSizeOf (n : ℕ) : ℕ := n * (n + 1) / 2

/-- `free_size()`: `Parameters.py:147,228,319`, `MatrixParameters.py:195,315,476`,
`SimplexParams.py:172`, `ProjectionParams.py:97`. -/
def Kind.freeSize : Kind → ℕ
  | .scalar _ _ => 1
  | .vector n _ _ => n
  | .array s _ _ => s.prod
  | .posdef n _ => vecSizeOf n
  | .posdefVec len n _ => vecSizeOf n * len
  | .posdefArr s n _ => vecSizeOf n * s.prod
  | .simplex r c => r * (c - 1)
  | .subspace _ free _ => free

/-- `vector_size()`: `Parameters.py:149,230,321`, `MatrixParameters.py:197,317,478`,
`SimplexParams.py:174`, `ProjectionParams.py:99`. -/
def Kind.vecSize : Kind → ℕ
  | .scalar _ _ => 1
  | .vector n _ _ => n
  | .array s _ _ => s.prod
  | .posdef n _ => vecSizeOf n
  | .posdefVec len n _ => vecSizeOf n * len
  | .posdefArr s n _ => vecSizeOf n * s.prod
  | .simplex r c => r * c
  | .subspace dim _ _ => dim

/-- A parameter object. -/
structure Leaf where
  name : String
  kind : Kind
  val : Arr
  /-- the held value is an autograd tracing placeholder -/
  boxed : Bool := false

namespace Leaf

/-- `free_size()`. -/
def freeSize (l : Leaf) : ℕ := l.kind.freeSize
/-- `vector_size()`. -/
def vecSize (l : Leaf) : ℕ := l.kind.vecSize

/-- `(val.shape != self.__shape).all()` — `MatrixParameters.py:226,350` — where `val.shape` is a
tuple and `self.__shape` a numpy array: elementwise when the lengths agree or `val` is 1-d
(broadcasting), otherwise numpy raises (an `AttributeError` or `ValueError` depending on the
version; modelled as `ValueError`). -/
def allDiffer (vshape shape : List ℕ) : Py Bool :=
  if vshape.length = shape.length then
    .ok (decide (∀ p ∈ List.zip vshape shape, p.1 ≠ p.2))
  else match vshape with
    | [k] => .ok (decide (∀ s ∈ shape, k ≠ s))
    | _ => .error .valueError

/-- `set(val)`: `Parameters.py:110,178,258`, `MatrixParameters.py:160,225,349`,
`SimplexParams.py:86`, `ProjectionParams.py:66`. -/
def set (l : Leaf) (v : Arr) : Py Leaf :=
  match l.kind with
  | .scalar _ _ => .ok { l with val := v, boxed := false }
  | .vector n _ _ =>
    if v.size ≠ n then .error .valueError else .ok { l with val := v, boxed := false }
  | .array s _ _ =>
    if v.shape ≠ s then .error .valueError else .ok { l with val := v, boxed := false }
  | .posdef n _ =>
    match v.shape with
    | [r, c] =>
      if r ≠ n ∨ c ≠ n then .error .valueError
      else if v.transpose.data ≠ v.data then .error .valueError
      else .ok { l with val := v, boxed := false }
    | _ => .error .valueError
  | .posdefVec len n _ => do
    if ← allDiffer v.shape [len, n, n] then .error .valueError
    else .ok { l with val := v, boxed := false }
  | .posdefArr s n _ => do
    if ← allDiffer v.shape (s ++ [n, n]) then .error .valueError
    else .ok { l with val := v, boxed := false }
  | .simplex r c =>
    if v.shape ≠ [r, c] then .error .valueError else .ok { l with val := v, boxed := false }
  | .subspace dim _ _ =>
    if v.size ≠ dim then .error .valueError else .ok { l with val := v, boxed := false }

/-- `get()`. -/
def get (l : Leaf) : Arr := l.val

/-- `free_val[off : off + size]`. -/
def slice (x : List ℝ) (off size : ℕ) : List ℝ := (x.drop off).take size

/-- `constrain(free_val, lb, ub)` for a 1-d array. -/
def constrainVec (x : List ℝ) (lb ub : Flt) : Py (List ℝ) := do
  let ys ← constrainList (x.map fin) lb ub
  ys.mapM Flt.toReal

/-- `unconstrain_array(val, lb, ub)`; infinities (values at a bound) end in `nonFinite`. -/
def unconstrainVec (v : List ℝ) (lb ub : Flt) : Py (List ℝ) := do
  let ys ← unconstrainArray (v.map fin) lb ub
  ys.mapM Flt.toReal

/-- `np.matmul(m, v)` for an `r × c` matrix and a 1-d array of length `c`. -/
def matvec (m : Arr) (r c : ℕ) (v : List ℝ) : List ℝ :=
  (List.range r).map fun i => ∑ k ∈ Finset.range c, m.at2 i k * v.getD k 0

/-- `np.matmul(m.T, v)` for an `r × c` matrix and a 1-d array of length `r`. -/
def tmatvec (m : Arr) (r c : ℕ) (v : List ℝ) : List ℝ :=
  (List.range c).map fun j => ∑ k ∈ Finset.range r, m.at2 k j * v.getD k 0

/-- `set_free(free_val)`: `Parameters.py:122,191,271`, `MatrixParameters.py:170,236,368`,
`SimplexParams.py:93`, `ProjectionParams.py:73`. -/
def setFree (l : Leaf) (x : List ℝ) : Py Leaf :=
  match l.kind with
  | .scalar lb ub => do
    -- no length check
    let v ← constrainVec x lb ub
    l.set (Arr.vec v)
  | .vector n lb ub =>
    if x.length ≠ n then .error .valueError
    else do
      let v ← constrainVec x lb ub
      l.set (Arr.vec v)
  | .array s lb ub =>
    if x.length ≠ s.prod then .error .valueError
    else do
      let v ← constrainVec x lb ub
      l.set (← (Arr.vec v).reshape s)
  | .posdef n d =>
    if x.length ≠ vecSizeOf n then .error .valueError
    else do l.set (← unpackPosdef x d)
  | .posdefVec len n d =>
    if x.length ≠ vecSizeOf n * len then .error .valueError
    else do
      let ms ← (List.range len).mapM fun obs =>
        unpackPosdef (slice x (vecSizeOf n * obs) (vecSizeOf n)) d
      .ok { l with val := Arr.stack [n, n] ms, boxed := false }
  | .posdefArr s n d =>
    if x.length ≠ vecSizeOf n * s.prod then .error .valueError
    else do
      let ms ← (indexProduct s).mapM fun obs => do
        let k ← ravel obs s
        unpackPosdef (slice x (k * vecSizeOf n) (vecSizeOf n)) d
      let v ← (Arr.stack [n, n] ms).reshape (s ++ [n, n])
      .ok { l with val := v, boxed := false }
  | .simplex r c =>
    if x.length ≠ r * (c - 1) then .error .valueError
    else do
      let m ← constrainSimplexMatrix ⟨[r, c - 1], x⟩
      l.set m
  | .subspace dim free basis =>
    if x.length ≠ free then .error .valueError
    else l.set (Arr.vec (matvec basis dim free x))

/-- `get_free()`: `Parameters.py:124,195,278`, `MatrixParameters.py:174,244,389`,
`SimplexParams.py:98`, `ProjectionParams.py:77`. -/
def getFree (l : Leaf) : Py (List ℝ) :=
  match l.kind with
  | .scalar lb ub =>
    match l.val.data with
    | [v] => do
      let y ← unconstrainScalar (fin v) lb ub
      let r ← y.toReal
      .ok [r]
    | _ => .error .valueError
  | .vector _ lb ub => unconstrainVec l.val.data lb ub
  | .array _ lb ub => unconstrainVec l.val.data lb ub
  | .posdef _ d => packPosdef l.val d
  | .posdefVec len _ d => do
    if 0 < len ∧ l.val.shape.length < 3 then .error .indexError
    else
      let xs ← (List.range len).mapM fun obs => do packPosdef (← l.val.sub [obs]) d
      Arr.hstack xs
  | .posdefArr s _ d => do
    let xs ← (indexProduct s).mapM fun obs => do packPosdef (← l.val.sub obs) d
    Arr.hstack xs
  | .simplex _ _ => do
    let m ← unconstrainSimplexMatrix l.val
    .ok m.data
  | .subspace dim free basis =>
    if l.val.shape = [dim] then .ok (tmatvec basis dim free l.val.data)
    else .error .unmodelled

/-- `set_vector(vec_val)`: `Parameters.py:140,221,307`, `MatrixParameters.py:186,299,397`,
`SimplexParams.py:157`, `ProjectionParams.py:90`. -/
def setVector (l : Leaf) (v : List ℝ) : Py Leaf :=
  match l.kind with
  | .scalar _ _ => l.set (Arr.vec v)
  | .vector _ _ _ => l.set (Arr.vec v)
  | .array s _ _ =>
    if v.length ≠ s.prod then .error .valueError
    else do l.set (← (Arr.vec v).reshape s)
  | .posdef n _ =>
    if v.length ≠ vecSizeOf n then .error .valueError
    else do l.set (← unvectorizeSym v)
  | .posdefVec len n _ =>
    if v.length ≠ vecSizeOf n * len then .error .valueError
    else do
      let ms ← (List.range len).mapM fun obs =>
        unvectorizeSym (slice v (vecSizeOf n * obs) (vecSizeOf n))
      .ok { l with val := Arr.stack [n, n] ms, boxed := false }
  | .posdefArr s n _ =>
    if v.length ≠ vecSizeOf n * s.prod then .error .valueError
    else do
      let ms ← (indexProduct s).mapM fun obs => do
        let k ← ravel obs s
        unvectorizeSym (slice v (k * vecSizeOf n) (vecSizeOf n))
      let w ← (Arr.stack [n, n] ms).reshape (s ++ [n, n])
      .ok { l with val := w, boxed := false }
  | .simplex r c =>
    if v.length ≠ r * c then .error .valueError
    else do l.set (← (Arr.vec v).reshape [r, c])
  | .subspace _ _ _ => l.set (Arr.vec v)

/-- `get_vector()`: `Parameters.py:142,223,314`, `MatrixParameters.py:190,307,406`,
`SimplexParams.py:161`, `ProjectionParams.py:92`.  `VectorParam` and `SubspaceVectorParam` return
the held array; when it is not 1-d (possible after `set`) the model stops. -/
def getVector (l : Leaf) : Py (List ℝ) :=
  match l.kind with
  | .scalar _ _ => if l.val.size = 1 then .ok l.val.data else .error .valueError
  | .vector _ _ _ =>
    if l.val.shape.length = 1 then .ok l.val.data else .error .unmodelled
  | .array _ _ _ => .ok l.val.data
  | .posdef _ _ => vectorizeLd l.val
  | .posdefVec len _ _ => do
    if 0 < len ∧ l.val.shape.length < 3 then .error .indexError
    else
      let xs ← (List.range len).mapM fun obs => do vectorizeLd (← l.val.sub [obs])
      Arr.hstack xs
  | .posdefArr s _ _ => do
    let xs ← (indexProduct s).mapM fun obs => do vectorizeLd (← l.val.sub obs)
    Arr.hstack xs
  | .simplex _ _ => .ok l.val.data
  | .subspace _ _ _ =>
    if l.val.shape.length = 1 then .ok l.val.data else .error .unmodelled

/-- `free_to_vector(free_val)`: `Parameters.py:127,197,280`, `MatrixParameters.py:176,249,413`,
`SimplexParams.py:101`, `ProjectionParams.py:80`: set, then read.  `ScalarParam` returns `get()`
(no length check). -/
def freeToVector (l : Leaf) (x : List ℝ) : Py (Leaf × List ℝ) := do
  let l' ← l.setFree x
  match l.kind with
  | .scalar _ _ => .ok (l', l'.val.data)
  | _ => do .ok (l', ← l'.getVector)

/-- The value returned by `free_to_vector`. -/
def freeToVectorVal (l : Leaf) (x : List ℝ) : Py (List ℝ) := Prod.snd <$> l.freeToVector x

/-- `free_val[inds]` with an index beyond the end raises `IndexError`. -/
def checkLen (x : List ℝ) (n : ℕ) : Py Unit := if x.length < n then .error .indexError else .ok ()

/-- The scalar function `constrain(·, lb, ub)` in the finite fragment. -/
def constrainFn (lb ub : Flt) (s : ℝ) : ℝ :=
  match constrainReal lb ub s with
  | .ok v => v
  | .error _ => 0

/-- `Parameters.py:63` `constrain_scalar_jac`. -/
def constrainScalarJac (lb ub : Flt) (s : ℝ) : ℝ := deriv (constrainFn lb ub) s

/-- `Parameters.py:64` `constrain_scalar_hess`. -/
def constrainScalarHess (lb ub : Flt) (s : ℝ) : ℝ :=
  deriv (fun t => deriv (constrainFn lb ub) t) s

/-- The triples of one dense block placed at rows `ri` and columns `ci`, in the order of the double
loops of `MatrixParameters.py:263-267` and `SimplexParams.py:119-123`. -/
def blockEntries (ri ci : ℕ → ℕ) (nr nc : ℕ) (f : ℕ → ℕ → ℝ) : List (ℕ × ℕ × ℝ) :=
  (List.range nr).flatMap fun a => (List.range nc).map fun b => (ri a, ci b, f a b)

/-- `free_to_vector_jac(free_val)`: `Parameters.py:130,200,283`, `MatrixParameters.py:179,253,417`,
`SimplexParams.py:106`, `ProjectionParams.py:83`.  The object is returned as well because
`ScalarParam` and `PosDefMatrixParam` differentiate through their own `free_to_vector`, which
leaves the tracing placeholder of the value in the object. -/
def jac (l : Leaf) (x : List ℝ) : Py (Leaf × Coo) :=
  match l.kind with
  | .scalar _ _ => do
    let (nr, J) ← autogradJac l.freeToVectorVal x
    let (l', _) ← l.freeToVector x
    .ok ({ l' with boxed := true }, Coo.ofDense nr x.length J)
  | .vector n lb ub => do
    checkLen x n
    .ok (l, ← Coo.make n n ((List.range n).map fun i => (i, i, constrainScalarJac lb ub (x.getD i 0))))
  | .array s lb ub => do
    checkLen x s.prod
    .ok (l, ← Coo.make s.prod s.prod
      ((List.range s.prod).map fun i => (i, i, constrainScalarJac lb ub (x.getD i 0))))
  | .posdef _ _ => do
    let (nr, J) ← autogradJac l.freeToVectorVal x
    let (l', _) ← l.freeToVector x
    .ok ({ l' with boxed := true }, Coo.ofDense nr x.length J)
  | .posdefVec len n _ => do
    checkLen x (vecSizeOf n * len)
    let k := vecSizeOf n
    let es ← (List.range len).mapM fun row => do
      -- `pos_def_matrix_free_to_vector_jac` is called without `diag_lb`
      let (_, J) ← autogradJac (fun y => posDefFreeToVector y 0) (slice x (row * k) k)
      .ok (blockEntries (row * k + ·) (row * k + ·) k k J)
    .ok (l, ← Coo.make (k * len) (k * len) es.flatten)
  | .posdefArr s n _ => do
    checkLen x (vecSizeOf n * s.prod)
    let k := vecSizeOf n
    let es ← (indexProduct s).mapM fun obs => do
      let inds ← (List.range k).mapM fun v => ravel (obs ++ [v]) (s ++ [k])
      let (_, J) ← autogradJac (fun y => posDefFreeToVector y 0) (inds.map fun i => x.getD i 0)
      .ok (blockEntries (fun a => inds.getD a 0) (fun a => inds.getD a 0) k k J)
    .ok (l, ← Coo.make (k * s.prod) (k * s.prod) es.flatten)
  | .simplex r c => do
    checkLen x (r * (c - 1))
    let es ← (List.range r).mapM fun row => do
      let z ← constrainSimplexVector (slice x (row * (c - 1)) (c - 1))
      .ok (blockEntries (row * c + ·) (row * (c - 1) + ·) c (c - 1) (constrainGradFromMoment z))
    .ok (l, ← Coo.make (r * c) (r * (c - 1)) es.flatten)
  | .subspace dim free basis => .ok (l, Coo.ofDense dim free basis.at2)

/-- `free_to_vector_hess(free_val)`: `Parameters.py:132,207,294`, `MatrixParameters.py:181,273,442`,
`SimplexParams.py:129`, `ProjectionParams.py:85`. -/
def hess (l : Leaf) (x : List ℝ) : Py (Leaf × List Coo) :=
  match l.kind with
  | .scalar _ _ => do
    let (nr, H) ← autogradHess l.freeToVectorVal x
    let (l', _) ← l.freeToVector x
    .ok ({ l' with boxed := true },
      (List.range nr).map fun i => Coo.ofDense x.length x.length (H i))
  | .vector n lb ub => do
    checkLen x n
    .ok (l, ← (List.range n).mapM fun i =>
      Coo.make n n [(i, i, constrainScalarHess lb ub (x.getD i 0))])
  | .array s lb ub => do
    checkLen x s.prod
    .ok (l, ← (List.range s.prod).mapM fun i =>
      Coo.make s.prod s.prod [(i, i, constrainScalarHess lb ub (x.getD i 0))])
  | .posdef _ _ => do
    let (nr, H) ← autogradHess l.freeToVectorVal x
    let (l', _) ← l.freeToVector x
    .ok ({ l' with boxed := true },
      (List.range nr).map fun i => Coo.ofDense x.length x.length (H i))
  | .posdefVec len n _ => do
    checkLen x (vecSizeOf n * len)
    let k := vecSizeOf n
    let hs ← (List.range len).mapM fun row => do
      let (_, H) ← autogradHess (fun y => posDefFreeToVector y 0) (slice x (row * k) k)
      (List.range k).mapM fun v =>
        Coo.make (len * k) (len * k) (blockEntries (row * k + ·) (row * k + ·) k k (H v))
    .ok (l, hs.flatten)
  | .posdefArr s n _ => do
    checkLen x (vecSizeOf n * s.prod)
    let k := vecSizeOf n
    let hs ← (indexProduct s).mapM fun obs => do
      let inds ← (List.range k).mapM fun v => ravel (obs ++ [v]) (s ++ [k])
      let (_, H) ← autogradHess (fun y => posDefFreeToVector y 0) (inds.map fun i => x.getD i 0)
      (List.range k).mapM fun v =>
        Coo.make (s.prod * k) (s.prod * k)
          (blockEntries (fun a => inds.getD a 0) (fun a => inds.getD a 0) k k (H v))
    .ok (l, hs.flatten)
  | .simplex r c => do
    checkLen x (r * (c - 1))
    let hs ← (List.range r).mapM fun row => do
      let z ← constrainSimplexVector (slice x (row * (c - 1)) (c - 1))
      (List.range c).mapM fun v =>
        Coo.make (r * (c - 1)) (r * (c - 1))
          (blockEntries (row * (c - 1) + ·) (row * (c - 1) + ·) (c - 1) (c - 1)
            (constrainHessFromMoment z v))
    .ok (l, hs.flatten)
  | .subspace dim free _ => .ok (l, (List.range dim).map fun _ => ⟨free, free, []⟩)

end Leaf

/-! ## Constructors -/

/-- `Parameters.py:83-97` `ScalarParam.__init__`. -/
def mkScalar (name : String) (lb ub : Flt) (val : Option Arr) : Py Leaf := do
  checkBoundsScalar lb ub
  let l : Leaf := ⟨name, .scalar lb ub, Arr.scalar 0, false⟩
  match val with
  | some v => l.set v
  | none =>
    let d ← (← getInboundsValue lb ub).toReal
    l.set (Arr.scalar d)

/-- `Parameters.py:155-169` `VectorParam.__init__`. -/
def mkVector (name : String) (size : ℕ) (lb ub : Flt) (val : Option Arr) : Py Leaf := do
  checkBoundsVector lb ub
  let l : Leaf := ⟨name, .vector size lb ub, Arr.scalar 0, false⟩
  match val with
  | some v => l.set v
  | none =>
    let d ← (← getInboundsValue lb ub).toReal
    l.set (Arr.full [size] d)

/-- `Parameters.py:235-249` `ArrayParam.__init__`. -/
def mkArray (name : String) (shape : List ℕ) (lb ub : Flt) (val : Option Arr) : Py Leaf := do
  checkBoundsVector lb ub
  let l : Leaf := ⟨name, .array shape lb ub, Arr.scalar 0, false⟩
  match val with
  | some v => l.set v
  | none =>
    let d ← (← getInboundsValue lb ub).toReal
    l.set (Arr.full shape d)

/-- `np.diag(np.full(n, c))`. -/
def diagArr (n : ℕ) (c : ℝ) : Arr := Arr.ofFn2 n n fun i j => if i = j then c else 0

/-- `MatrixParameters.py:138-151` `PosDefMatrixParam.__init__`. -/
def mkPosDef (name : String) (size : ℕ) (diagLb : ℝ) (val : Option Arr) : Py Leaf :=
  if ¬ 0 ≤ diagLb then .error .assertionError
  else
    let l : Leaf := ⟨name, .posdef size diagLb, diagArr size (diagLb + 1), false⟩
    match val with
    | some v => l.set v
    | none => .ok l

/-- `np.broadcast_to(m, prefix + m.shape)`: repeats of `m`. -/
def broadcast (pre : List ℕ) (m : Arr) : Arr :=
  ⟨pre ++ m.shape, (List.replicate pre.prod m.data).flatten⟩

/-- `MatrixParameters.py:202-216` `PosDefMatrixParamVector.__init__`. -/
def mkPosDefVec (name : String) (length n : ℕ) (diagLb : ℝ) (val : Option Arr) : Py Leaf :=
  if ¬ 0 ≤ diagLb then .error .assertionError
  else
    let l : Leaf := ⟨name, .posdefVec length n diagLb,
      broadcast [length] (diagArr n (diagLb + 1)), false⟩
    match val with
    | some v => l.set v
    | none => .ok l

/-- The `array_shape` argument of `PosDefMatrixParamArray`: a tuple, or an `int` (as in the default
`(1)`). -/
inductive ShapeArg
  | tuple (s : List ℕ)
  | int (n : ℕ)

/-- `MatrixParameters.py:324-340` `PosDefMatrixParamArray.__init__`: iterating over an `int`
raises `TypeError`.  The empty tuple is outside the model (numpy's `prod` of it is a float). -/
def mkPosDefArr (name : String) (ashape : ShapeArg) (n : ℕ) (diagLb : ℝ) (val : Option Arr) :
    Py Leaf :=
  match ashape with
  | .int _ => .error .typeError
  | .tuple [] => .error .unmodelled
  | .tuple s =>
    if ¬ 0 ≤ diagLb then .error .assertionError
    else
      let l : Leaf := ⟨name, .posdefArr s n diagLb,
        broadcast s (diagArr n (diagLb + 1)), false⟩
      match val with
      | some v => l.set v
      | none => .ok l

/-- `PosDefMatrixParamVector.length()` (`MatrixParameters.py:311`) and
`PosDefMatrixParamArray.length()` (`MatrixParameters.py:472`, which reads an attribute that is
never assigned). -/
def Leaf.lengthMethod (l : Leaf) : Py ℕ :=
  match l.kind with
  | .posdefVec len _ _ => .ok len
  | _ => .error .attributeError

/-- `SimplexParams.py:70-77` `SimplexParam.__init__`: `1. / shape[1]` raises when it is 0.
An explicit value with no columns (a simplex without components, for which `free_size()` is
negative) is outside the model. -/
def mkSimplex (name : String) (r c : ℕ) (val : Option Arr) : Py Leaf :=
  let l : Leaf := ⟨name, .simplex r c, Arr.scalar 0, false⟩
  match val with
  | some v => if c = 0 then .error .unmodelled else l.set v
  | none => if c = 0 then .error .zeroDivision else l.set (Arr.full [r, c] (1 / c))

end

end LRVB
