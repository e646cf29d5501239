import Verif.Model.Dict

/-!
# Sparse matrix helpers — `SparseObjectives.py:575-657`

A `csr_matrix` is modelled with its three arrays, as scipy stores it.
-/

namespace LRVB

open Classical

noncomputable section

/-- A scipy `csr_matrix`: the nonzeros of row `i` are at positions `indptr[i]`, ...,
`indptr[i + 1] - 1` of `data`, with columns in `indices`. -/
structure Csr where
  nr : ℕ
  nc : ℕ
  data : List ℝ
  indices : List ℕ
  indptr : List ℕ

namespace Csr

/-- The value `toarray()[i, j]`: repeated positions add. -/
def toDense (m : Csr) (i j : ℕ) : ℝ :=
  ∑ k ∈ Finset.Ico (m.indptr.getD i 0) (m.indptr.getD (i + 1) 0),
    if m.indices.getD k 0 = j then m.data.getD k 0 else 0

/-- `csr_matrix((data, indices, indptr), shape)` with the checks of scipy's
`check_format(full_check=False)`, which drops entries behind `indptr[-1]`. -/
def make (nr nc : ℕ) (data : List ℝ) (indices indptr : List ℕ) : Py Csr :=
  let nnz := indptr.getLastD 0
  if indptr.length ≠ nr + 1 then .error .valueError
  else if indptr.getD 0 0 ≠ 0 then .error .valueError
  else if indices.length ≠ data.length then .error .valueError
  else if indices.length < nnz then .error .valueError
  else .ok ⟨nr, nc, data.take nnz, indices.take nnz, indptr⟩

/-- The matrix with given `(column, value)` rows. -/
def ofRows (nr nc : ℕ) (row : ℕ → List (ℕ × ℝ)) : Csr :=
  let rows := (List.range nr).map row
  ⟨nr, nc, rows.flatten.map Prod.snd, rows.flatten.map Prod.fst,
    (List.range (nr + 1)).map fun i => ((rows.take i).map List.length).sum⟩

/-- `coo_matrix.tocsr()`: in every row the occupied columns in increasing order (also those whose
stored values are or add to zero), duplicates summed. -/
def ofCoo (m : Coo) : Csr :=
  ofRows m.nr m.nc fun i =>
    ((List.range m.nc).filter fun j => decide (∃ e ∈ m.entries, e.1 = i ∧ e.2.1 = j)).map
      fun j => (j, m.toDense i j)

end Csr

/-- `int(x)` of a float: rounds towards zero. -/
def pyInt (x : ℝ) : ℤ := if 0 ≤ x then ⌊x⌋ else ⌈x⌉

/-- `int(xs[i])`. -/
def pyIntItem (xs : List ℝ) (i : ℕ) : Py ℤ :=
  match xs[i]? with
  | some x => .ok (pyInt x)
  | none => .error .indexError

/-- `csr_matrix((vals, (rows, cols)), shape)`: goes through `coo_matrix`, which raises `ValueError`
for indices that are negative or beyond the shape. -/
def csrOfTriples (nr nc : ℕ) (es : List (ℤ × ℤ × ℝ)) : Py Csr :=
  if ∀ e ∈ es, (0 ≤ e.1 ∧ e.1 < nr) ∧ 0 ≤ e.2.1 ∧ e.2.1 < nc then
    .ok (Csr.ofCoo ⟨nr, nc, es.map fun e => (e.1.toNat, e.2.1.toNat, e.2.2)⟩)
  else .error .valueError

/-- `SparseObjectives.py:604-619` `get_sparse_sub_matrix`.  The index vectors hold floats (as
values of an index parameter do) or integers.  `sub_matrix` with more than two dimensions is
outside the model. -/
def getSparseSubMatrix (subMatrix : Arr) (rowIndices colIndices : List ℝ) (rowDim colDim : ℕ) :
    Py Csr :=
  match subMatrix.shape with
  | [r, c] => do
    let es ← ((List.range r).flatMap fun i => (List.range c).map fun j => (i, j)).mapM fun p =>
      if subMatrix.at2 p.1 p.2 ≠ 0 then do
        let a ← pyIntItem rowIndices p.1
        let b ← pyIntItem colIndices p.2
        .ok [(a, b, subMatrix.at2 p.1 p.2)]
      else .ok []
    csrOfTriples rowDim colDim es.flatten
  | [] => .error .indexError
  | [_] => .error .indexError
  | _ => .error .unmodelled

/-- `SparseObjectives.py:591-597` `get_sparse_sub_hessian`. -/
def getSparseSubHessian (subHessian : Arr) (fullIndices : List ℝ) (fullHessDim : ℕ) : Py Csr :=
  getSparseSubMatrix subHessian fullIndices fullIndices fullHessDim fullHessDim

/-! ### Packing -/

/-- A matrix given to the packing functions. -/
inductive MatArg
  | csr (m : Csr)
  | coo (m : Coo)
  | dense (nr nc : ℕ) (f : ℕ → ℕ → ℝ)

/-- `sp.sparse.csr_matrix(sp_mat)`. -/
def MatArg.toCsr : MatArg → Csr
  | .csr m => m
  | .coo m => Csr.ofCoo m
  | .dense nr nc f => Csr.ofCoo (Coo.ofDense nr nc f)

/-- Values in a packed dictionary; `S` is the type of `json_tricks` output. -/
inductive PVal (S : Type)
  | reals (x : List ℝ)
  | ints (x : List ℕ)
  | shape (nr nc : ℕ)
  | str (s : String)
  | text (t : S)

/-- A packed dictionary. -/
abbrev PDict (S : Type) := List (String × PVal S)

/-- `d[key]`. -/
def PDict.item {S : Type} (d : PDict S) (key : String) : Py (PVal S) :=
  match d.lookup key with
  | some v => .ok v
  | none => .error .keyError

/-- `csr_matrix((data, indices, indptr), shape=shape)` with values from a dictionary; values of
other types raise. -/
def csrOfVals {S : Type} (data indices indptr shape : PVal S) : Py Csr :=
  match data, indices, indptr, shape with
  | .reals x, .ints ind, .ints ptr, .shape nr nc => Csr.make nr nc x ind ptr
  | _, _, _, _ => .error .valueError

/-- `SparseObjectives.py:624-629` `pack_csr_matrix`. -/
def packCsrMatrix (S : Type) (spMat : MatArg) : PDict S :=
  let m := spMat.toCsr
  [("data", .reals m.data), ("indices", .ints m.indices), ("indptr", .ints m.indptr),
    ("shape", .shape m.nr m.nc)]

/-- `SparseObjectives.py:631-634` `unpack_csr_matrix`. -/
def unpackCsrMatrix {S : Type} (d : PDict S) : Py Csr := do
  let data ← d.item "data"
  let indices ← d.item "indices"
  let indptr ← d.item "indptr"
  let shape ← d.item "shape"
  csrOfVals data indices indptr shape

/-- `json_tricks` on arrays. -/
structure JsonTricks (S : Type) where
  dumps : PVal S → S
  loads : S → Py (PVal S)

/-- `json_tricks.loads(v)`; anything but text raises `TypeError`. -/
def JsonTricks.loadVal {S : Type} (js : JsonTricks S) : PVal S → Py (PVal S)
  | .text t => js.loads t
  | _ => .error .typeError

/-- `SparseObjectives.py:640-647` `json_pack_csr_matrix`. -/
def jsonPackCsrMatrix {S : Type} (js : JsonTricks S) (spMat : MatArg) : Py (PDict S) :=
  match spMat with
  | .csr m => .ok [("data", .text (js.dumps (.reals m.data))),
      ("indices", .text (js.dumps (.ints m.indices))),
      ("indptr", .text (js.dumps (.ints m.indptr))),
      ("shape", .shape m.nr m.nc),
      ("type", .str "csr_matrix")]
  | _ => .error .assertionError

/-- `v == 'csr_matrix'`. -/
def PVal.isStr {S : Type} (s : String) : PVal S → Prop
  | .str t => t = s
  | _ => False

/-- `SparseObjectives.py:651-657` `json_unpack_csr_matrix`. -/
def jsonUnpackCsrMatrix {S : Type} (js : JsonTricks S) (d : PDict S) : Py Csr := do
  let t ← d.item "type"
  if ¬ t.isStr "csr_matrix" then .error .assertionError
  else
    let data ← js.loadVal (← d.item "data")
    let indices ← js.loadVal (← d.item "indices")
    let indptr ← js.loadVal (← d.item "indptr")
    let shape ← d.item "shape"
    csrOfVals data indices indptr shape

/-! ### Index parameters -/

/-- `SparseObjectives.py:581-584` `make_index_param`.  Objects are values in the model: `deepcopy`
is the identity, and the argument cannot change. -/
def makeIndexParam (param : Param) : Py Param :=
  let r := param.setVector ((List.range param.vecSize).map fun (i : ℕ) => (i : ℝ))
  match r.2 with
  | some e => .error e
  | none => .ok r.1

end

end LRVB
