import Verif.Props.Leaf
import Verif.Props.Subspace

/-!
# C21, C22, C24: matrix parameters
-/

namespace LRVB

open Flt

/-! ## C21 -/

private def SymInv (n : ℕ) (d : ℝ) (l : Leaf) : Prop :=
  l.kind = .posdef n d ∧ IsMat l.val n n ∧ ∀ i < n, ∀ j < n, l.val.at2 i j = l.val.at2 j i

private theorem symInv_set {n : ℕ} {d : ℝ} {l l' : Leaf} {v : Arr} (hl : l.kind = .posdef n d)
    (hv : v.WF) (h : l.set v = .ok l') : SymInv n d l' := by
  obtain ⟨hsh, hsym⟩ := ((C12_set_accepts_partial l v hv).2.2.2.2.1 n d hl).1.mp ⟨l', h⟩
  rw [Leaf.set_eq h]
  exact ⟨hl, ⟨hv, hsh⟩, hsym⟩

private theorem symInv_setFree {n : ℕ} {d : ℝ} {l l' : Leaf} {x : List ℝ} (hl : l.kind = .posdef n d)
    (h : l.setFree x = .ok l') : SymInv n d l' := by
  simp only [Leaf.setFree, hl] at h
  split_ifs at h with hx
  rw [unpackPosdef_ok' (not_not.mp hx), py_ok_bind] at h
  exact symInv_set hl (Arr.ofFn2_WF _ _ _) h

private theorem symInv_setVector {n : ℕ} {d : ℝ} {l l' : Leaf} {x : List ℝ}
    (hl : l.kind = .posdef n d) (h : l.setVector x = .ok l') : SymInv n d l' := by
  simp only [Leaf.setVector, hl] at h
  split_ifs at h with hx
  rw [unvectorizeSym_ok' (not_not.mp hx), py_ok_bind] at h
  exact symInv_set hl (Arr.ofFn2_WF _ _ _) h

private theorem symInv_step {n : ℕ} {d : ℝ} {l : Leaf} (hl : SymInv n d l) (op : LeafOp)
    (hop : ∀ v, op = .set v → v.WF) : SymInv n d (l.step op).1 := by
  cases op with
  | set v =>
    simp only [Leaf.step]
    split
    · next h => exact symInv_set hl.1 (hop v rfl) h
    · exact hl
  | setFree x =>
    simp only [Leaf.step]
    split
    · next h => exact symInv_setFree hl.1 h
    · exact hl
  | setVector x =>
    simp only [Leaf.step]
    split
    · next h => exact symInv_setVector hl.1 h
    · exact hl
  | freeToVector x =>
    simp only [Leaf.step]
    split
    · exact hl
    · next h =>
      split
      · next hp => exact symInv_setFree hl.1 (Leaf.freeToVector_setFree hp)
      · exact symInv_setFree hl.1 h
  | freeToVectorJac x =>
    simp only [Leaf.step]
    split
    · next h =>
      rcases Leaf.jac_leaf h with h | ⟨l', h, h'⟩
      · rw [h]; exact hl
      · rw [h']
        have := symInv_setFree hl.1 h
        exact this
    · exact hl
  | freeToVectorHess x =>
    simp only [Leaf.step]
    split
    · next h =>
      rcases Leaf.hess_leaf h with h | ⟨l', h, h'⟩
      · rw [h]; exact hl
      · rw [h']
        have := symInv_setFree hl.1 h
        exact this
    · exact hl

private theorem symInv_run {n : ℕ} {d : ℝ} {l : Leaf} (hl : SymInv n d l) (ops : List LeafOp)
    (hops : ∀ v, LeafOp.set v ∈ ops → v.WF) : SymInv n d (l.run ops) := by
  induction ops generalizing l with
  | nil => exact hl
  | cons op ops ih =>
    exact ih (symInv_step hl op fun v hv => hops v (by simp [hv]))
      fun v hv => hops v (by simp [hv])

/-- **C21** Whatever value it was constructed with and whatever calls were made since (successful
or raising, with arbitrary arguments), a positive definite matrix parameter holds a symmetric
matrix of its declared size.  (`v.WF`: the arguments of `set` are arrays, i.e. their number of
entries fits their shape.) -/
theorem C21_always_symmetric (name : String) (n : ℕ) (d : ℝ) (val : Option Arr) (l : Leaf)
    (hv : ∀ v, val = some v → v.WF) (h : mkPosDef name n d val = .ok l) (ops : List LeafOp)
    (hops : ∀ v, LeafOp.set v ∈ ops → v.WF) :
    IsMat (l.run ops).get n n ∧
      ∀ i < n, ∀ j < n, (l.run ops).get.at2 i j = (l.run ops).get.at2 j i := by
  refine (symInv_run (d := d) ?_ ops hops).2
  unfold mkPosDef at h
  split_ifs at h with hd
  cases val with
  | some v =>
    simp only at h
    exact symInv_set rfl (hv v rfl) h
  | none =>
    rw [← Except.ok.inj h]
    refine ⟨rfl, ⟨Arr.ofFn2_WF _ _ _, rfl⟩, ?_⟩
    intro i hi j hj
    simp only [diagArr]
    rw [Arr.at2_ofFn2 _ _ _ hi hj, Arr.at2_ofFn2 _ _ _ hj hi]
    simp [eq_comm]

example : ∃ l, mkPosDef "m" 2 1 none = .ok l := ⟨_, by rw [mkPosDef, if_neg (by norm_num)]⟩

/-- **C19** at the level of the parameter: after any history of calls, `set_free(x)` with a vector of the right
length succeeds, and the held matrix minus `diag_lb` times the identity is symmetric and positive definite. -/
theorem C19_parameter_set_free (name : String) (n : ℕ) (d : ℝ) (val : Option Arr) (l : Leaf)
    (h : mkPosDef name n d val = .ok l) (ops : List LeafOp) (x : List ℝ) (hx : x.length = (l.run ops).freeSize) :
    (l.run ops).freeSize = n * (n + 1) / 2 ∧
    ∃ l', (l.run ops).setFree x = .ok l' ∧ IsMat l'.get n n ∧ l'.get.transpose = l'.get ∧
      (asMatrix n l'.get - d • 1).PosDef ∧ ∀ i < n, d < l'.get.at2 i i := by
  have hk : (l.run ops).kind = .posdef n d := by
    rw [(Leaf.run_kind _ _).1]
    unfold mkPosDef at h
    split_ifs at h with hd
    cases val with
    | some v => exact (Leaf.set_eq h ▸ rfl)
    | none => rw [← Except.ok.inj h]
  have hs : (l.run ops).freeSize = n * (n + 1) / 2 := by
    rw [Leaf.freeSize, hk]
    rfl
  rw [hs] at hx
  obtain ⟨m, h1, h2, h3, h4, h5⟩ := C19_unpack_posdef n x d hx
  refine ⟨hs, { (l.run ops) with val := m, boxed := false }, ?_, h2, h3, h4, h5⟩
  unfold Leaf.setFree
  rw [hk]
  have hx' : x.length = vecSizeOf n := hx
  simp only [hx', ne_eq, not_true_eq_false, if_false, h1, py_ok_bind]
  unfold Leaf.set
  rw [hk]
  simp [h2.2, h3]

/-! ## C22 -/

/-- What a single matrix parameter of size `n` holds after `set_free(y)`. -/
noncomputable def singleFree (n : ℕ) (d : ℝ) (y : List ℝ) : Py Arr := do
  let p ← mkPosDef "" n d none
  let p' ← p.setFree y
  .ok p'.get

/-- What a single matrix parameter of size `n` holds after `set_vector(y)`. -/
noncomputable def singleVector (n : ℕ) (d : ℝ) (y : List ℝ) : Py Arr := do
  let p ← mkPosDef "" n d none
  let p' ← p.setVector y
  .ok p'.get

/-- Block `b` of a packed vector of matrices of size `n`. -/
def block (n b : ℕ) (x : List ℝ) : List ℝ := (x.drop (b * (n * (n + 1) / 2))).take (n * (n + 1) / 2)

theorem singleFree_ok {n : ℕ} {d : ℝ} (hd : 0 ≤ d) {y : List ℝ} (hy : y.length = vecSizeOf n) :
    singleFree n d y = .ok (unpackMat n y d) := by
  unfold singleFree mkPosDef
  rw [if_neg (not_not.mpr hd), py_ok_bind]
  rw [Leaf.setFree_ok ⟨"", .posdef n d, diagArr n (d + 1), false⟩ hd y hy]; rfl

theorem singleVector_ok {n : ℕ} {d : ℝ} (hd : 0 ≤ d) {y : List ℝ} (hy : y.length = vecSizeOf n) :
    singleVector n d y = .ok (symMat n y) := by
  unfold singleVector mkPosDef
  rw [if_neg (not_not.mpr hd), py_ok_bind]
  rw [Leaf.setVector_ok ⟨"", .posdef n d, diagArr n (d + 1), false⟩ hd y hy]; rfl

theorem blocks_getElem {x : List ℝ} {len n b : ℕ} (hb : b < (blocks x len (vecSizeOf n)).length) :
    (blocks x len (vecSizeOf n))[b] = block n b x := by
  simp [blocks, block, Leaf.slice, vecSizeOf, Nat.mul_comm]

theorem block_length {x : List ℝ} {len n b : ℕ} (hx : x.length = vecSizeOf n * len) (hb : b < len) :
    (block n b x).length = vecSizeOf n := by
  have := blocks_getElem (x := x) (len := len) (n := n) (b := b) (by simpa using hb)
  rw [← this]
  exact mem_blocks_length hx (List.getElem_mem _)

/-- **C22** for a vector of matrices: after `set_free(x)` (or `set_vector(x)`), matrix `b` is what
a single matrix parameter holds for block `b` of `x`, for every `b`; the blocks tile `x`. -/
theorem C22_vector_of_matrices (l : Leaf) (len n : ℕ) (d : ℝ) (hd : 0 ≤ d) (hlen : 0 < len)
    (hl : l.kind = .posdefVec len n d) (x : List ℝ) (hx : x.length = l.freeSize) :
    ((List.range len).map fun b => block n b x).flatten = x ∧
    (∃ l', l.setFree x = .ok l' ∧ l'.get.shape = [len, n, n] ∧
      ∀ b < len, ∃ m, singleFree n d (block n b x) = .ok m ∧ l'.get.sub [b] = .ok m) ∧
    (∃ l', l.setVector x = .ok l' ∧ l'.get.shape = [len, n, n] ∧
      ∀ b < len, ∃ m, singleVector n d (block n b x) = .ok m ∧ l'.get.sub [b] = .ok m) := by
  have hleg : l.kind.Legal := by rw [hl]; exact ⟨hd, hlen⟩
  have hx' : x.length = vecSizeOf n * len := by simpa [Leaf.freeSize, hl, Kind.freeSize] using hx
  have hv : x.length = l.vecSize := by simpa [Leaf.vecSize, hl, Kind.vecSize] using hx'
  refine ⟨?_, ⟨_, Leaf.setFree_ok l hleg x hx, ?_, ?_⟩, ⟨_, Leaf.setVector_ok l hleg x hv, ?_, ?_⟩⟩
  · conv_rhs => rw [← blocks_flatten hx']
    simp [blocks, block, Leaf.slice, vecSizeOf, Nat.mul_comm]
  · simp [Leaf.get, hl, freeVal]
  · intro b hb
    refine ⟨_, singleFree_ok hd (block_length hx' hb), ?_⟩
    simp only [Leaf.get, hl, freeVal]
    have := sub_flatMap (s := [len]) (t := [n, n]) (g := fun y => unpackMat n y d) (idx := [b]) (k := b)
      (bl := blocks x len (vecSizeOf n)) (by simp) (fun y _ => unpackMat_shape n y d)
      (ravel_single hb) (by simpa using hb)
    rw [blocks_getElem] at this
    exact this
  · simp [Leaf.get, hl, vectorVal]
  · intro b hb
    refine ⟨_, singleVector_ok hd (block_length hx' hb), ?_⟩
    simp only [Leaf.get, hl, vectorVal]
    have := sub_flatMap (s := [len]) (t := [n, n]) (g := fun y => symMat n y) (idx := [b]) (k := b)
      (bl := blocks x len (vecSizeOf n)) (by simp) (fun y _ => symMat_shape n y)
      (ravel_single hb) (by simpa using hb)
    rw [blocks_getElem] at this
    exact this

/-- **C22** for an array of matrices: the matrix at multi-index `idx` is what a single matrix
parameter holds for the block whose number is the row-major rank of `idx`. -/
theorem C22_array_of_matrices (l : Leaf) (s : List ℕ) (n : ℕ) (d : ℝ) (hd : 0 ≤ d) (hs : s ≠ [])
    (hlen : 0 < s.prod) (hl : l.kind = .posdefArr s n d) (x : List ℝ) (hx : x.length = l.freeSize) :
    ((List.range s.prod).map fun b => block n b x).flatten = x ∧
    (∃ l', l.setFree x = .ok l' ∧ l'.get.shape = s ++ [n, n] ∧
      ∀ idx, List.Forall₂ (· < ·) idx s → ∃ m,
        singleFree n d (block n (rowMajorRank idx s) x) = .ok m ∧ l'.get.sub idx = .ok m) ∧
    (∃ l', l.setVector x = .ok l' ∧ l'.get.shape = s ++ [n, n] ∧
      ∀ idx, List.Forall₂ (· < ·) idx s → ∃ m,
        singleVector n d (block n (rowMajorRank idx s) x) = .ok m ∧ l'.get.sub idx = .ok m) := by
  have hleg : l.kind.Legal := by rw [hl]; exact ⟨hd, hs, hlen⟩
  have hx' : x.length = vecSizeOf n * s.prod := by simpa [Leaf.freeSize, hl, Kind.freeSize] using hx
  have hv : x.length = l.vecSize := by simpa [Leaf.vecSize, hl, Kind.vecSize] using hx'
  refine ⟨?_, ⟨_, Leaf.setFree_ok l hleg x hx, ?_, ?_⟩, ⟨_, Leaf.setVector_ok l hleg x hv, ?_, ?_⟩⟩
  · conv_rhs => rw [← blocks_flatten hx']
    simp [blocks, block, Leaf.slice, vecSizeOf, Nat.mul_comm]
  · simp [Leaf.get, hl, freeVal]
  · intro idx hidx
    obtain ⟨hr, hb, _⟩ := (C13_ravel_is_rank s idx).1 hidx
    refine ⟨_, singleFree_ok hd (block_length hx' hb), ?_⟩
    simp only [Leaf.get, hl, freeVal]
    have := sub_flatMap (s := s) (t := [n, n]) (g := fun y => unpackMat n y d) (idx := idx)
      (k := rowMajorRank idx s)
      (bl := blocks x s.prod (vecSizeOf n)) (by simp) (fun y _ => unpackMat_shape n y d)
      hr (by simpa using hb)
    rw [blocks_getElem] at this
    exact this
  · simp [Leaf.get, hl, vectorVal]
  · intro idx hidx
    obtain ⟨hr, hb, _⟩ := (C13_ravel_is_rank s idx).1 hidx
    refine ⟨_, singleVector_ok hd (block_length hx' hb), ?_⟩
    simp only [Leaf.get, hl, vectorVal]
    have := sub_flatMap (s := s) (t := [n, n]) (g := fun y => symMat n y) (idx := idx)
      (k := rowMajorRank idx s)
      (bl := blocks x s.prod (vecSizeOf n)) (by simp) (fun y _ => symMat_shape n y)
      hr (by simpa using hb)
    rw [blocks_getElem] at this
    exact this

example : ∃ l : Leaf, l.kind = .posdefArr [2, 3] 2 1 ∧ (0 : ℝ) ≤ 1 ∧ l.freeSize = 18 :=
  ⟨⟨"m", .posdefArr [2, 3] 2 1, Arr.scalar 0, false⟩, rfl, by norm_num, by
    simp [Leaf.freeSize, Kind.freeSize, vecSizeOf]⟩

/-! ## C24 -/

/-- **C24** fails: `PosDefMatrixParamArray()` raises `TypeError` (its default `array_shape=(1)` is
an integer), and the `length()` method of an array of matrices raises `AttributeError`. -/
theorem C24_default_array_counterexample :
    mkPosDefArr "" (.int 1) 2 0 none = .error .typeError ∧
    ∃ l, mkPosDefArr "" (.tuple [1]) 2 0 none = .ok l ∧ l.lengthMethod = .error .attributeError :=
  ⟨rfl, _, by rw [mkPosDefArr, if_neg (by simp)]; simp, rfl⟩

/-- **C24**, part that holds: all other parameter types can be constructed with their default
arguments, and the sizes are those of the default value. -/
theorem C24_defaults_partial (eigh : Eigh) (he : EighContract eigh) :
    (∃ l, mkScalar "" ninf pinf none = .ok l ∧ l.freeSize = 1 ∧ l.vecSize = 1) ∧
    (∃ l, mkVector "" 1 ninf pinf none = .ok l ∧ l.freeSize = 1 ∧ l.vecSize = 1) ∧
    (∃ l, mkArray "" [1, 1] ninf pinf none = .ok l ∧ l.freeSize = 1 ∧ l.vecSize = 1) ∧
    (∃ l, mkPosDef "" 2 0 none = .ok l ∧ l.freeSize = 3 ∧ l.vecSize = 3) ∧
    (∃ l, mkPosDefVec "" 1 2 0 none = .ok l ∧ l.freeSize = 3 ∧ l.vecSize = 3 ∧
      l.lengthMethod = .ok 1) ∧
    (∃ l, mkSimplex "" 1 2 none = .ok l ∧ l.freeSize = 1 ∧ l.vecSize = 2) ∧
    (∃ l, mkSubspace eigh "" 3 none none = .ok l ∧ l.freeSize = 2 ∧ l.vecSize = 3) := by
  refine ⟨⟨⟨"", .scalar ninf pinf, Arr.scalar 0, false⟩, ?_, rfl, rfl⟩,
    ⟨⟨"", .vector 1 ninf pinf, Arr.full [1] 0, false⟩, ?_, rfl, rfl⟩,
    ⟨⟨"", .array [1, 1] ninf pinf, Arr.full [1, 1] 0, false⟩, ?_, by simp [Leaf.freeSize, Kind.freeSize],
      by simp [Leaf.vecSize, Kind.vecSize]⟩,
    ⟨_, by rw [mkPosDef, if_neg (by simp)], rfl, rfl⟩,
    ⟨_, by rw [mkPosDefVec, if_neg (by simp)], rfl, rfl, rfl⟩,
    ⟨⟨"", .simplex 1 2, Arr.full [1, 2] (1 / 2), false⟩, ?_, rfl, rfl⟩, ?_⟩
  · simp [mkScalar, checkBoundsScalar, getInboundsValue, Leaf.set, Flt.toReal]
  · simp [mkVector, checkBoundsVector, getInboundsValue, Leaf.set, Flt.toReal, Arr.full, Arr.size]
  · simp [mkArray, checkBoundsVector, getInboundsValue, Leaf.set, Flt.toReal, Arr.full]
  · simp [mkSimplex, Leaf.set, Arr.full]
  · obtain ⟨l, hl, hf⟩ := C32_default_construction eigh he "" 3 (by norm_num)
    obtain ⟨r, B, _, _, _, hk⟩ := mkSubspace_ok hl
    exact ⟨l, hl, hf, by simp [Leaf.vecSize, hk, Kind.vecSize]⟩

end LRVB
