import Verif.Model.Sparse
import Verif.Props.Dict
import Verif.Props.Ld

/-!
# C71: index parameters
-/

namespace LRVB

open Classical

/-! ### Specification -/

mutual
/-- The parameter found by looking up a path of keys, `d[k1][k2]...`. -/
def Param.leafAt : Param → List String → Option Leaf
  | .leaf l, [] => some l
  | .leaf _, _ :: _ => none
  | .dict _ _, [] => none
  | .dict _ es, k :: ks => es.leafAt k ks
/-- ... starting in the entries. -/
def Entries.leafAt : Entries → String → List String → Option Leaf
  | .nil, _, _ => none
  | .cons k' p rest, k, ks => if k' = k then p.leafAt ks else rest.leafAt k ks
end

/-- The `len` many `n × n` matrices stored one after the other in `data` are symmetric. -/
def SymmetricBlocks (len n : ℕ) (data : List ℝ) : Prop :=
  ∀ b < len, ∀ i < n, ∀ j < n,
    data.getD (b * (n * n) + (i * n + j)) 0 = data.getD (b * (n * n) + (j * n + i)) 0

/-- The held matrices, if any, are symmetric. -/
def Leaf.HoldsSymmetric (l : Leaf) : Prop :=
  match l.kind with
  | .posdef n _ => SymmetricBlocks 1 n l.val.data
  | .posdefVec len n _ => SymmetricBlocks len n l.val.data
  | .posdefArr s n _ => SymmetricBlocks s.prod n l.val.data
  | _ => True

/-! ### Values as look-ups -/

/-- `F` reads its output off its input at fixed positions. -/
def LooksUp (m : ℕ) (F : List ℝ → List ℝ) (idx : List ℕ) : Prop :=
  (∀ i ∈ idx, i < m) ∧ ∀ w : List ℝ, w.length = m → F w = idx.map fun i => w.getD i 0

theorem LooksUp.id (m : ℕ) : LooksUp m (fun w => w) (List.range m) := by
  refine ⟨fun i hi => by simpa using hi, fun w hw => ?_⟩
  apply List.ext_getElem
  · simp [hw]
  · intro i h1 h2
    simp [List.getD_eq_getElem?_getD, h1]

theorem LooksUp.symMat (n : ℕ) : LooksUp (vecSizeOf n) (fun w => (symMat n w).data)
    ((List.range n).flatMap fun i => (List.range n).map fun j => symIndex i j) := by
  constructor
  · intro k hk
    simp only [List.mem_flatMap, List.mem_range, List.mem_map] at hk
    obtain ⟨i, hi, j, hj, rfl⟩ := hk
    exact symIndex_lt hi hj
  · intro w _
    simp [LRVB.symMat, Arr.ofFn2, List.map_flatMap, Function.comp_def]

theorem LooksUp.blocks {k len : ℕ} {F : List ℝ → List ℝ} {idx : List ℕ} (h : LooksUp k F idx) :
    LooksUp (k * len) (fun w => (LRVB.blocks w len k).flatMap F)
      ((List.range len).flatMap fun b => idx.map fun i => k * b + i) := by
  constructor
  · intro i hi
    simp only [List.mem_flatMap, List.mem_range, List.mem_map] at hi
    obtain ⟨b, hb, j, hj, rfl⟩ := hi
    have := h.1 j hj
    calc k * b + j < k * b + k := by omega
      _ = k * (b + 1) := by ring
      _ ≤ k * len := Nat.mul_le_mul_left _ hb
  · intro w hw
    simp only [LRVB.blocks, List.flatMap_map, List.map_flatMap, List.map_map]
    apply List.flatMap_congr
    intro b hb
    have hl := slice_length hw (List.mem_range.mp hb)
    rw [h.2 _ hl]
    apply List.map_congr_left
    intro i hi
    have := h.1 i hi
    simp only [Function.comp, Leaf.slice, List.getD_eq_getElem?_getD]
    rw [List.getElem?_take_of_lt this, List.getElem?_drop]

theorem vectorVal_looksUp (k : Kind) : ∃ idx, LooksUp k.vecSize (fun w => (vectorVal k w).data) idx := by
  cases k with
  | posdef n d => exact ⟨_, LooksUp.symMat n⟩
  | posdefVec len n d => exact ⟨_, (LooksUp.symMat n).blocks⟩
  | posdefArr s n d => exact ⟨_, (LooksUp.symMat n).blocks⟩
  | _ => exact ⟨_, LooksUp.id _⟩

/-! ### Reading a value and setting it back -/

theorem symMat_lowerVec {n : ℕ} {data : List ℝ} (hl : data.length = n * n)
    (hs : ∀ i < n, ∀ j < n, data.getD (i * n + j) 0 = data.getD (j * n + i) 0) :
    (symMat n (lowerVec n ⟨[n, n], data⟩)).data = data := by
  have e : symMat n (lowerVec n ⟨[n, n], data⟩) = ⟨[n, n], data⟩ := by
    refine Arr.ext2 (r := n) (c := n) (Arr.ofFn2_WF _ _ _) (by simp [Arr.WF, hl]) rfl rfl ?_
    intro i hi j hj
    unfold symMat
    rw [Arr.at2_ofFn2 _ _ _ hi hj]
    by_cases h : j ≤ i
    · exact vectorizeLd_getD (m := ⟨[n, n], data⟩) rfl (vectorizeLd_ok rfl) h hi
    · rw [symIndex_comm]
      rw [show (lowerVec n ⟨[n, n], data⟩).getD (symIndex j i) 0 = (⟨[n, n], data⟩ : Arr).at2 j i from
        vectorizeLd_getD (m := ⟨[n, n], data⟩) rfl (vectorizeLd_ok rfl) (by omega) hj]
      exact hs j hj i hi
  rw [e]

/-- The vector form of consecutive matrices. -/
noncomputable def matsVec (len n : ℕ) (data : List ℝ) : List ℝ :=
  ((List.range len).map fun b => lowerVec n ⟨[n, n], (data.drop (b * (n * n))).take (n * n)⟩).flatten

theorem matsVec_back {len n : ℕ} {data : List ℝ} (hl : data.length = n * n * len)
    (hs : SymmetricBlocks len n data) :
    (blocks (matsVec len n data) len (vecSizeOf n)).flatMap (fun y => (symMat n y).data) = data := by
  rw [List.flatMap_def]
  conv_rhs => rw [← blocks_flatten hl]
  congr 1
  apply List.ext_getElem
  · simp
  · intro b h1 h2
    simp only [List.length_map, blocks_length] at h1 h2
    simp only [List.getElem_map, blocks, List.getElem_range]
    have hb : Leaf.slice (matsVec len n data) (vecSizeOf n * b) (vecSizeOf n) =
        lowerVec n ⟨[n, n], (data.drop (b * (n * n))).take (n * n)⟩ := by
      unfold Leaf.slice matsVec
      rw [Nat.mul_comm, flatten_block_const _ (vecSizeOf n) _ b (by simpa using h1)]
      · simp
      · intro y hy
        obtain ⟨c, _, rfl⟩ := List.mem_map.mp hy
        exact lowerVec_length _ _
    rw [hb]
    have hsl : (data.drop (b * (n * n))).take (n * n) = Leaf.slice data (n * n * b) (n * n) := by
      rw [Leaf.slice, Nat.mul_comm b]
    have hll := slice_length (x := data) hl h1
    rw [hsl]
    apply symMat_lowerVec hll
    intro i hi j hj
    have := hs b h1 i hi j hj
    have h3 : ∀ i < n, ∀ j < n, (Leaf.slice data (n * n * b) (n * n)).getD (i * n + j) 0 =
        data.getD (b * (n * n) + (i * n + j)) 0 := by
      intro i hi j hj
      simp only [Leaf.slice, List.getD_eq_getElem?_getD]
      rw [List.getElem?_take_of_lt (Arr.lt_mul_add hi hj), List.getElem?_drop, Nat.mul_comm]
    rw [h3 i hi j hj, h3 j hj i hi, this]

theorem mapM_vectorize_vec {len n : ℕ} {data : List ℝ} (hl : data.length = ([len] ++ [n, n]).prod) :
    (List.range len).mapM (fun obs => do vectorizeLd (← (⟨[len, n, n], data⟩ : Arr).sub [obs])) =
    .ok ((List.range len).map fun b => lowerVec n ⟨[n, n], (data.drop (b * (n * n))).take (n * n)⟩) := by
  apply mapM_ok_of
  intro obs ho
  rw [show (⟨[len, n, n], data⟩ : Arr) = ⟨[len] ++ [n, n], data⟩ from rfl,
    sub_prefix hl (ravel_single (by simpa using ho)), py_ok_bind, vectorizeLd_ok rfl]
  simp [lowerVec]

theorem mapM_vectorize_arr {s : List ℕ} {n : ℕ} {data : List ℝ} (hl : data.length = (s ++ [n, n]).prod) :
    (indexProduct s).mapM (fun obs => do vectorizeLd (← (⟨s ++ [n, n], data⟩ : Arr).sub obs)) =
    .ok ((List.range s.prod).map fun b => lowerVec n ⟨[n, n], (data.drop (b * (n * n))).take (n * n)⟩) := by
  rw [mapM_congr_of (f := fun b => .ok (lowerVec n ⟨[n, n], (data.drop (b * (n * n))).take (n * n)⟩))
    (ravel_indexProduct s)]
  · exact mapM_ok_of _ fun _ _ => rfl
  · intro obs _ j hj
    rw [sub_prefix hl hj, py_ok_bind, vectorizeLd_ok rfl]
    simp [lowerVec]

/-- Setting a parameter to its own vector form leaves its value. -/
theorem Leaf.vectorVal_getVector {l : Leaf} (hp : l.Proper) (hs : l.HoldsSymmetric) {v : List ℝ}
    (hv : l.getVector = .ok v) : (vectorVal l.kind v).data = l.val.data := by
  obtain ⟨name, kind, ⟨shape, data⟩, boxed⟩ := l
  obtain ⟨hw, hp⟩ := hp
  simp only [Arr.WF] at hw
  cases kind with
  | scalar lb ub =>
    simp only [getVector] at hv
    rw [if_pos hp] at hv
    cases hv; rfl
  | vector n lb ub =>
    simp only [getVector] at hv
    split_ifs at hv
    cases hv; rfl
  | array s lb ub => cases hv; rfl
  | simplex r c => cases hv; rfl
  | subspace dim free basis =>
    simp only [getVector] at hv
    split_ifs at hv
    cases hv; rfl
  | posdef n d =>
    simp only [Kind.shapeOf] at hp
    subst hp
    simp only [getVector] at hv
    rw [vectorizeLd_ok rfl] at hv
    cases hv
    refine symMat_lowerVec (by simpa using hw) fun i hi j hj => ?_
    simpa using hs 0 (by norm_num) i hi j hj
  | posdefVec len n d =>
    simp only [Kind.shapeOf] at hp
    subst hp
    simp only [getVector] at hv
    rw [if_neg (by simp), mapM_vectorize_vec hw, py_ok_bind] at hv
    rw [Param.hstack_inv hv]
    exact matsVec_back (by rw [hw]; simp; ring) hs
  | posdefArr s n d =>
    simp only [Kind.shapeOf] at hp
    subst hp
    simp only [getVector] at hv
    rw [mapM_vectorize_arr hw, py_ok_bind] at hv
    rw [Param.hstack_inv hv]
    exact matsVec_back (by rw [hw]; simp; ring) hs

/-! ### Dictionaries -/

mutual
theorem Param.vecP_looksUp : ∀ (p : Param) (path : List String) (l : Leaf), p.leafAt path = some l →
    p.WF → ∃ idx : List ℕ, (∀ i ∈ idx, i < p.vecSize) ∧ ∀ w : List ℝ, w.length = p.vecSize →
      ∃ l', (p.vecP w).leafAt path = some l' ∧ l'.name = l.name ∧ l'.kind = l.kind ∧
        (∃ u : List ℝ, u.length = l.kind.vecSize ∧ l'.val = vectorVal l.kind u) ∧
        l'.val.data = idx.map fun i => w.getD i 0
  | .leaf l, [], l0, h, _ => by
    simp only [Param.leafAt, Option.some.injEq] at h
    subst h
    obtain ⟨idx, h1, h2⟩ := vectorVal_looksUp l.kind
    exact ⟨idx, h1, fun w hw => ⟨_, rfl, rfl, rfl, ⟨w, hw, rfl⟩, h2 w hw⟩⟩
  | .leaf _, _ :: _, _, h, _ => by simp [Param.leafAt] at h
  | .dict _ _, [], _, h, _ => by simp [Param.leafAt] at h
  | .dict hd es, k :: ks, l, h, hw => by
    simp only [Param.WF] at hw
    simp only [Param.leafAt] at h
    have := Entries.vecE_looksUp es k ks l h hw.1
    simp only [Param.vecSize, Param.vecP, Param.leafAt]
    rw [hw.2.2.2.1]
    exact this
theorem Entries.vecE_looksUp : ∀ (es : Entries) (k : String) (ks : List String) (l : Leaf),
    es.leafAt k ks = some l → es.WF → ∃ idx : List ℕ, (∀ i ∈ idx, i < es.vsum) ∧
      ∀ w : List ℝ, w.length = es.vsum →
      ∃ l', (es.vecE w).leafAt k ks = some l' ∧ l'.name = l.name ∧ l'.kind = l.kind ∧
        (∃ u : List ℝ, u.length = l.kind.vecSize ∧ l'.val = vectorVal l.kind u) ∧
        l'.val.data = idx.map fun i => w.getD i 0
  | .nil, _, _, _, h, _ => by simp [Entries.leafAt] at h
  | .cons k' p rest, k, ks, l, h, hw => by
    simp only [Entries.WF] at hw
    simp only [Entries.leafAt] at h
    split_ifs at h with hk
    · obtain ⟨idx, h1, h2⟩ := Param.vecP_looksUp p ks l h hw.1
      refine ⟨idx, fun i hi => ?_, fun w hwl => ?_⟩
      · have := h1 i hi; simp only [Entries.vsum]; omega
      · simp only [Entries.vsum] at hwl
        obtain ⟨l', h3, h4, h5, h7, h6⟩ := h2 (w.take p.vecSize) (by simp; omega)
        refine ⟨l', ?_, h4, h5, h7, ?_⟩
        · simp only [Entries.vecE, Entries.leafAt]; rw [if_pos hk, h3]
        · rw [h6]
          apply List.map_congr_left
          intro i hi
          have := h1 i hi
          simp only [List.getD_eq_getElem?_getD]
          rw [List.getElem?_take_of_lt this]
    · obtain ⟨idx, h1, h2⟩ := Entries.vecE_looksUp rest k ks l h hw.2.2
      refine ⟨idx.map (p.vecSize + ·), fun i hi => ?_, fun w hwl => ?_⟩
      · obtain ⟨j, hj, rfl⟩ := List.mem_map.mp hi
        have := h1 j hj; simp only [Entries.vsum]; omega
      · simp only [Entries.vsum] at hwl
        obtain ⟨l', h3, h4, h5, h7, h6⟩ := h2 (w.drop p.vecSize) (by simp; omega)
        refine ⟨l', ?_, h4, h5, h7, ?_⟩
        · simp only [Entries.vecE, Entries.leafAt]; rw [if_neg hk, h3]
        · rw [h6, List.map_map]
          apply List.map_congr_left
          intro i hi
          simp only [Function.comp, List.getD_eq_getElem?_getD]
          rw [List.getElem?_drop]
end

mutual
/-- Setting an object to its own vector form leaves all values. -/
theorem Param.vecP_getVector : ∀ (p : Param) (path : List String) (l : Leaf), p.leafAt path = some l →
    p.WF → p.Proper → l.HoldsSymmetric → ∀ v, p.getVector = .ok v →
    ∃ l', (p.vecP v).leafAt path = some l' ∧ l'.val.data = l.val.data
  | .leaf l, [], l0, h, hw, hp, hs, v, hv => by
    simp only [Param.leafAt, Option.some.injEq] at h
    subst h
    exact ⟨_, rfl, Leaf.vectorVal_getVector hp hs hv⟩
  | .leaf _, _ :: _, _, h, _, _, _, _, _ => by simp [Param.leafAt] at h
  | .dict _ _, [], _, h, _, _, _, _, _ => by simp [Param.leafAt] at h
  | .dict hd es, k :: ks, l, h, hw, hp, hs, v, hv => by
    simp only [Param.WF] at hw
    simp only [Param.leafAt] at h
    simp only [Param.getVector] at hv
    obtain ⟨xs, h1, h2⟩ := py_bind_ok hv
    rw [Param.hstack_inv h2]
    exact Entries.vecE_getVector es k ks l h hw.1 hp hs xs h1
theorem Entries.vecE_getVector : ∀ (es : Entries) (k : String) (ks : List String) (l : Leaf),
    es.leafAt k ks = some l → es.WF → es.Proper → l.HoldsSymmetric →
    ∀ xs, Param.getVectorEntries es = .ok xs →
    ∃ l', (es.vecE xs.flatten).leafAt k ks = some l' ∧ l'.val.data = l.val.data
  | .nil, _, _, _, h, _, _, _, _, _ => by simp [Entries.leafAt] at h
  | .cons k' p rest, k, ks, l, h, hw, hp, hs, xs, hx => by
    simp only [Entries.WF] at hw
    simp only [Entries.Proper] at hp
    simp only [Param.getVectorEntries] at hx
    obtain ⟨y, h1, hx⟩ := py_bind_ok hx
    obtain ⟨ys, h2, hx⟩ := py_bind_ok hx
    cases hx
    obtain ⟨v, h1', hl⟩ := Param.getVector_proper p hw.1 hw.2.1 hp.1
    rw [h1] at h1'
    cases h1'
    simp only [Entries.vecE, Entries.leafAt, List.flatten_cons] at h ⊢
    rw [← hl, List.take_left' rfl, List.drop_left' rfl]
    split_ifs at h ⊢ with hk
    · exact Param.vecP_getVector p ks l h hw.1 hp.1 hs y h1
    · exact Entries.vecE_getVector rest k ks l h hw.2.2 hp.2 hs ys h2
end

mutual
/-- Setting keeps the structure. -/
theorem Param.vecP_leafAt : ∀ (p : Param) (path : List String) (w : List ℝ),
    ((p.vecP w).leafAt path).isSome = (p.leafAt path).isSome
  | .leaf l, [], w => rfl
  | .leaf _, _ :: _, _ => rfl
  | .dict _ _, [], _ => rfl
  | .dict hd es, k :: ks, w => Entries.vecE_leafAt es k ks w
theorem Entries.vecE_leafAt : ∀ (es : Entries) (k : String) (ks : List String) (w : List ℝ),
    ((es.vecE w).leafAt k ks).isSome = (es.leafAt k ks).isSome
  | .nil, _, _, _ => rfl
  | .cons k' p rest, k, ks, w => by
    simp only [Entries.vecE, Entries.leafAt]
    split_ifs
    · exact Param.vecP_leafAt p ks _
    · exact Entries.vecE_leafAt rest k ks _
end

theorem vectorVal_proper (name : String) (k : Kind) (b : Bool) (u : List ℝ) (hu : u.length = k.vecSize) :
    Leaf.Proper ⟨name, k, vectorVal k u, b⟩ := by
  have hmat : ∀ len n : ℕ, ((blocks u len (vecSizeOf n)).flatMap fun y => (symMat n y).data).length =
      len * (n * n) := by
    intro len n
    rw [List.flatMap_def, flatten_length_const _ (n * n)]
    · simp
    · intro y hy
      obtain ⟨z, _, rfl⟩ := List.mem_map.mp hy
      have : (symMat n z).data.length = [n, n].prod := Arr.ofFn2_WF n n fun i j => z.getD (symIndex i j) 0
      rw [this]; simp
  cases k with
  | scalar lb ub => exact ⟨Arr.vec_WF _, hu⟩
  | vector n lb ub => exact ⟨Arr.vec_WF _, by simpa [vectorVal, Arr.vec, Kind.shapeOf, Kind.vecSize] using hu⟩
  | array s lb ub => exact ⟨hu, rfl⟩
  | posdef n d => exact ⟨Arr.ofFn2_WF _ _ _, rfl⟩
  | posdefVec len n d =>
    refine ⟨?_, rfl⟩
    simp only [Arr.WF, vectorVal]
    rw [hmat]
    simp
  | posdefArr s n d =>
    refine ⟨?_, rfl⟩
    simp only [Arr.WF, vectorVal]
    rw [hmat]
    simp
  | simplex r c => exact ⟨by simpa [Arr.WF, vectorVal, Kind.vecSize] using hu, rfl⟩
  | subspace dim free basis => exact ⟨Arr.vec_WF _, by simpa [vectorVal, Arr.vec, Kind.shapeOf, Kind.vecSize] using hu⟩

/-- Values of the declared shape have a definite number of elements. -/
theorem Leaf.Proper.length_eq {l l' : Leaf} (h : l.Proper) (h' : l'.Proper) (hk : l'.kind = l.kind) :
    l'.val.data.length = l.val.data.length := by
  obtain ⟨name, kind, val, b⟩ := l
  obtain ⟨name', kind', val', b'⟩ := l'
  simp only at hk
  subst hk
  obtain ⟨h1, h2⟩ := h
  obtain ⟨h3, h4⟩ := h'
  cases kind'
  case scalar => exact h4.trans h2.symm
  all_goals
    simp only [Arr.WF] at h1 h3 ⊢
    rw [h1, h3, h2, h4]

mutual
theorem Param.leafAt_proper : ∀ (p : Param) (path : List String) (l : Leaf), p.leafAt path = some l →
    p.Proper → l.Proper
  | .leaf l, [], l0, h, hp => by
    simp only [Param.leafAt, Option.some.injEq] at h
    subst h
    exact hp
  | .leaf _, _ :: _, _, h, _ => by simp [Param.leafAt] at h
  | .dict _ _, [], _, h, _ => by simp [Param.leafAt] at h
  | .dict hd es, k :: ks, l, h, hp => Entries.leafAt_proper es k ks l h hp
theorem Entries.leafAt_proper : ∀ (es : Entries) (k : String) (ks : List String) (l : Leaf),
    es.leafAt k ks = some l → es.Proper → l.Proper
  | .nil, _, _, _, h, _ => by simp [Entries.leafAt] at h
  | .cons k' p rest, k, ks, l, h, hp => by
    simp only [Entries.Proper] at hp
    simp only [Entries.leafAt] at h
    split_ifs at h
    · exact Param.leafAt_proper p ks l h hp.1
    · exact Entries.leafAt_proper rest k ks l h hp.2
end

/-- **C71** For every parameter or dictionary whose values have the declared shapes, the index
parameter exists, its vector form is `0, 1, 2, ...`, it has a parameter of the same name, type and
shape at the same places, and for every element of a held value the number found in its place in
the index parameter is the position of that element in the vector form of the original.  (Matrix
parameters must hold symmetric matrices: the vector form only keeps their lower triangles.) -/
theorem C71_index_param {eigh : Eigh} (he : EighContract eigh) (p : Param) (hb : Built eigh p)
    (hn : p.HasParams) (hp : p.Proper) :
    ∃ q v, makeIndexParam p = .ok q ∧ p.getVector = .ok v ∧
      q.getVector = .ok ((List.range p.vecSize).map fun (i : ℕ) => (i : ℝ)) ∧
      (∀ path, q.leafAt path = none ↔ p.leafAt path = none) ∧
      ∀ path l, p.leafAt path = some l → ∃ lq, q.leafAt path = some lq ∧ lq.name = l.name ∧
        lq.kind = l.kind ∧ lq.Proper ∧ lq.val.data.length = l.val.data.length ∧
        (l.HoldsSymmetric → ∀ (k : ℕ) (x : ℝ), l.val.data[k]? = some x →
          ∃ i : ℕ, lq.val.data[k]? = some (i : ℝ) ∧ v[i]? = some x) := by
  have hw := Built.wf he hb
  obtain ⟨v, hv, hvl⟩ := Param.getVector_proper p hw hn hp
  set r : List ℝ := (List.range p.vecSize).map fun (i : ℕ) => (i : ℝ) with hr
  have hrl : r.length = p.vecSize := by simp [hr]
  refine ⟨p.vecP r, v, ?_, hv, Param.getVector_vecP p hw hn r hrl, ?_, ?_⟩
  · unfold makeIndexParam
    rw [Param.setVector_ok p hw _ hrl]
  · intro path
    have := Param.vecP_leafAt p path r
    cases h1 : (p.vecP r).leafAt path <;> cases h2 : p.leafAt path <;> simp_all
  · intro path l hl
    obtain ⟨idx, h1, h2⟩ := Param.vecP_looksUp p path l hl hw
    obtain ⟨lq, h3, h4, h5, ⟨u, hu, h6⟩, h7⟩ := h2 r hrl
    have hq : lq.Proper := by
      obtain ⟨qn, qk, qv, qb⟩ := lq
      simp only at h5 h6
      subst h5 h6
      exact vectorVal_proper _ _ _ u hu
    refine ⟨lq, h3, h4, h5, hq, (Param.leafAt_proper p path l hl hp).length_eq hq h5, ?_⟩
    intro hs k x hx
    obtain ⟨l1, h8, h9⟩ := Param.vecP_getVector p path l hl hw hp hs v hv
    obtain ⟨l2, h10, _, _, _, h11⟩ := h2 v hvl
    rw [h8] at h10
    cases h10
    rw [← h9, h11, List.getElem?_map] at hx
    cases hi : idx[k]? with
    | none => simp [hi] at hx
    | some i =>
      have hlt := h1 i (List.mem_of_getElem? hi)
      refine ⟨i, ?_, ?_⟩
      · rw [h7, List.getElem?_map, hi]
        simp [hr, hlt]
      · rw [hi] at hx
        simp [List.getD_eq_getElem?_getD] at hx
        rw [← hx, List.getElem?_eq_getElem (by omega)]
        simp

/-- Example: the dictionary of one scalar and a nested vector. -/
example (eigh : Eigh) (he : EighContract eigh) : ∃ q v, makeIndexParam exDict = .ok q ∧
    exDict.getVector = .ok v ∧ q.getVector = .ok [0, 1, 2] := by
  obtain ⟨q, v, h1, h2, h3, _⟩ := C71_index_param he exDict (exDict_built eigh) exDict_hasParams exDict_proper
  refine ⟨q, v, h1, h2, ?_⟩
  rw [h3, exDict_vecSize]
  simp [List.range_succ]

/-- Example: two symmetric 2 × 2 matrices meet the symmetry condition. -/
example : Leaf.HoldsSymmetric ⟨"m", .posdefVec 2 2 0, ⟨[2, 2, 2], [1, 2, 2, 3, 4, 5, 5, 6]⟩, false⟩ := by
  intro b hb i hi j hj
  have hb' : b = 0 ∨ b = 1 := by omega
  have hi' : i = 0 ∨ i = 1 := by omega
  have hj' : j = 0 ∨ j = 1 := by omega
  rcases hb' with rfl | rfl <;> rcases hi' with rfl | rfl <;> rcases hj' with rfl | rfl <;> rfl

end LRVB
