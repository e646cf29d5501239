import Verif.Model.Access
import Verif.Props.Matrices
import Verif.Lemmas.Dict3

/-!
# C169: locating parts of a parameter
-/

namespace LRVB

theorem mapM_getElem_ok {α β : Type} {f : α → Py β} : ∀ {xs : List α} {ys : List β},
    xs.mapM f = .ok ys → ∀ (k : ℕ) (hk : k < xs.length) (hk' : k < ys.length),
      f xs[k] = .ok ys[k]
  | [], ys, h, k, hk, _ => absurd hk (by simp)
  | a :: t, ys, h, k, hk, hk' => by
    rw [List.mapM_cons] at h
    obtain ⟨b, hb, h⟩ := py_bind_ok h
    obtain ⟨bs, hbs, h⟩ := py_bind_ok h
    cases h
    cases k with
    | zero => exact hb
    | succ k => exact mapM_getElem_ok hbs k (by simpa using hk) (by simpa using hk')

theorem indexProduct_getElem_rank {s idx : List ℕ} (h : List.Forall₂ (· < ·) idx s) :
    ∃ hk : rowMajorRank idx s < (indexProduct s).length,
      (indexProduct s)[rowMajorRank idx s] = idx := by
  obtain ⟨k, hk, hki⟩ := List.getElem_of_mem (mem_indexProduct.2 h)
  have h1 : ((indexProduct s).map fun idx => rowMajorRank idx s)[k]'(by simpa using hk) = k := by
    simp [C13_enumeration_row_major]
  have h2 : rowMajorRank idx s = k := by simpa [hki] using h1
  exact ⟨h2 ▸ hk, by simp only [h2, hki]⟩

theorem pySlice_nat (x : List ℝ) (a k : ℕ) (h : a + k ≤ x.length) :
    pySlice x ((a : ℤ), (a : ℤ) + k) = (x.drop a).take k := by
  unfold pySlice sliceBound
  have h1 : ¬ ((a : ℤ) < 0) := by omega
  have h2 : ¬ ((a : ℤ) + k < 0) := by omega
  simp only [h1, h2, if_false]
  rw [show ((a : ℤ)).toNat = a by omega, show ((a : ℤ) + k).toNat = a + k by omega,
    min_eq_left h, min_eq_left (by omega), Nat.add_sub_cancel_left]

/-- Reading off block `k` of a stack of packed matrices. -/
theorem stack_block {α : Type} {f : α → Py (List ℝ)} {xs : List α} {ys : List (List ℝ)} {x : List ℝ}
    {c : ℕ} (hc : ∀ a ∈ xs, ∀ y, f a = .ok y → y.length = c) (h : xs.mapM f = .ok ys)
    (hx : Arr.hstack ys = .ok x) (k : ℕ) (hk : k < xs.length) :
    x.length = xs.length * c ∧ f xs[k] = .ok ((x.drop (k * c)).take c) := by
  have hl := mapM_length h
  have hc' : ∀ b ∈ ys, b.length = c := by
    intro b hb
    obtain ⟨a, ha, hab⟩ := mapM_mem h b hb
    exact hc a ha b hab
  rw [Param.hstack_inv hx]
  refine ⟨by rw [flatten_length_const _ _ hc', hl], ?_⟩
  rw [flatten_block_const _ _ hc' k (by omega)]
  exact mapM_getElem_ok h k hk (by omega)

/-- **C169** Vector of matrices: the slice that `free_obs_slice(obs)` returns for a position below
the length selects from `get_free()` the free form of matrix `obs` and from `get_vector()` its
vector form; for a position at or above the length the call raises `AssertionError`. -/
theorem C169_vector_slices (l : Leaf) (len n : ℕ) (d : ℝ) (hk : l.kind = .posdefVec len n d)
    (hp : l.Proper) (obs : ℕ) :
    (len ≤ obs → l.freeObsSlice obs = .error .assertionError) ∧
    (obs < len → ∃ sl m, l.freeObsSlice obs = .ok sl ∧ l.get.sub [obs] = .ok m ∧
      (∀ x, l.getFree = .ok x → packPosdef m d = .ok (pySlice x sl)) ∧
      (∀ v, l.getVector = .ok v → vectorizeLd m = .ok (pySlice v sl))) := by
  obtain ⟨name, kind, ⟨shape, data⟩, boxed⟩ := l
  obtain ⟨hw, hs⟩ := hp
  simp only at hk
  subst hk
  simp only [Kind.shapeOf] at hs
  subst hs
  have hw' : data.length = ([len] ++ [n, n]).prod := hw
  constructor
  · intro h
    simp only [Leaf.freeObsSlice]
    rw [if_neg (by omega)]
  · intro h
    have hr := ravel_single h
    have hsub : ∀ o (ho : o < len), ∃ m, (⟨[len, n, n], data⟩ : Arr).sub [o] = .ok m ∧
        m.shape = [n, n] := fun o ho => ⟨_, sub_prefix hw' (ravel_single ho), rfl⟩
    obtain ⟨m, hm, hms⟩ := hsub obs h
    refine ⟨(vecSizeOf n * obs, vecSizeOf n * (obs + 1)), m, ?_, hm, ?_, ?_⟩
    · simp only [Leaf.freeObsSlice]
      rw [if_pos (by omega)]
    all_goals
      intro x hx
      simp only [Leaf.getFree, Leaf.getVector] at hx
      rw [if_neg (by simp)] at hx
      obtain ⟨ys, hys, hx⟩ := py_bind_ok hx
      obtain ⟨h1, h2⟩ := stack_block (c := vecSizeOf n) (fun o ho y hy => by
        obtain ⟨m', hm', hy⟩ := py_bind_ok hy
        obtain ⟨m2, hm2, hs2⟩ := hsub o (List.mem_range.1 ho)
        rw [hm2] at hm'
        cases hm'
        first
          | exact packPosdef_length hs2 hy
          | exact vectorizeLd_length hs2 hy) hys hx obs (by simpa using h)
      rw [List.getElem_range, hm, py_ok_bind] at h2
      rw [h2]
      have h3 := pySlice_nat x (obs * vecSizeOf n) (vecSizeOf n) (by
        rw [h1, List.length_range, ← Nat.succ_mul]
        exact Nat.mul_le_mul_right _ h)
      rw [← h3]
      congr 2
      push_cast
      ring_nf

/-- **C169** Negative positions pass the check of `free_obs_slice`.  From `-length` to `-2` they count
from the end as in Python; position `-1` does not: it selects nothing instead of the last matrix. -/
theorem C169_negative_positions (l : Leaf) (len n : ℕ) (d : ℝ) (hk : l.kind = .posdefVec len n d)
    (x : List ℝ) (hx : x.length = l.freeSize) (k : ℕ) (hk1 : 1 ≤ k) (hk2 : k ≤ len) :
    ∃ sl, l.freeObsSlice (-k) = .ok sl ∧
      (2 ≤ k → pySlice x sl = block n (len - k) x) ∧ (k = 1 → pySlice x sl = []) := by
  have hx' : x.length = vecSizeOf n * len := by simpa [Leaf.freeSize, hk, Kind.freeSize] using hx
  refine ⟨(vecSizeOf n * (-k : ℤ), vecSizeOf n * ((-k : ℤ) + 1)), ?_, ?_, ?_⟩
  · simp only [Leaf.freeObsSlice, hk]
    rw [if_pos (by omega)]
  · intro h
    unfold pySlice block
    rcases Nat.eq_zero_or_pos (vecSizeOf n) with h0 | h0
    · have : x = [] := List.length_eq_zero_iff.1 (by rw [hx', h0, Nat.zero_mul])
      simp [this]
    have hb : ∀ j : ℕ, 1 ≤ j → j ≤ len →
        sliceBound x.length ((vecSizeOf n : ℤ) * (-j : ℤ)) = (len - j) * vecSizeOf n := by
      intro j h1 h2
      unfold sliceBound
      rw [if_pos (by
        have : (0 : ℤ) < vecSizeOf n * j := by positivity
        linarith)]
      rw [hx', Nat.mul_comm]
      obtain ⟨e, rfl⟩ := Nat.exists_eq_add_of_le h2
      rw [Nat.add_sub_cancel_left]
      have : (vecSizeOf n : ℤ) * (-j : ℤ) + ((j + e) * vecSizeOf n : ℕ) = (e * vecSizeOf n : ℕ) := by
        push_cast; ring
      rw [this, Int.toNat_natCast]
    have e2 : ((-k : ℤ) + 1) = (-((k - 1 : ℕ) : ℤ)) := by omega
    rw [e2, hb k hk1 hk2, hb (k - 1) (by omega) (by omega)]
    congr 1
    rw [← Nat.sub_mul]
    rw [show len - (k - 1) - (len - k) = 1 by omega, Nat.one_mul]
    rfl
  · rintro rfl
    unfold pySlice
    have : sliceBound x.length ((vecSizeOf n : ℤ) * ((-(1 : ℕ) : ℤ) + 1)) = 0 := by
      simp [sliceBound]
    rw [this, Nat.zero_sub, List.take_zero]

/-- **C169** Array of matrices: for every multi-index in range, `stacked_obs_slice(obs)` selects the
free form and the vector form of the matrix at `obs`; the wrong number of indices raises
`AssertionError`, an index out of range `ValueError`. -/
theorem C169_array_slices (l : Leaf) (s : List ℕ) (n : ℕ) (d : ℝ) (hk : l.kind = .posdefArr s n d)
    (hp : l.Proper) (obs : List ℕ) :
    (obs.length ≠ s.length → l.stackedObsSlice obs = .error .assertionError) ∧
    (obs.length = s.length → ¬ List.Forall₂ (· < ·) obs s →
      l.stackedObsSlice obs = .error .valueError) ∧
    (List.Forall₂ (· < ·) obs s → ∃ sl m, l.stackedObsSlice obs = .ok sl ∧ l.get.sub obs = .ok m ∧
      (∀ x, l.getFree = .ok x → packPosdef m d = .ok (pySlice x sl)) ∧
      (∀ v, l.getVector = .ok v → vectorizeLd m = .ok (pySlice v sl))) := by
  obtain ⟨name, kind, ⟨shape, data⟩, boxed⟩ := l
  obtain ⟨hw, hs⟩ := hp
  simp only at hk
  subst hk
  simp only [Kind.shapeOf] at hs
  subst hs
  have hw' : data.length = (s ++ [n, n]).prod := hw
  refine ⟨?_, ?_, ?_⟩
  · intro h
    simp only [Leaf.stackedObsSlice]
    rw [if_pos h]
  · intro h h'
    simp only [Leaf.stackedObsSlice]
    rw [if_neg (not_not.2 h), (C13_ravel_is_rank s obs).2 h']
    rfl
  · intro h
    obtain ⟨hr, hlt, _⟩ := (C13_ravel_is_rank s obs).1 h
    obtain ⟨hk, hidx⟩ := indexProduct_getElem_rank h
    have hsub : ∀ o ∈ indexProduct s, ∃ m, (⟨s ++ [n, n], data⟩ : Arr).sub o = .ok m ∧
        m.shape = [n, n] := fun o ho =>
      ⟨_, sub_prefix hw' (ravel_ok (mem_indexProduct.1 ho)).choose_spec.1, rfl⟩
    obtain ⟨m, hm, hms⟩ := hsub obs (mem_indexProduct.2 h)
    refine ⟨((rowMajorRank obs s : ℕ) * vecSizeOf n,
      (rowMajorRank obs s : ℕ) * vecSizeOf n + vecSizeOf n), m, ?_, hm, ?_, ?_⟩
    · simp only [Leaf.stackedObsSlice]
      rw [if_neg (not_not.2 h.length_eq), hr]
      rfl
    all_goals
      intro x hx
      simp only [Leaf.getFree, Leaf.getVector] at hx
      obtain ⟨ys, hys, hx⟩ := py_bind_ok hx
      obtain ⟨h1, h2⟩ := stack_block (c := vecSizeOf n) (fun o ho y hy => by
        obtain ⟨m', hm', hy⟩ := py_bind_ok hy
        obtain ⟨m2, hm2, hs2⟩ := hsub o ho
        rw [hm2] at hm'
        cases hm'
        first
          | exact packPosdef_length hs2 hy
          | exact vectorizeLd_length hs2 hy) hys hx (rowMajorRank obs s) hk
      rw [hidx, hm, py_ok_bind] at h2
      rw [h2]
      have h3 := pySlice_nat x (rowMajorRank obs s * vecSizeOf n) (vecSizeOf n) (by
        rw [h1, indexProduct_length, ← Nat.succ_mul]
        exact Nat.mul_le_mul_right _ hlt)
      rw [← h3]
      congr 2

/-- **C169** `apply_matrix_function(f)` for a function that returns arrays of one shape `t` (a
scalar has the empty shape): the result has the shape of the array followed by `t`, and its part at
multi-index `obs` is `f` of the matrix at `obs`, for every `obs`. -/
theorem C169_apply_matrix_function (l : Leaf) (s : List ℕ) (n : ℕ) (d : ℝ)
    (hk : l.kind = .posdefArr s n d) (hp : l.Proper) (hs : 0 < s.prod) (f : Arr → Arr) (t : List ℕ)
    (hf : ∀ m, (f m).shape = t ∧ (f m).WF) :
    ∃ r, l.applyMatrixFunction (fun m => .ok (f m)) = .ok r ∧ r.shape = s ++ t ∧ r.WF ∧
      ∀ obs, List.Forall₂ (· < ·) obs s →
        ∃ m, l.get.sub obs = .ok m ∧ m.shape = [n, n] ∧ r.sub obs = .ok (f m) := by
  obtain ⟨name, kind, ⟨shape, data⟩, boxed⟩ := l
  obtain ⟨hw, hsh⟩ := hp
  simp only at hk
  subst hk
  simp only [Kind.shapeOf] at hsh
  subst hsh
  have hw' : data.length = (s ++ [n, n]).prod := hw
  have hsub : ∀ o ∈ indexProduct s, ∃ m, (⟨s ++ [n, n], data⟩ : Arr).sub o = .ok m ∧
      m.shape = [n, n] := fun o ho =>
    ⟨_, sub_prefix hw' (ravel_ok (mem_indexProduct.1 ho)).choose_spec.1, rfl⟩
  haveI : Nonempty Arr := ⟨Arr.scalar 0⟩
  choose! g hg hgs using hsub
  have hmap : (indexProduct s).mapM (fun obs => do
      (fun m => (.ok (f m) : Py Arr)) (← (⟨s ++ [n, n], data⟩ : Arr).sub obs)) =
      .ok ((indexProduct s).map fun o => f (g o)) :=
    mapM_ok_of _ fun o ho => by rw [hg o ho]; rfl
  have hlen : ((indexProduct s).map fun o => f (g o)).length = s.prod := by
    simp [indexProduct_length]
  have hc : ∀ b ∈ ((indexProduct s).map fun o => f (g o)).map Arr.data, b.length = t.prod := by
    intro b hb
    simp only [List.map_map, List.mem_map] at hb
    obtain ⟨o, _, rfl⟩ := hb
    have := (hf (g o)).2
    rwa [Arr.WF, (hf (g o)).1] at this
  have hdl : (((indexProduct s).map fun o => f (g o)).flatMap Arr.data).length = (s ++ t).prod := by
    rw [List.flatMap_def, flatten_length_const _ _ hc, List.length_map, hlen, List.prod_append]
  refine ⟨⟨s ++ t, ((indexProduct s).map fun o => f (g o)).flatMap Arr.data⟩, ?_, rfl, hdl, ?_⟩
  · simp only [Leaf.applyMatrixFunction]
    rw [hmap, py_ok_bind]
    cases hrs : (indexProduct s).map fun o => f (g o) with
    | nil => rw [hrs] at hlen; simp at hlen; omega
    | cons r rs =>
      have hall : ∀ q ∈ r :: rs, q.shape = t := by
        rw [← hrs]
        intro q hq
        obtain ⟨o, _, rfl⟩ := List.mem_map.1 hq
        exact (hf _).1
      simp only
      rw [if_pos (by
        rw [List.all_eq_true]
        intro q hq
        rw [hall q hq, hall r (by simp)]
        simp), hall r (by simp)]
      unfold Arr.stack Arr.reshape
      simp only [List.isEmpty_cons, Bool.false_eq_true, if_false]
      rw [hrs] at hdl
      rw [if_pos hdl]
  · intro obs ho
    refine ⟨g obs, hg obs (mem_indexProduct.2 ho), hgs obs (mem_indexProduct.2 ho), ?_⟩
    obtain ⟨hr, hlt, _⟩ := (C13_ravel_is_rank s obs).1 ho
    obtain ⟨hk, hidx⟩ := indexProduct_getElem_rank ho
    rw [sub_prefix hdl hr, List.flatMap_def, flatten_block_const _ _ hc _ (by simpa using hk)]
    simp only [List.getElem_map, hidx]
    congr 1
    have := (hf (g obs)).1
    cases hfg : f (g obs) with
    | mk a b => rw [hfg] at this; simp at this; rw [this]

/-- **C169** Simplex: `get_vector_indices(row)` are the positions of row `row` in `get_vector()`, for
every row; a row out of range raises `ValueError`. -/
theorem C169_simplex_rows (l : Leaf) (r c : ℕ) (hc : 0 < c) (hk : l.kind = .simplex r c)
    (hp : l.Proper) (row : ℕ) :
    (r ≤ row → l.getVectorIndices row = .error .valueError) ∧
    (row < r → ∃ inds v, l.getVectorIndices row = .ok inds ∧ l.getVector = .ok v ∧
      ∃ y, pyTake v inds = .ok y ∧ l.get.sub [row] = .ok (Arr.vec y) ∧ y.length = c ∧
        ∀ j < c, y.getD j 0 = l.get.at2 row j) := by
  obtain ⟨name, kind, ⟨shape, data⟩, boxed⟩ := l
  obtain ⟨hw, hsh⟩ := hp
  simp only at hk
  subst hk
  simp only [Kind.shapeOf] at hsh
  subst hsh
  have hw' : data.length = ([r] ++ [c]).prod := hw
  have hw2 : data.length = r * c := by simpa using hw'
  simp only [Leaf.getVectorIndices, if_neg hc.ne']
  constructor
  · intro h
    obtain ⟨c, rfl⟩ := Nat.exists_eq_succ_of_ne_zero hc.ne'
    rw [List.range_succ_eq_map, List.mapM_cons]
    simp only [ravel, if_neg (Nat.not_lt.2 h)]
    rfl
  · intro h
    have hin : (row + 1) * c ≤ r * c := Nat.mul_le_mul_right _ h
    rw [Nat.add_mul, Nat.one_mul] at hin
    have hr : ∀ j ∈ List.range c, ravel [row, j] [r, c] = .ok (row * c + j) := by
      intro j hj
      have := ravel_append (ravel_single h) (ravel_single (List.mem_range.1 hj))
      simpa using this
    refine ⟨(List.range c).map fun j => row * c + j, data, mapM_ok_of _ hr, rfl,
      (data.drop (row * c)).take c, ?_, ?_, ?_, ?_⟩
    · unfold pyTake
      rw [mapM_ok_of (g := fun i => data.getD i 0)]
      · congr 1
        rw [List.map_map]
        apply List.ext_getElem
        · simp; omega
        · intro i h1 h2
          simp at h1
          simp [List.getD_eq_getElem?_getD, List.getElem?_eq_getElem (show row * c + i < data.length by omega)]
      · intro i hi
        obtain ⟨j, hj, rfl⟩ := List.mem_map.1 hi
        rw [List.mem_range] at hj
        rw [if_pos (by omega)]
    · have := sub_prefix (s := [r]) (t := [c]) hw' (ravel_single h)
      simp only [List.singleton_append, List.prod_singleton] at this
      rw [Leaf.get, this]
      simp only [Arr.vec]
      congr 3
      simp; omega
    · simp; omega
    · intro j hj
      simp [Leaf.get, Arr.at2, List.getD_eq_getElem?_getD, hj]

/-- **C169** The sizes that the accessors report fit the values: a vector or an array of matrices
holds matrices of size `matrix_size()`, `get_array_ranges()` enumerates the in-range multi-indices,
and the free size of a simplex is the product of its `free_shape()`. -/
theorem C169_sizes (l : Leaf) :
    (∀ len n d, l.kind = .posdefVec len n d → l.matrixSize = .ok n ∧ l.lengthMethod = .ok len ∧
      l.freeSize = len * (n * (n + 1) / 2)) ∧
    (∀ s n d, l.kind = .posdefArr s n d → l.matrixSize = .ok n ∧
      (∃ rs, l.getArrayRanges = .ok rs ∧
        ∀ idx : List ℕ, List.Forall₂ (· ∈ ·) idx rs ↔ List.Forall₂ (· < ·) idx s) ∧
      l.freeSize = s.prod * (n * (n + 1) / 2)) ∧
    (∀ r c, 0 < c → l.kind = .simplex r c → ∃ a b, l.freeShape = .ok (a, b) ∧
      (l.freeSize : ℤ) = a * b ∧ l.vecSize = r * c) := by
  refine ⟨?_, ?_, ?_⟩
  · intro len n d h
    simp [Leaf.matrixSize, Leaf.lengthMethod, Leaf.freeSize, Kind.freeSize, h, vecSizeOf, Nat.mul_comm]
  · intro s n d h
    refine ⟨by simp [Leaf.matrixSize, h], ⟨s.map List.range, by simp [Leaf.getArrayRanges, h], ?_⟩, ?_⟩
    · intro idx
      rw [List.forall₂_map_right_iff]
      simp
    · simp [Leaf.freeSize, Kind.freeSize, h, vecSizeOf, Nat.mul_comm]
  · intro r c hc h
    refine ⟨r, (c : ℤ) - 1, by simp [Leaf.freeShape, h], ?_, ?_⟩
    · simp only [Leaf.freeSize, Kind.freeSize, h]
      push_cast [Nat.cast_sub (show 1 ≤ c from hc)]
      ring
    · simp [Leaf.vecSize, Kind.vecSize, h]

/-- A `2 × 3` array of `2 × 2` matrices and a simplex with two rows meet the hypotheses. -/
example : (⟨"m", .posdefArr [2, 3] 2 1, broadcast [2, 3] (diagArr 2 2), false⟩ : Leaf).Proper ∧
    List.Forall₂ (· < ·) [1, 2] [2, 3] ∧ 0 < [2, 3].prod ∧
    (⟨"v", .posdefVec 3 2 1, broadcast [3] (diagArr 2 2), false⟩ : Leaf).Proper ∧
    (⟨"s", .simplex 2 3, Arr.full [2, 3] (1 / 3), false⟩ : Leaf).Proper := by
  refine ⟨?_, by simp, by norm_num, ?_, ?_⟩ <;>
    simp [Leaf.Proper, Arr.WF, Kind.shapeOf, broadcast, diagArr, Arr.ofFn2, Arr.full]

end LRVB
