import Verif.Lemmas.Reach

/-!
# C05, C06 (constructors), C09–C12, C21, C22, C24: parameter objects

`Reachable eigh l`: `l` is an object that some program can hold (`Spec/Leaf.lean`), i.e. it was
returned by one of the constructors and then changed by any history of method calls.
-/

namespace LRVB

open Flt

/-! ## C05, C06 through the constructors -/

/-- **C05** through the constructors: whatever the sizes and bounds, all entries of the value of a
parameter constructed without a value are the default of `C05_default_value_partial`. -/
theorem C05_constructed_value_partial (name : String) (lb ub : Flt) (h : lb < ub) (n : ℕ)
    (s : List ℕ) :
    ∃ v : ℝ, getInboundsValue lb ub = .ok (fin v) ∧
      (∃ l, mkScalar name lb ub none = .ok l ∧ l.get = ⟨[], [v]⟩) ∧
      (∃ l, mkVector name n lb ub none = .ok l ∧ l.get = ⟨[n], List.replicate n v⟩) ∧
      (∃ l, mkArray name s lb ub none = .ok l ∧ l.get = ⟨s, List.replicate s.prod v⟩) := by
  obtain ⟨v, hv, _⟩ := C05_default_value_partial lb ub h
  obtain ⟨h1, h2, _⟩ := C06_constructor_bounds lb ub
  refine ⟨v, hv, ⟨⟨name, .scalar lb ub, Arr.scalar v, false⟩, ?_, rfl⟩,
    ⟨⟨name, .vector n lb ub, Arr.full [n] v, false⟩, ?_, by simp [Leaf.get, Arr.full]⟩,
    ⟨⟨name, .array s lb ub, Arr.full s v, false⟩, ?_, rfl⟩⟩
  · unfold mkScalar
    rw [h1.mpr h, py_ok_bind]; simp only; rw [hv, py_ok_bind]
    rfl
  · unfold mkVector
    rw [h2.mpr h, py_ok_bind]; simp only; rw [hv, py_ok_bind]
    simp [Flt.toReal, Leaf.set, Arr.full, Arr.size]
  · unfold mkArray
    rw [h2.mpr h, py_ok_bind]; simp only; rw [hv, py_ok_bind]
    simp [Flt.toReal, Leaf.set, Arr.full]

example : (fin 0 : Flt) < fin 1 := by simp

/-- **C06** through the constructors: construction without a value succeeds exactly for strictly
ordered bounds (in particular neither bound is NaN). -/
theorem C06_constructors (name : String) (lb ub : Flt) (n : ℕ) (s : List ℕ) :
    ((∃ l, mkScalar name lb ub none = .ok l) ↔ lb < ub) ∧
    ((∃ l, mkVector name n lb ub none = .ok l) ↔ lb < ub) ∧
    ((∃ l, mkArray name s lb ub none = .ok l) ↔ lb < ub) ∧
    (∀ v : Arr, (∃ l, mkScalar name lb ub (some v) = .ok l) ↔ lb < ub) ∧
    (∀ v : Arr, (∃ l, mkVector name n lb ub (some v) = .ok l) ↔ lb < ub ∧ v.size = n) ∧
    (∀ v : Arr, (∃ l, mkArray name s lb ub (some v) = .ok l) ↔ lb < ub ∧ v.shape = s) := by
  obtain ⟨h1, h2, _⟩ := C06_constructor_bounds lb ub
  refine ⟨⟨?_, fun h => ?_⟩, ⟨?_, fun h => ?_⟩, ⟨?_, fun h => ?_⟩, fun v => ⟨?_, fun h => ?_⟩,
    fun v => ⟨?_, fun h => ?_⟩, fun v => ⟨?_, fun h => ?_⟩⟩
  · rintro ⟨l, h⟩
    obtain ⟨u, hu, _⟩ := py_bind_ok h
    exact h1.mp hu
  · obtain ⟨v, _, ⟨l, h1, _⟩, _⟩ := C05_constructed_value_partial name lb ub h n s
    exact ⟨l, h1⟩
  · rintro ⟨l, h⟩
    obtain ⟨u, hu, _⟩ := py_bind_ok h
    exact h2.mp hu
  · obtain ⟨v, _, _, ⟨l, h1, _⟩, _⟩ := C05_constructed_value_partial name lb ub h n s
    exact ⟨l, h1⟩
  · rintro ⟨l, h⟩
    obtain ⟨u, hu, _⟩ := py_bind_ok h
    exact h2.mp hu
  · obtain ⟨v, _, _, _, ⟨l, h1, _⟩⟩ := C05_constructed_value_partial name lb ub h n s
    exact ⟨l, h1⟩
  · rintro ⟨l, h⟩
    obtain ⟨u, hu, _⟩ := py_bind_ok h
    exact h1.mp hu
  · unfold mkScalar
    rw [h1.mpr h]
    exact ⟨_, rfl⟩
  · rintro ⟨l, h⟩
    obtain ⟨u, hu, h⟩ := py_bind_ok h
    refine ⟨h2.mp hu, ?_⟩
    simp only [Leaf.set] at h
    split_ifs at h with hs
    exact not_not.mp hs
  · unfold mkVector
    rw [h2.mpr h.1]
    exact ⟨_, if_neg (not_not.mpr h.2)⟩
  · rintro ⟨l, h⟩
    obtain ⟨u, hu, h⟩ := py_bind_ok h
    refine ⟨h2.mp hu, ?_⟩
    simp only [Leaf.set] at h
    split_ifs at h with hs
    exact not_not.mp hs
  · unfold mkArray
    rw [h2.mpr h.1]
    exact ⟨_, if_neg (not_not.mpr h.2)⟩

/-! ## C09, C10 -/

/-- **C09** For every parameter type and every prior state, `set_free(x)` with a finite `x` of
length `free_size()` succeeds and `get_free()` then returns `x`. -/
theorem C09_set_free_get_free (eigh : Eigh) (he : EighContract eigh) (l : Leaf)
    (h : Reachable eigh l) (hm : l.HoldsMatrix) (x : List ℝ) (hx : x.length = l.freeSize) :
    ∃ l', l.setFree x = .ok l' ∧ l'.getFree = .ok x ∧ l'.freeSize = l.freeSize := by
  have hk := reachable_legal he h hm
  exact ⟨_, Leaf.setFree_ok l hk x hx, Leaf.getFree_freeVal l.name l.kind hk x hx false, rfl⟩

/-- The only excluded case of C09: a vector of zero matrices accepts the empty free vector, but
then reading the free vector raises. -/
theorem C09_no_matrices_counterexample :
    ∃ l l', mkPosDefVec "m" 0 2 0 none = .ok l ∧ l.freeSize = 0 ∧ l.setFree [] = .ok l' ∧
      l'.getFree = .error .valueError := by
  refine ⟨_, ⟨"m", .posdefVec 0 2 0, ⟨[0], []⟩, false⟩, by rw [mkPosDefVec, if_neg (by simp)], ?_, ?_, ?_⟩
  · simp [Leaf.freeSize, Kind.freeSize]
  · simp only [Leaf.setFree]; rw [if_neg (by simp)]; rfl
  · simp only [Leaf.getFree]; rw [if_neg (by simp)]; rfl

/-- **C10** For every parameter type and every prior state, `set_vector(v)` with `v` of length
`vector_size()` succeeds and `get_vector()` then returns `v`. -/
theorem C10_set_vector_get_vector (eigh : Eigh) (he : EighContract eigh) (l : Leaf)
    (h : Reachable eigh l) (hm : l.HoldsMatrix) (v : List ℝ) (hv : v.length = l.vecSize) :
    ∃ l', l.setVector v = .ok l' ∧ l'.getVector = .ok v ∧ l'.vecSize = l.vecSize := by
  have hk := reachable_legal he h hm
  exact ⟨_, Leaf.setVector_ok l hk v hv, Leaf.getVector_vectorVal l.name l.kind hk v hv false, rfl⟩

/-- **C10**, sizes: after `set_free(x)` the vector form has `vector_size()` entries and is what
`free_to_vector(x)` returns. -/
theorem C10_vector_after_set_free (eigh : Eigh) (he : EighContract eigh) (l : Leaf)
    (h : Reachable eigh l) (hm : l.HoldsMatrix) (x : List ℝ) (hx : x.length = l.freeSize) :
    ∃ l' v, l.setFree x = .ok l' ∧ l'.getVector = .ok v ∧ v.length = l.vecSize ∧
      l.freeToVector x = .ok (l', v) := by
  have hk := reachable_legal he h hm
  exact ⟨_, _, Leaf.setFree_ok l hk x hx, Leaf.getVector_freeVal l.name l.kind hk x hx false,
    ftv_length _ hk x hx, Leaf.freeToVector_ok l hk x hx⟩

/-- A contract-satisfying `eigh` exists on the trivial level needed for the examples: objects other
than subspace vectors do not use it. -/
theorem reachable_example (eigh : Eigh) : ∃ l, Reachable eigh l ∧ l.HoldsMatrix ∧ l.freeSize = 12 ∧
    mkPosDefArr "m" (.tuple [2, 2]) 2 1 none = .ok l := by
  have h : mkPosDefArr "m" (.tuple [2, 2]) 2 1 none =
      .ok ⟨"m", .posdefArr [2, 2] 2 1, broadcast [2, 2] (diagArr 2 (1 + 1)), false⟩ := by
    rw [mkPosDefArr, if_neg (by norm_num)]
    simp
  exact ⟨_, ⟨_, [], Constructed.posDefArr h, rfl⟩, by simp [Leaf.run, Leaf.HoldsMatrix],
    by simp [Leaf.run, Leaf.freeSize, Kind.freeSize, vecSizeOf], h⟩

/-! ## C11 -/

/-- **C11** fails for scalar parameters: `set_free` with two entries is accepted, and afterwards
`get_free` and `get_vector` raise. -/
theorem C11_scalar_counterexample :
    ∃ l l', mkScalar "s" ninf pinf none = .ok l ∧ l.freeSize = 1 ∧ l.vecSize = 1 ∧
      l.setFree [1, 2] = .ok l' ∧ l'.getFree = .error .valueError ∧
      l.setVector [1, 2] = .ok l' ∧ l'.getVector = .error .valueError := by
  have hlt : (ninf : Flt) < pinf := by simp
  obtain ⟨v, hv, ⟨l, hl, _⟩, _⟩ := C05_constructed_value_partial "s" ninf pinf hlt 0 []
  refine ⟨_, ⟨"s", .scalar ninf pinf, Arr.vec [1, 2], false⟩, hl, ?_⟩
  have hl' : l.name = "s" ∧ l.kind = .scalar ninf pinf := by
    unfold mkScalar at hl
    obtain ⟨_, _, hl⟩ := py_bind_ok hl
    simp only at hl
    obtain ⟨_, _, hl⟩ := py_bind_ok hl
    obtain ⟨_, _, hl⟩ := py_bind_ok hl
    rw [Leaf.set_eq hl]; simp
  obtain ⟨name, kind, val, boxed⟩ := l
  obtain ⟨rfl, rfl⟩ := hl'
  have hid : ∀ x : ℝ, Leaf.constrainFn ninf pinf x = x := by
    intro x
    simp [Leaf.constrainFn, constrainReal, constrain, Flt.toReal]
  refine ⟨rfl, rfl, ?_, ?_, ?_, ?_⟩
  · simp only [Leaf.setFree]
    rw [constrainVec_ok hlt, py_ok_bind]
    simp [Leaf.set, hid]
  · simp [Leaf.getFree, Arr.vec]
  · simp [Leaf.setVector, Leaf.set]
  · simp [Leaf.getVector, Arr.vec, Arr.size]

/-- **C11**, part that holds (all types except `ScalarParam`): a vector of the wrong length makes
`set_free`, `set_vector` and `free_to_vector` raise `ValueError`, and the object is unchanged. -/
theorem C11_wrong_length_partial (l : Leaf) (hs : ∀ lb ub, l.kind ≠ .scalar lb ub) (x : List ℝ) :
    (x.length ≠ l.freeSize → l.step (.setFree x) = (l, some .valueError) ∧
      l.step (.freeToVector x) = (l, some .valueError)) ∧
    (x.length ≠ l.vecSize → l.step (.setVector x) = (l, some .valueError)) := by
  obtain ⟨name, kind, val, boxed⟩ := l
  constructor
  · intro hx
    have : (⟨name, kind, val, boxed⟩ : Leaf).setFree x = .error .valueError := by
      cases kind <;> simp only [Leaf.freeSize, Kind.freeSize] at hx <;>
        simp [Leaf.setFree, hx] at hs ⊢
    simp [Leaf.step, this]
  · intro hx
    have : (⟨name, kind, val, boxed⟩ : Leaf).setVector x = .error .valueError := by
      cases kind <;> simp only [Leaf.vecSize, Kind.vecSize] at hx <;>
        simp [Leaf.setVector, Leaf.set, Arr.vec, Arr.size, hx] at hs ⊢
    simp [Leaf.step, this]

example : ∃ (l : Leaf) (x : List ℝ), (∀ lb ub, l.kind ≠ .scalar lb ub) ∧ x.length ≠ l.freeSize :=
  ⟨⟨"v", .vector 3 ninf pinf, Arr.full [3] 0, false⟩, [1], by simp, by simp [Leaf.freeSize, Kind.freeSize]⟩

/-! ## C12 -/

/-- **C12** fails for vectors of matrices: a `(1, 3, 3)` array is stored by a parameter declared
with one `2 × 2` matrix, because the shape test raises only when *all* axes differ. -/
theorem C12_posdef_vector_counterexample :
    ∃ l l' v, mkPosDefVec "m" 1 2 0 none = .ok l ∧ v.WF ∧ v.shape = [1, 3, 3] ∧
      l.set v = .ok l' ∧ l'.get = v := by
  refine ⟨_, ⟨"m", .posdefVec 1 2 0, Arr.full [1, 3, 3] 0, false⟩, Arr.full [1, 3, 3] 0,
    by rw [mkPosDefVec, if_neg (by simp)], by simp [Arr.WF, Arr.full], rfl, ?_, rfl⟩
  · simp [Leaf.set, Leaf.allDiffer, Arr.full]

/-- **C12** fails in the same way for arrays of matrices. -/
theorem C12_posdef_array_counterexample :
    ∃ l l' v, mkPosDefArr "m" (.tuple [1, 2]) 2 0 none = .ok l ∧ v.WF ∧ v.shape = [5, 2, 7, 7] ∧
      l.set v = .ok l' ∧ l'.get = v := by
  refine ⟨_, ⟨"m", .posdefArr [1, 2] 2 0, Arr.full [5, 2, 7, 7] 0, false⟩, Arr.full [5, 2, 7, 7] 0,
    by rw [mkPosDefArr, if_neg (by simp)]; simp, List.length_replicate, rfl, ?_, rfl⟩
  · have : Leaf.allDiffer (Arr.full [5, 2, 7, 7] 0).shape ([1, 2] ++ [2, 2]) = .ok false := by
      simp [Leaf.allDiffer, Arr.full, -List.prod_cons, -List.reduceReplicate]
    simp only [Leaf.set, this, py_ok_bind]
    rfl

/-- **C12** fails for vector parameters: a `(2, 2)` matrix is stored by a vector parameter of
size 4. -/
theorem C12_vector_counterexample :
    ∃ l l' v, mkVector "v" 4 ninf pinf none = .ok l ∧ v.WF ∧ v.shape = [2, 2] ∧
      l.set v = .ok l' ∧ l'.get = v := by
  refine ⟨⟨"v", .vector 4 ninf pinf, Arr.full [4] 0, false⟩,
    ⟨"v", .vector 4 ninf pinf, Arr.full [2, 2] 0, false⟩, Arr.full [2, 2] 0, ?_,
    by simp [Arr.WF, Arr.full], rfl, ?_, rfl⟩
  · simp [mkVector, checkBoundsVector, getInboundsValue, Leaf.set, Flt.toReal, Arr.full, Arr.size]
  · simp [Leaf.set, Arr.full, Arr.size]

/-- **C12**, part that holds, as exact acceptance conditions of `set`; a rejected value raises
`ValueError` and is not stored, an accepted one is what `get` returns.
Array and simplex parameters accept exactly their declared shape; a positive definite matrix
parameter exactly symmetric matrices of its declared size; vector and subspace parameters exactly
the arrays with the declared number of entries; vectors and arrays of matrices exactly the arrays with
the declared number of axes that have the declared length in some axis, and the 1-d arrays whose length is
that of some axis. -/
theorem C12_set_accepts_partial (l : Leaf) (v : Arr) (hv : v.WF) :
    (∀ l', l.set v = .ok l' → l'.get = v) ∧
    (∀ e, l.set v = .error e → l.step (.set v) = (l, some e)) ∧
    (∀ s lb ub, l.kind = .array s lb ub → ((∃ l', l.set v = .ok l') ↔ v.shape = s) ∧
      (v.shape ≠ s → l.set v = .error .valueError)) ∧
    (∀ r c, l.kind = .simplex r c → ((∃ l', l.set v = .ok l') ↔ v.shape = [r, c]) ∧
      (v.shape ≠ [r, c] → l.set v = .error .valueError)) ∧
    (∀ n d, l.kind = .posdef n d →
      ((∃ l', l.set v = .ok l') ↔ v.shape = [n, n] ∧ ∀ i < n, ∀ j < n, v.at2 i j = v.at2 j i) ∧
      (v.shape ≠ [n, n] → l.set v = .error .valueError)) ∧
    (∀ n lb ub, l.kind = .vector n lb ub → ((∃ l', l.set v = .ok l') ↔ v.shape.prod = n)) ∧
    (∀ n f b, l.kind = .subspace n f b → ((∃ l', l.set v = .ok l') ↔ v.shape.prod = n)) ∧
    (∀ s n d, (l.kind = .posdefArr s n d ∨ ∃ len, s = [len] ∧ l.kind = .posdefVec len n d) →
      ((∃ l', l.set v = .ok l') ↔
        (v.shape.length = s.length + 2 ∧ ∃ i < s.length + 2, v.shape[i]? = (s ++ [n, n])[i]?) ∨
        ∃ k ∈ s ++ [n, n], v.shape = [k])) := by
  obtain ⟨name, kind, val, boxed⟩ := l
  refine ⟨fun l' h => ?_, fun e h => ?_, ?_, ?_, ?_, ?_, ?_, ?_⟩
  · rw [Leaf.set_eq h]; rfl
  · simp [Leaf.step, h]
  · rintro s lb ub rfl
    simp only [Leaf.set]
    by_cases hs : v.shape = s <;> simp [hs]
  · rintro r c rfl
    simp only [Leaf.set]
    by_cases hs : v.shape = [r, c] <;> simp [hs]
  · rintro n d rfl
    constructor
    · simp only [Leaf.set]
      by_cases hs : v.shape = [n, n]
      · rw [hs]
        simp only [ne_eq, not_true_eq_false, or_self, if_false, true_and]
        have key : v.transpose.data = v.data ↔ ∀ i < n, ∀ j < n, v.at2 i j = v.at2 j i := by
          have ht : v.transpose = Arr.ofFn2 n n fun i j => v.at2 j i := by
            simp [Arr.transpose, hs]
          constructor
          · intro h i hi j hj
            have h2 : v.transpose = v := by
              rw [ht] at h ⊢
              cases v; simp at hs; subst hs; simp [Arr.ofFn2] at h ⊢; exact h
            calc v.at2 i j = v.transpose.at2 i j := by rw [h2]
              _ = _ := by rw [ht, Arr.at2_ofFn2 _ _ _ hi hj]
          · intro h
            rw [ht]
            exact congrArg Arr.data (Arr.ext2_ofFn2 hv hs (f := fun i j => v.at2 j i) h).symm
        by_cases h : v.transpose.data = v.data
        · simpa [h] using key.mp h
        · simp [h, ← key]
      · rcases hsh : v.shape with _ | ⟨a, _ | ⟨b, _ | _⟩⟩ <;> simp [hsh] at hs ⊢
        by_cases h1 : a = n <;> by_cases h2 : b = n <;> simp_all
    · intro hs
      simp only [Leaf.set]
      rcases hsh : v.shape with _ | ⟨a, _ | ⟨b, _ | _⟩⟩ <;> simp [hsh] at hs ⊢
      by_cases h1 : a = n <;> by_cases h2 : b = n <;> simp_all
  · rintro n lb ub rfl
    have hsz : v.size = v.shape.prod := hv
    simp only [Leaf.set]
    by_cases hs : v.shape.prod = n <;> simp [hsz, hs]
  · rintro n f b rfl
    have hsz : v.size = v.shape.prod := hv
    simp only [Leaf.set]
    by_cases hs : v.shape.prod = n <;> simp [hsz, hs]
  · intro s n d hk
    have hset : (∃ l', (⟨name, kind, val, boxed⟩ : Leaf).set v = .ok l') ↔ Leaf.allDiffer v.shape (s ++ [n, n]) = .ok false := by
      rcases hk with h | ⟨len, rfl, h⟩
      all_goals
        simp only at h
        subst h
        simp only [Leaf.set, List.cons_append, List.nil_append]
        generalize Leaf.allDiffer v.shape _ = b
        cases b with
        | error e => exact ⟨fun ⟨_, h⟩ => (by cases h), fun h => (by cases h)⟩
        | ok b => cases b <;> simp [py_ok_bind]
    rw [hset]
    unfold Leaf.allDiffer
    by_cases hlen : v.shape.length = (s ++ [n, n]).length
    · rw [if_pos hlen]
      have hl2 : v.shape.length = s.length + 2 := by simpa using hlen
      have one : ¬ ∃ k ∈ s ++ [n, n], v.shape = [k] := by
        rintro ⟨k, -, hk⟩
        rw [hk] at hl2
        simp at hl2
      simp only [Except.ok.injEq, decide_eq_false_iff_not, not_forall, ne_eq, not_not, hl2, true_and, one, or_false]
      constructor
      · rintro ⟨p, hp, he⟩
        obtain ⟨i, hi, hpi⟩ := List.mem_iff_getElem.mp hp
        have hi' : i < s.length + 2 := by simpa [hl2] using hi
        refine ⟨i, hi', ?_⟩
        rw [List.getElem_zip] at hpi
        rw [List.getElem?_eq_getElem (by omega), List.getElem?_eq_getElem (by simpa using hi')]
        rw [← hpi] at he
        exact congrArg some he
      · rintro ⟨i, hi, he⟩
        rw [List.getElem?_eq_getElem (by omega), List.getElem?_eq_getElem (by simpa using hi)] at he
        refine ⟨(v.shape[i]'(by omega), (s ++ [n, n])[i]'(by simpa using hi)), ?_, Option.some.inj he⟩
        exact List.mem_iff_getElem.mpr ⟨i, by simp; omega, by rw [List.getElem_zip]⟩
    · rw [if_neg hlen]
      have hl2 : ¬ v.shape.length = s.length + 2 := by simpa using hlen
      simp only [hl2, false_and, false_or]
      split
      · rename_i k hk
        rw [hk]
        simp [eq_comm]
      · rename_i hk
        simp only [reduceCtorEq, false_iff]
        rintro ⟨k, -, h⟩
        exact hk k h

end LRVB
