import Verif.Lemmas.Dict6

/-!
# C33-C38: sizes, round trips and index ranges of parameter dictionaries
-/

namespace LRVB

open Flt

/-! A dictionary holding a positive scalar and a nested dictionary holding a vector. -/

/-- `ScalarParam('a', lb=0, val=1)` -/
def exScalar : Leaf := ⟨"a", .scalar (fin 0) pinf, Arr.scalar 1, false⟩
/-- `VectorParam('v', size=2, val=[0, 1])` -/
def exVector : Leaf := ⟨"v", .vector 2 ninf pinf, Arr.vec [0, 1], false⟩
/-- the nested dictionary -/
def exSub : Param := (Param.emptyDict "s").push (.leaf exVector)
/-- the dictionary -/
def exDict : Param := ((Param.emptyDict "d").push (.leaf exScalar)).push exSub

theorem exScalar_built (eigh : Eigh) : Built eigh (.leaf exScalar) :=
  .leaf ⟨exScalar, [], .scalar (name := "a") (lb := fin 0) (ub := pinf) (val := some (Arr.scalar 1))
    (by simp [mkScalar, checkBoundsScalar, Leaf.set, exScalar]), rfl⟩ trivial

theorem exVector_built (eigh : Eigh) : Built eigh (.leaf exVector) :=
  .leaf ⟨exVector, [], .vector (name := "v") (n := 2) (lb := ninf) (ub := pinf)
    (val := some (Arr.vec [0, 1]))
    (by simp [mkVector, checkBoundsVector, Leaf.set, exVector, Arr.size, Arr.vec]), rfl⟩ trivial

theorem exSub_built (eigh : Eigh) : Built eigh exSub :=
  .push (.empty _) (exVector_built eigh) trivial trivial (by simp [Param.keys, Param.items, Param.emptyDict, Entries.toList])

theorem exDict_built (eigh : Eigh) : Built eigh exDict :=
  .push (.push (.empty _) (exScalar_built eigh) trivial trivial
      (by simp [Param.keys, Param.items, Param.emptyDict, Entries.toList]))
    (exSub_built eigh) trivial (by simp [exSub, Param.emptyDict, Param.push, Param.HasParams, Entries.assign])
    (by simp [Param.keys, Param.items, Param.emptyDict, Param.push, Entries.toList, Entries.assign, exSub,
      Param.name, exScalar])

theorem exDict_hasParams : exDict.HasParams := by
  simp [exDict, Param.emptyDict, Param.push, Param.HasParams, Entries.assign, Param.name, exScalar,
    exSub]

theorem exDict_isDict : exDict.IsDict := trivial

theorem exDict_freeSize : exDict.freeSize = 3 := by
  simp [exDict, exSub, Param.emptyDict, Param.push, Param.freeSize, Leaf.freeSize, exScalar,
    exVector, Kind.freeSize]

theorem exDict_vecSize : exDict.vecSize = 3 := by
  simp [exDict, exSub, Param.emptyDict, Param.push, Param.vecSize, Leaf.vecSize, exScalar,
    exVector, Kind.vecSize]

theorem exDict_proper : exDict.Proper := by
  simp [exDict, exSub, Param.emptyDict, Param.push, Param.Proper, Entries.Proper, Entries.assign,
    Param.name, exScalar, exVector, Leaf.Proper, Arr.WF, Arr.size, Arr.scalar, Arr.vec, Kind.shapeOf]

/-! ### C33 -/

/-- **C33** (sizes) A dictionary built by pushing parameters with distinct names, whatever was
called on it and its parameters in between, reports the sums of the sizes of the parameters. -/
theorem C33_dictionary_sizes {eigh : Eigh} (he : EighContract eigh) (d : Param) (hb : Built eigh d)
    (hd : d.IsDict) :
    d.freeSize = (d.items.map fun kp => kp.2.freeSize).sum ∧
    d.vecSize = (d.items.map fun kp => kp.2.vecSize).sum := by
  have hw := hb.wf he
  cases d with
  | leaf l => exact hd.elim
  | dict h es =>
    simp only [Param.WF] at hw
    exact ⟨hw.2.2.1.trans es.fsum_items, hw.2.2.2.1.trans es.vsum_items⟩

/-- **C33** (lengths) `get_vector()` returns a vector of length `vector_size()`, and what
`get_free()` returns has length `free_size()`, at all values of the declared shapes.  (Values
outside the bounds have no free representation; then `get_free()` does not return one.) -/
theorem C33_lengths {eigh : Eigh} (he : EighContract eigh) (d : Param) (hb : Built eigh d)
    (hp : d.HasParams) (hv : d.Proper) :
    (∃ v, d.getVector = .ok v ∧ v.length = d.vecSize) ∧
    ∀ x, d.getFree = .ok x → x.length = d.freeSize :=
  ⟨d.getVector_proper (hb.wf he) hp hv, fun x h => d.getFree_length (hb.wf he) hv x h⟩

/-- A dictionary without parameters is the exception: both calls raise `ValueError`. -/
theorem C33_empty_dictionary (name : String) :
    (Param.emptyDict name).getFree = .error .valueError ∧
    (Param.emptyDict name).getVector = .error .valueError := by
  simp [Param.emptyDict, Param.getFree, Param.getVector, Param.getFreeEntries,
    Param.getVectorEntries, Arr.hstack, py_ok_bind]

example : ∃ (eigh : Eigh) (d : Param), EighContract eigh ∧ Built eigh d ∧ d.IsDict ∧ d.HasParams ∧
    d.Proper ∧ d.freeSize = 3 := by
  obtain ⟨eigh, he⟩ := exists_eigh
  exact ⟨eigh, exDict, he, exDict_built eigh, trivial, exDict_hasParams, exDict_proper,
    exDict_freeSize⟩

/-! ### C34 -/

/-- **C34** (free) -/
theorem C34_free_round_trip {eigh : Eigh} (he : EighContract eigh) (d : Param) (hb : Built eigh d)
    (hp : d.HasParams) (x : List ℝ) (hx : x.length = d.freeSize) :
    ∃ d', d.setFree x = (d', none) ∧ d'.getFree = .ok x :=
  ⟨_, d.setFree_ok (hb.wf he) x hx, d.getFree_freeP (hb.wf he) hp x hx⟩

/-- **C34** (vector) -/
theorem C34_vector_round_trip {eigh : Eigh} (he : EighContract eigh) (d : Param) (hb : Built eigh d)
    (hp : d.HasParams) (v : List ℝ) (hv : v.length = d.vecSize) :
    ∃ d', d.setVector v = (d', none) ∧ d'.getVector = .ok v :=
  ⟨_, d.setVector_ok (hb.wf he) v hv, d.getVector_vecP (hb.wf he) hp v hv⟩

/-- A vector of any other length is rejected and nothing is changed. -/
theorem C34_wrong_length (d : Param) (hd : d.IsDict) (x : List ℝ) :
    (x.length ≠ d.freeSize → d.setFree x = (d, some .valueError)) ∧
    (x.length ≠ d.vecSize → d.setVector x = (d, some .valueError)) := by
  cases d with
  | leaf l => exact hd.elim
  | dict h es =>
    constructor
    · intro hx
      simp only [Param.setFree]
      exact if_pos hx
    · intro hx
      simp only [Param.setVector]
      exact if_pos hx

example : ∃ (eigh : Eigh) (d : Param) (x : List ℝ), EighContract eigh ∧ Built eigh d ∧ d.HasParams ∧
    x.length = d.freeSize ∧ x.length = d.vecSize ∧ x ≠ [] := by
  obtain ⟨eigh, he⟩ := exists_eigh
  exact ⟨eigh, exDict, [1, 2, 3], he, exDict_built eigh, exDict_hasParams, by
    rw [exDict_freeSize]; rfl, by rw [exDict_vecSize]; rfl, by simp⟩

/-! ### C35 -/

/-- **C35** (partition) The recorded ranges belong to the keys in order, are consecutive from 0 to
the size, and so every index lies in exactly one of them. -/
theorem C35_ranges_tile {eigh : Eigh} (he : EighContract eigh) (d : Param) (hb : Built eigh d)
    (hd : d.IsDict) :
    d.freeIndices.map Prod.fst = d.keys ∧ Tiles 0 (d.freeIndices.map Prod.snd) d.freeSize ∧
    (∀ i < d.freeSize, ∃! kr, kr ∈ d.freeIndices ∧ kr.2.start ≤ i ∧ i < kr.2.stop) ∧
    d.vecIndices.map Prod.fst = d.keys ∧ Tiles 0 (d.vecIndices.map Prod.snd) d.vecSize ∧
    (∀ i < d.vecSize, ∃! kr, kr ∈ d.vecIndices ∧ kr.2.start ≤ i ∧ i < kr.2.stop) := by
  have hw := hb.wf he
  cases d with
  | leaf l => exact hd.elim
  | dict h es =>
    simp only [Param.WF] at hw
    obtain ⟨_, hn, h1, h2, h3, h4⟩ := hw
    simp only [Param.freeIndices, Param.vecIndices, Param.freeSize, Param.vecSize]
    have t1 := es.franges_tiles 0
    have t2 := es.vranges_tiles 0
    rw [Nat.zero_add] at t1 t2
    rw [h1, h2, h3, h4]
    refine ⟨es.franges_keys 0, t1, fun i hi => ?_, es.vranges_keys 0, t2, fun i hi => ?_⟩
    · exact Tiles.unique (by rw [es.franges_keys]; exact hn) t1 i (Nat.zero_le _) hi
    · exact Tiles.unique (by rw [es.vranges_keys]; exact hn) t2 i (Nat.zero_le _) hi

/-- **C35** (free slices) The part of `get_free()` at a key's range is that parameter's own
`get_free()`. -/
theorem C35_free_slices {eigh : Eigh} (he : EighContract eigh) (d : Param) (hb : Built eigh d)
    (hv : d.Proper) (x : List ℝ) (hx : d.getFree = .ok x) (key : String) (r : IdxRange)
    (hr : (key, r) ∈ d.freeIndices) :
    ∃ p, d.find key = some p ∧ r.stop = r.start + p.freeSize ∧
      p.getFree = .ok ((x.drop r.start).take p.freeSize) := by
  have hw := hb.wf he
  cases d with
  | leaf l => simp [Param.freeIndices] at hr
  | dict h es =>
    simp only [Param.WF] at hw
    simp only [Param.Proper] at hv
    obtain ⟨hw1, hn, _, _, h3, _⟩ := hw
    simp only [Param.freeIndices, h3] at hr
    simp only [Param.getFree] at hx
    obtain ⟨xs, hxs, hx⟩ := py_bind_ok hx
    rw [Param.hstack_inv hx]
    obtain ⟨q, hq, hs⟩ := Entries.floc_of_mem hn hr
    refine ⟨q, ?_, hs, ?_⟩
    · have := Entries.floc_find key es 0
      rw [hq] at this
      exact this.symm
    · exact Entries.getFreeEntries_slice hw1 hv hxs hq

/-- **C35** (vector slices) -/
theorem C35_vector_slices {eigh : Eigh} (he : EighContract eigh) (d : Param) (hb : Built eigh d)
    (hv : d.Proper) (x : List ℝ) (hx : d.getVector = .ok x) (key : String) (r : IdxRange)
    (hr : (key, r) ∈ d.vecIndices) :
    ∃ p, d.find key = some p ∧ r.stop = r.start + p.vecSize ∧
      p.getVector = .ok ((x.drop r.start).take p.vecSize) := by
  have hw := hb.wf he
  cases d with
  | leaf l => simp [Param.vecIndices] at hr
  | dict h es =>
    simp only [Param.WF] at hw
    simp only [Param.Proper] at hv
    obtain ⟨hw1, hn, _, _, _, h3⟩ := hw
    simp only [Param.vecIndices, h3] at hr
    simp only [Param.getVector] at hx
    obtain ⟨xs, hxs, hx⟩ := py_bind_ok hx
    rw [Param.hstack_inv hx]
    obtain ⟨q, hq, hs⟩ := Entries.vloc_of_mem hn hr
    refine ⟨q, ?_, hs, ?_⟩
    · have := Entries.vloc_find key es 0
      rw [hq] at this
      exact this.symm
    · exact Entries.getVectorEntries_slice hw1 hv hxs hq

/-- The example dictionary records the ranges `a: 0..1` and `s: 1..3`, and has a free vector. -/
example : exDict.freeIndices = [("a", ⟨0, 1⟩), ("s", ⟨1, 3⟩)] ∧
    exDict.vecIndices = [("a", ⟨0, 1⟩), ("s", ⟨1, 3⟩)] := by
  simp [exDict, exSub, Param.emptyDict, Param.push, Param.freeIndices, Param.vecIndices, assign,
    Param.name, exScalar, exVector, Param.freeSize, Param.vecSize, Leaf.freeSize, Leaf.vecSize,
    Kind.freeSize, Kind.vecSize]

/-! ### C36 -/

/-- **C36** (free) -/
theorem C36_free_noninterference {eigh : Eigh} (he : EighContract eigh) (d : Param)
    (hb : Built eigh d) (x y : List ℝ) (hx : x.length = d.freeSize) (hy : y.length = d.freeSize)
    (key : String) (r : IdxRange) (hr : (key, r) ∈ d.freeIndices)
    (hxy : ∀ i, i < r.start ∨ r.stop ≤ i → x[i]? = y[i]?) :
    ∃ dx dy, d.setFree x = (dx, none) ∧ d.setFree y = (dy, none) ∧
      ∀ k', k' ≠ key → dx.find k' = dy.find k' := by
  have hw := hb.wf he
  refine ⟨_, _, d.setFree_ok hw x hx, d.setFree_ok hw y hy, ?_⟩
  intro k' hk
  cases d with
  | leaf l => rfl
  | dict h es =>
    simp only [Param.WF] at hw
    obtain ⟨hw1, hn, _, _, h3, _⟩ := hw
    simp only [Param.freeIndices, h3] at hr
    obtain ⟨q, hq, hs⟩ := Entries.floc_of_mem hn hr
    simp only [Param.freeP, Param.find]
    have e1 := Entries.find_freeE k' es x 0
    have e2 := Entries.find_freeE k' es y 0
    rw [List.drop_zero] at e1 e2
    rw [e1, e2]
    cases hl : es.floc k' 0 with
    | none => rfl
    | some q' =>
      simp only [Option.map_some]
      have hd := Entries.floc_disjoint hk hl hq
      rw [slice_congr (hx.trans hy.symm) (fun i h1 h2 => hxy i (by simp only at hd; omega))]

/-- **C36** (vector) -/
theorem C36_vector_noninterference {eigh : Eigh} (he : EighContract eigh) (d : Param)
    (hb : Built eigh d) (x y : List ℝ) (hx : x.length = d.vecSize) (hy : y.length = d.vecSize)
    (key : String) (r : IdxRange) (hr : (key, r) ∈ d.vecIndices)
    (hxy : ∀ i, i < r.start ∨ r.stop ≤ i → x[i]? = y[i]?) :
    ∃ dx dy, d.setVector x = (dx, none) ∧ d.setVector y = (dy, none) ∧
      ∀ k', k' ≠ key → dx.find k' = dy.find k' := by
  have hw := hb.wf he
  refine ⟨_, _, d.setVector_ok hw x hx, d.setVector_ok hw y hy, ?_⟩
  intro k' hk
  cases d with
  | leaf l => rfl
  | dict h es =>
    simp only [Param.WF] at hw
    obtain ⟨hw1, hn, _, _, _, h3⟩ := hw
    simp only [Param.vecIndices, h3] at hr
    obtain ⟨q, hq, hs⟩ := Entries.vloc_of_mem hn hr
    simp only [Param.vecP, Param.find]
    have e1 := Entries.find_vecE k' es x 0
    have e2 := Entries.find_vecE k' es y 0
    rw [List.drop_zero] at e1 e2
    rw [e1, e2]
    cases hl : es.vloc k' 0 with
    | none => rfl
    | some q' =>
      simp only [Option.map_some]
      have hd := Entries.vloc_disjoint hk hl hq
      rw [slice_congr (hx.trans hy.symm) (fun i h1 h2 => hxy i (by simp only at hd; omega))]

/-- Two different vectors that agree outside the range of `a`. -/
example : ∃ x y : List ℝ, x.length = exDict.freeSize ∧ y.length = exDict.freeSize ∧ x ≠ y ∧
    ("a", (⟨0, 1⟩ : IdxRange)) ∈ exDict.freeIndices ∧ ∀ i, i < 0 ∨ 1 ≤ i → x[i]? = y[i]? := by
  refine ⟨[1, 2, 3], [4, 2, 3], by rw [exDict_freeSize]; rfl, by rw [exDict_freeSize]; rfl,
    by norm_num, ?_, ?_⟩
  · simp [exDict, exSub, Param.emptyDict, Param.push, Param.freeIndices, assign,
      Param.name, exScalar, exVector, Param.freeSize, Leaf.freeSize, Kind.freeSize]
  · intro i hi
    obtain ⟨j, rfl⟩ : ∃ j, i = j + 1 := ⟨i - 1, by omega⟩
    simp

/-! ### C37 -/

/-- **C37** fails: pushing a parameter under a name in use replaces the old one, but the sizes keep
counting it.  Whenever the replaced parameter has a nonempty free vector, `set_free(get_free())`
raises `ValueError`. -/
theorem C37_duplicate_name_counterexample {eigh : Eigh} (he : EighContract eigh) (d p q : Param)
    (hd : Built eigh d) (hp : Built eigh p) (hpp : p.HasParams)
    (hq : d.find p.name = some q) (hs : 0 < q.freeSize) :
    (d.push p).freeSize = ((d.push p).items.map fun kp => kp.2.freeSize).sum + q.freeSize ∧
    ∀ x, (d.push p).Proper → (d.push p).getFree = .ok x →
      (d.push p).setFree x = (d.push p, some .valueError) := by
  have hw := hd.wf he
  have hwp := hp.wf he
  cases d with
  | leaf l => simp [Param.find] at hq
  | dict h es =>
    simp only [Param.WF] at hw
    simp only [Param.find] at hq
    have hsum := Entries.fsum_assign (p := p) hq
    have h1 : (h.fs + p.freeSize) = (es.assign p.name p).fsum + q.freeSize := by
      rw [hw.2.2.1]; omega
    simp only [Param.push, Param.items]
    constructor
    · rw [← Entries.fsum_items]; exact h1
    · intro x hv hx
      simp only [Param.Proper] at hv
      simp only [Param.getFree] at hx
      obtain ⟨xs, hxs, hx⟩ := py_bind_ok hx
      have hl := Param.getFreeEntries_length _ (Entries.wf_assign hwp hpp hw.1) hv xs hxs
      rw [← Param.hstack_inv hx] at hl
      simp only [Param.setFree]
      rw [if_pos (by omega)]

/-- **C37**, the part that holds: a push under a name not in use keeps everything consistent
(sizes, and with `C34`-`C36` the round trips and index ranges).  Missing: repeated names, for which
`C37_duplicate_name_counterexample` shows the opposite. -/
theorem C37_new_name_partial {eigh : Eigh} (he : EighContract eigh) (d p : Param)
    (hd : Built eigh d) (hdd : d.IsDict) (hp : Built eigh p) (hpp : p.HasParams)
    (hn : p.name ∉ d.keys) :
    Built eigh (d.push p) ∧
    (d.push p).freeSize = ((d.push p).items.map fun kp => kp.2.freeSize).sum ∧
    (∀ x, x.length = (d.push p).freeSize → ∃ d', (d.push p).setFree x = (d', none) ∧
      d'.getFree = .ok x) := by
  have hb : Built eigh (d.push p) := .push hd hp hdd hpp hn
  refine ⟨hb, (C33_dictionary_sizes he _ hb ?_).1, fun x hx => C34_free_round_trip he _ hb ?_ x hx⟩
  · cases d with
    | leaf l => exact hdd
    | dict h es => trivial
  · cases d with
    | leaf l => trivial
    | dict h es =>
      simp only [Param.push, Param.HasParams]
      cases es <;> simp only [Entries.assign]
      · simp
      · split <;> simp

/-- The scalar `a` pushed a second time: `free_size()` is now 4 but three numbers are held. -/
example : ∃ (eigh : Eigh) (q : Param), EighContract eigh ∧ Built eigh exDict ∧
    Built eigh (.leaf exScalar) ∧ exDict.find (Param.leaf exScalar).name = some q ∧
    0 < q.freeSize := by
  obtain ⟨eigh, he⟩ := exists_eigh
  refine ⟨eigh, .leaf exScalar, he, exDict_built eigh, exScalar_built eigh, ?_, ?_⟩
  · simp [exDict, exSub, Param.emptyDict, Param.push, Param.find, Entries.assign, Entries.find,
      Param.name, exScalar]
  · simp [Param.freeSize, Leaf.freeSize, exScalar, Kind.freeSize]

/-! ### C38 -/

/-- **C38** fails: when a parameter is pushed into a dictionary that was itself pushed into a
parent, the parent keeps its old sizes, and `set_free(get_free())` on the parent raises
`ValueError`. -/
theorem C38_nested_extension_counterexample {eigh : Eigh} (he : EighContract eigh) (d c p : Param)
    (hd : Built eigh d) (hp : Built eigh p) (hpp : p.HasParams) (hs : 0 < p.freeSize)
    (key : String) (hc : d.find key = some c) (hcd : c.IsDict) (hn : p.name ∉ c.keys) :
    ∃ d', d.pushInto key p = (d', none) ∧ d'.find key = some (c.push p) ∧
      d'.freeSize = d.freeSize ∧
      ∀ x, d'.Proper → d'.getFree = .ok x → d'.setFree x = (d', some .valueError) := by
  have hw := hd.wf he
  have hwp := hp.wf he
  cases d with
  | leaf l => simp [Param.find] at hc
  | dict h es =>
  cases c with
  | leaf l => exact hcd.elim
  | dict hc' esc =>
    simp only [Param.WF] at hw
    simp only [Param.find] at hc
    have e := Param.onEntry_find_eq (f := Param.pushCall p) hc
    have hsum := Param.onEntry_fsum (f := Param.pushCall p) hc
    have hwf := Param.onEntry_wf (f := Param.pushCall p)
      (fun h1 _ => ⟨Param.push_wf h1 hwp hpp hn, Param.hasParams_push p⟩) hc hw.1
    refine ⟨_, Prod.ext rfl e.2, e.1, rfl, ?_⟩
    intro x hv hx
    simp only [Param.pushInto, Param.Proper] at hv
    simp only [Param.pushInto, Param.getFree] at hx
    obtain ⟨xs, hxs, hx⟩ := py_bind_ok hx
    have hl := Param.getFreeEntries_length _ hwf hv xs hxs
    rw [← Param.hstack_inv hx] at hl
    simp only [Param.pushCall, Param.freeSize_push] at hsum
    simp only [Param.pushInto, Param.setFree]
    rw [if_pos]
    rw [hl, hw.2.2.1]
    omega

/-- **C38**, the part that holds: reading the parent still returns everything (all numbers of the
extended child included), and every other entry is the same object as before.  Missing: sizes and
writing, for which `C38_nested_extension_counterexample` shows the opposite.  (Extending the child
before it is pushed is covered by `C33`-`C36`.) -/
theorem C38_reading_partial {eigh : Eigh} (he : EighContract eigh) (d c p : Param)
    (hd : Built eigh d) (hp : Built eigh p) (hpp : p.HasParams)
    (key : String) (hc : d.find key = some c) (hcd : c.IsDict) (hn : p.name ∉ c.keys) :
    ∃ d', d.pushInto key p = (d', none) ∧ (∀ k', k' ≠ key → d'.find k' = d.find k') ∧
      (d'.Proper → ∃ v, d'.getVector = .ok v ∧ v.length = d.vecSize + p.vecSize) := by
  have hw := hd.wf he
  have hwp := hp.wf he
  cases d with
  | leaf l => simp [Param.find] at hc
  | dict h es =>
  cases c with
  | leaf l => exact hcd.elim
  | dict hc' esc =>
    simp only [Param.WF] at hw
    simp only [Param.find] at hc
    have e := Param.onEntry_find_eq (f := Param.pushCall p) hc
    have hsum := Param.onEntry_vsum (f := Param.pushCall p) hc
    have hwf := Param.onEntry_wf (f := Param.pushCall p)
      (fun h1 _ => ⟨Param.push_wf h1 hwp hpp hn, Param.hasParams_push p⟩) hc hw.1
    refine ⟨_, Prod.ext rfl e.2, fun k' hk => Param.onEntry_find_ne hk es, ?_⟩
    intro hv
    simp only [Param.pushInto, Param.Proper] at hv
    obtain ⟨xs, h1, h2, h3⟩ := Param.getVectorEntries_proper _ hwf hv
    refine ⟨xs.flatten, ?_, ?_⟩
    · simp only [Param.pushInto, Param.getVector]
      rw [h1, py_ok_bind]
      apply Param.hstack_entries _ h3
      intro h0
      rw [h0] at e
      simp [Entries.find] at e
    · simp only [Param.pushCall, Param.vecSize_push] at hsum
      rw [h2]
      simp only [Param.vecSize] at hsum ⊢
      rw [hw.2.2.2.1]
      omega

/-- The nested dictionary `s` of the example dictionary can be extended by the scalar. -/
example : ∃ (eigh : Eigh) (c : Param), EighContract eigh ∧ Built eigh exDict ∧
    Built eigh (.leaf exScalar) ∧ exDict.find "s" = some c ∧ c.IsDict ∧
    (Param.leaf exScalar).name ∉ c.keys ∧ 0 < (Param.leaf exScalar).freeSize := by
  obtain ⟨eigh, he⟩ := exists_eigh
  refine ⟨eigh, exSub, he, exDict_built eigh, exScalar_built eigh, ?_, trivial, ?_, ?_⟩
  · simp [exDict, exSub, Param.emptyDict, Param.push, Param.find, Entries.assign, Entries.find,
      Param.name, exScalar]
  · simp [exSub, Param.keys, Param.items, Param.emptyDict, Param.push, Entries.assign,
      Entries.toList, Param.name, exScalar, exVector]
  · simp [Param.freeSize, Leaf.freeSize, exScalar, Kind.freeSize]

end LRVB
