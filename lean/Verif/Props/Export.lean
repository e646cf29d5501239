import Verif.Spec.Export
import Verif.Props.DictDeriv
import Verif.Lemmas.NdArr

/-!
# Exported values: C93, C94
-/

namespace LRVB

open Classical

noncomputable section

/-! ### Nested lists -/

theorem isNested_tolist : ∀ (s : List ℕ) (data : List ℝ) (a : List ℕ → ℝ),
    (∀ idx, List.Forall₂ (· < ·) idx s → a idx = data.getD (Arr.flat idx s) 0) →
    (tolist s data).IsNested s a
  | [], data, a, h => by
    simp only [tolist, PyVal.IsNested]
    rw [h [] .nil]
    rfl
  | n :: s, data, a, h => by
    refine ⟨_, rfl, by simp, fun i w hw => ?_⟩
    simp only [List.getElem?_map, Option.map_eq_some_iff, List.getElem?_eq_some_iff] at hw
    obtain ⟨j, ⟨hj, hj'⟩, rfl⟩ := hw
    simp only [List.getElem_range] at hj'
    subst hj'
    simp only [List.length_range] at hj
    refine isNested_tolist s _ _ fun idx hi => ?_
    rw [h (i :: idx) (.cons hj hi)]
    have := Arr.flat_lt hi
    simp only [List.getD_eq_getElem?_getD, List.getElem?_take, List.getElem?_drop, this, if_true]
    rfl

/-! ### Dictionaries -/

theorem lookup_append_left {l m : List (String × PyVal)} {k : String} (h : k ∉ l.map Prod.fst) :
    (l ++ m).lookup k = m.lookup k := by
  induction l with
  | nil => rfl
  | cons a l ih =>
    simp only [List.map_cons, List.mem_cons, not_or] at h
    rw [List.cons_append, List.lookup_cons, beq_eq_false_iff_ne.2 h.1]
    exact ih h.2

mutual
theorem Param.dictval_ok : ∀ p : Param, p.WF → p.Plain → p.NamesAreKeys → ∃ v, p.dictval = .ok v
  | .leaf l, _, hp, _ => ⟨_, by
      simp only [Param.Plain] at hp
      simp only [Param.dictval, Leaf.dictval, hp]
      rfl⟩
  | .dict h es, hw, hp, hn => by
    obtain ⟨items, h1, -⟩ := Entries.dictval_ok es [] hw.1 hw.2.1 (by simp) hp hn
    exact ⟨.dict ([] ++ items), by rw [Param.dictval, h1]; rfl⟩
theorem Entries.dictval_ok : ∀ (es : Entries) (res : List (String × PyVal)), es.WF → es.keys.Nodup →
    (∀ k ∈ es.keys, k ∉ res.map Prod.fst) → es.Plain → es.NamesAreKeys →
    ∃ items, es.dictval res = .ok (res ++ items) ∧ items.map Prod.fst = es.keys ∧
      ∀ k, match es.find k with
        | some q => ∃ w, q.dictval = .ok w ∧ items.lookup k = some w
        | none => items.lookup k = none
  | .nil, res, _, _, _, _, _ => ⟨[], by simp [Entries.dictval], rfl, fun k => rfl⟩
  | .cons k p rest, res, hw, hd, hr, hp, hn => by
    obtain ⟨v, hv⟩ := Param.dictval_ok p hw.1 hp.1 hn.2.1
    rw [Entries.keys_cons] at hd hr
    have hk : k ∉ rest.keys := (List.nodup_cons.1 hd).1
    obtain ⟨items, h1, h2, h3⟩ := Entries.dictval_ok rest (res ++ [(k, v)]) hw.2.2
      (List.nodup_cons.1 hd).2 (fun j hj => by
        have := hr j (List.mem_cons_of_mem _ hj)
        simp only [List.map_append, List.map_cons, List.map_nil, List.mem_append, List.mem_singleton,
          not_or]
        exact ⟨this, fun e => hk (e ▸ hj)⟩) hp.2 hn.2.2
    refine ⟨(k, v) :: items, ?_, by rw [Entries.keys_cons, List.map_cons, h2], fun j => ?_⟩
    · rw [Entries.dictval, hv, py_ok_bind]
      beta_reduce
      rw [hn.1, assign_new (hr k (by simp)), h1, List.append_assoc]
      rfl
    · simp only [Entries.find]
      by_cases hj : k = j
      · subst hj
        simp only [if_true]
        exact ⟨v, hv, by simp⟩
      · rw [if_neg hj, List.lookup_cons, beq_eq_false_iff_ne.2 (Ne.symm hj)]
        exact h3 j
end

theorem Entries.find_good : ∀ (es : Entries) (k : String) (q : Param), es.find k = some q →
    es.WF → es.Plain → es.NamesAreKeys → q.WF ∧ q.Plain ∧ q.NamesAreKeys
  | .nil, _, _, h, _, _, _ => by simp [Entries.find] at h
  | .cons k p rest, j, q, h, hw, hp, hn => by
    simp only [Entries.find] at h
    by_cases hj : k = j
    · rw [if_pos hj] at h
      cases h
      exact ⟨hw.1, hp.1, hn.2.1⟩
    · rw [if_neg hj] at h
      exact Entries.find_good rest j q h hw.2.2 hp.2 hn.2.2

theorem dictval_sub : ∀ (path : List String) (p : Param) (v : PyVal), p.WF → p.Plain →
    p.NamesAreKeys → p.dictval = .ok v →
    match p.sub path with
    | none => v.sub path = none
    | some (.leaf l) => ∃ w, v.sub path = some w ∧ w.IsNested l.get.shape l.get.get
    | some (.dict h es) => ∃ w, v.sub path = some w ∧ w.keys = (Param.dict h es).keys
  | [], p, v, hw, hp, hn, hv => by
    cases p with
    | leaf l =>
      simp only [Param.Plain] at hp
      simp only [Param.dictval, Leaf.dictval, hp] at hv
      cases hv
      exact ⟨_, rfl, isNested_tolist _ _ _ fun idx _ => rfl⟩
    | dict h es =>
      obtain ⟨items, h1, h2, -⟩ := Entries.dictval_ok es [] hw.1 hw.2.1 (by simp) hp hn
      rw [Param.dictval, h1] at hv
      cases hv
      exact ⟨_, rfl, h2⟩
  | k :: ks, p, v, hw, hp, hn, hv => by
    cases p with
    | leaf l =>
      simp only [Param.Plain] at hp
      simp only [Param.dictval, Leaf.dictval, hp] at hv
      cases hv
      simp only [Param.sub, Param.find]
      cases hs : l.val.shape <;> rfl
    | dict h es =>
      obtain ⟨items, h1, -, h3⟩ := Entries.dictval_ok es [] hw.1 hw.2.1 (by simp) hp hn
      rw [Param.dictval, h1] at hv
      cases hv
      simp only [Param.sub, Param.find, PyVal.sub, PyVal.item, List.nil_append]
      have h4 := h3 k
      cases hf : es.find k with
      | none =>
        rw [hf] at h4
        simp only at h4 ⊢
        rw [h4]
      | some q =>
        rw [hf] at h4
        obtain ⟨w, h5, h6⟩ := h4
        simp only [h6]
        obtain ⟨g1, g2, g3⟩ := Entries.find_good es k q hf hw.1 hp hn
        exact dictval_sub ks q w g1 g2 g3 h5

/-- **C93** For a dictionary (or parameter) built by pushing parameters under distinct names and
calling any methods, none of whose entries was renamed after it was pushed and none of which holds a
differentiation placeholder, `dictval()` succeeds and returns the same tree: following a path of keys
in the result and in the object leads to nothing in both, to a dictionary with the same keys in the
same order, or to the nested lists of the value `get()` returns. -/
theorem C93_dictval_partial {eigh : Eigh} (he : EighContract eigh) (d : Param) (hb : Built eigh d)
    (hp : d.Plain) (hn : d.NamesAreKeys) :
    ∃ v, d.dictval = .ok v ∧ ∀ path : List String,
      match d.sub path with
      | none => v.sub path = none
      | some (.leaf l) => ∃ w, v.sub path = some w ∧ w.IsNested l.get.shape l.get.get
      | some (.dict h es) => ∃ w, v.sub path = some w ∧ w.keys = (Param.dict h es).keys := by
  obtain ⟨v, hv⟩ := Param.dictval_ok d (hb.wf he) hp hn
  exact ⟨v, hv, fun path => dictval_sub path d v (hb.wf he) hp hn hv⟩

theorem exDict_plain : exDict.Plain := by
  simp [exDict, exSub, Param.emptyDict, Param.push, Param.Plain, Entries.Plain, Entries.assign,
    Param.name, exScalar, exVector]

/-- The example dictionary, after any call of `set_free` that does not raise: the hypotheses of
`C93_dictval_partial`. -/
example : ∃ (eigh : Eigh), EighContract eigh ∧ Built eigh exDict ∧ exDict.Plain ∧
    exDict.NamesAreKeys ∧ ∃ l, exDict.sub ["s", "v"] = some (.leaf l) := by
  obtain ⟨eigh, he⟩ := exists_eigh
  refine ⟨eigh, he, exDict_built eigh, exDict_plain, ?_, ?_⟩
  · simp [exDict, exSub, Param.emptyDict, Param.push, Param.NamesAreKeys, Entries.NamesAreKeys,
      Entries.assign, Param.name, exScalar, exVector]
  · simp [exDict, exSub, Param.emptyDict, Param.push, Param.sub, Param.find, Entries.find,
      Entries.assign, Param.name, exScalar, exVector]

/-- **C93** fails for a parameter renamed to a name in use: `dictval()` uses the current names and
keeps only the last of the entries with one name. -/
theorem C93_renamed_counterexample :
    ∃ (d d' : Param) (v : PyVal), (∀ eigh, Built eigh d) ∧ d.Plain ∧ d.keys = ["a", "s"] ∧
      d.step (.child "s" (.setName "a")) = (d', none) ∧ d'.keys = ["a", "s"] ∧
      d'.dictval = .ok v ∧ v.keys = ["a"] := by
  obtain ⟨h, hh⟩ : ∃ h, exDict.step (.child "s" (.setName "a")) =
      (.dict h (.cons "a" (.leaf exScalar) (.cons "s" (exSub.setName "a") .nil)), none) :=
    ⟨⟨"d", [("a", ⟨0, 1⟩), ("s", ⟨1, 3⟩)], [("a", ⟨0, 1⟩), ("s", ⟨1, 3⟩)], 3, 3⟩, by
      simp [exDict, exSub, Param.emptyDict, Param.push, Param.step, Param.onEntry, Param.setName,
        Entries.assign, Param.name, exScalar, exVector, assign, Param.freeSize, Param.vecSize,
        Leaf.freeSize, Leaf.vecSize, Kind.freeSize, Kind.vecSize]⟩
  refine ⟨exDict, _, .dict [("a", .dict [("v", .list [.num 0, .num 1])])], exDict_built, exDict_plain,
    ?_, hh, rfl, ?_, rfl⟩
  · simp [exDict, exSub, Param.emptyDict, Param.push, Param.keys, Param.items, Entries.toList,
      Entries.assign, Param.name, exScalar, exVector]
  · simp only [Param.dictval, Entries.dictval, Leaf.dictval, Param.name, exScalar, exSub, exVector,
      Param.emptyDict, Param.push, Param.setName, Entries.assign, py_ok_bind, assign]
    simp [Arr.vec, tolist, List.range_succ]

/-- **C93** fails after differentiating: `dictval()` of a scalar parameter raises once
`free_to_vector_jac` was called. -/
theorem C93_placeholder_counterexample {eigh : Eigh} (he : EighContract eigh) (l : Leaf)
    (h : Reachable eigh l) (lb ub : Flt) (hk : l.kind = .scalar lb ub) (x : List ℝ)
    (hx : x.length = 1) :
    ∃ p' J, (Param.leaf l).jac x = (p', .ok J) ∧ p'.dictval = .error .attributeError := by
  obtain ⟨p', J, h1, h2⟩ := C42_scalar_counterexample he l h lb ub hk x hx
  refine ⟨p', J, h1, ?_⟩
  have h3 := Param.jac_erase (.leaf l) x
  rw [h1] at h3
  cases p' with
  | leaf l' =>
    simp only [Param.Plain, Bool.not_eq_false] at h2
    simp [Param.dictval, Leaf.dictval, h2]
  | dict hd es => simp [Param.erase] at h3

/-! ### Names -/

mutual
theorem Param.names_ok : ∀ p : Param, p.WF → p.HasParams → p.Labelled →
    ∃ ns, p.names = .ok ns ∧ ns.length = p.vecSize
  | .leaf l, _, _, hl => by
    refine ⟨l.names, rfl, ?_⟩
    simp only [Param.Labelled] at hl
    unfold Leaf.names Param.vecSize Leaf.vecSize Kind.vecSize
    cases hk : l.kind <;> simp_all
  | .dict h .nil, _, hp, _ => (hp rfl).elim
  | .dict h (.cons k p rest), hw, _, hl => by
    obtain ⟨ns, h1, h2, -⟩ := Entries.names_ok (.cons k p rest) 0 hw.1 hl
    exact ⟨ns, h1, by rw [h2]; exact hw.2.2.2.1.symm⟩
theorem Entries.names_ok : ∀ (es : Entries) (off : ℕ), es.WF → es.Labelled →
    ∃ ns, es.names = .ok ns ∧ ns.length = es.vsum ∧
      ∀ key r, (key, r) ∈ es.vranges off → off ≤ r.start ∧ ∃ q ∈ es.toList.map Prod.snd,
        (key, q) ∈ es.toList ∧ r.stop - r.start = q.vecSize ∧
        q.names = .ok ((ns.drop (r.start - off)).take (r.stop - r.start))
  | .nil, _, _, _ => ⟨[], rfl, rfl, by simp [Entries.vranges]⟩
  | .cons k p rest, off, hw, hl => by
    obtain ⟨ns, h1, h2⟩ := Param.names_ok p hw.1 hw.2.1 hl.1
    obtain ⟨ms, h3, h4, h5⟩ := Entries.names_ok rest (off + p.vecSize) hw.2.2 hl.2
    refine ⟨ns ++ ms, by rw [Entries.names, h1, py_ok_bind, h3]; rfl, by
      rw [List.length_append, h2, h4]; rfl, fun key r hr => ?_⟩
    simp only [Entries.vranges, List.mem_cons, Prod.mk.injEq] at hr
    rcases hr with ⟨rfl, rfl⟩ | hr
    · refine ⟨le_rfl, p, by simp [Entries.toList], by simp [Entries.toList], by simp, ?_⟩
      rw [h1]
      simp [← h2]
    · obtain ⟨g1, q, g2, g3, g4, g5⟩ := h5 key r hr
      refine ⟨by omega, q, by simp only [Entries.toList, List.map_cons, List.mem_cons]; exact .inr g2,
        by simp only [Entries.toList, List.mem_cons]; exact .inr g3, g4, ?_⟩
      rw [g5]
      have : r.start - off = ns.length + (r.start - (off + p.vecSize)) := by omega
      rw [this, List.drop_length_add_append]
end

/-- **C94** For a dictionary whose parameters, at all depths, are scalars, vectors and vectors in a
subspace, `names()` returns as many names as `get_vector()` has entries, and the names at the recorded
range of a key are the names of the parameter with that key. -/
theorem C94_names_partial {eigh : Eigh} (he : EighContract eigh) (d : Param) (hb : Built eigh d)
    (hp : d.HasParams) (hl : d.Labelled) :
    ∃ ns, d.names = .ok ns ∧ ns.length = d.vecSize ∧
      ∀ key r, (key, r) ∈ d.vecIndices → ∃ q, (key, q) ∈ d.items ∧
        q.names = .ok ((ns.drop r.start).take (r.stop - r.start)) := by
  have hw := hb.wf he
  match d, hw, hp, hl with
  | .leaf l, hw, hp, hl =>
    obtain ⟨ns, h1, h2⟩ := Param.names_ok (.leaf l) hw hp hl
    exact ⟨ns, h1, h2, by simp [Param.vecIndices]⟩
  | .dict h .nil, _, hp, _ => exact (hp rfl).elim
  | .dict h (.cons k p rest), hw, _, hl =>
    obtain ⟨ns, h1, h2, h3⟩ := Entries.names_ok (.cons k p rest) 0 hw.1 hl
    refine ⟨ns, h1, by rw [h2]; exact hw.2.2.2.1.symm, fun key r hr => ?_⟩
    simp only [Param.vecIndices] at hr
    rw [hw.2.2.2.2.2] at hr
    obtain ⟨-, q, -, g1, -, g2⟩ := h3 key r hr
    exact ⟨q, g1, by simpa using g2⟩

/-- **C94** The names of one scalar, vector or subspace vector are its name, or its name with the
position of the entry, and they are distinct. -/
theorem C94_vector_names (l : Leaf) :
    (∀ n lb ub, l.kind = .vector n lb ub ∨ (∃ f B, l.kind = .subspace n f B) →
      l.names.length = n ∧ ∀ k < n, l.names[k]? = some (l.name ++ "_" ++ toString k)) ∧
    l.names.Nodup := by
  have hinj : Function.Injective fun k : ℕ => l.name ++ "_" ++ toString k := by
    intro a b h
    have h1 : Nat.toDigits 10 a = Nat.toDigits 10 b := by
      have := congrArg String.toList h
      simpa using this
    rw [← Nat.ofDigitChars_ten_toDigits (n := a), h1, Nat.ofDigitChars_ten_toDigits]
  constructor
  · rintro n lb ub (hk | ⟨f, B, hk⟩) <;> unfold Leaf.names <;> rw [hk] <;>
      exact ⟨by simp, fun k hk => by simp [hk]⟩
  · unfold Leaf.names
    split
    · exact List.nodup_range.map hinj
    · exact List.nodup_range.map hinj
    · simp

/-- The example dictionary meets the hypotheses; its names. -/
example : ∃ (eigh : Eigh), EighContract eigh ∧ Built eigh exDict ∧ exDict.HasParams ∧
    exDict.Labelled ∧ exDict.names = .ok ["a", "v_0", "v_1"] := by
  obtain ⟨eigh, he⟩ := exists_eigh
  refine ⟨eigh, he, exDict_built eigh, exDict_hasParams, ?_, ?_⟩
  · simp [exDict, exSub, Param.emptyDict, Param.push, Param.Labelled, Entries.Labelled,
      Entries.assign, Param.name, exScalar, exVector]
  · simp [exDict, exSub, Param.emptyDict, Param.push, Param.names, Entries.names, Leaf.names,
      Entries.assign, Param.name, exScalar, exVector, List.range_succ, py_ok_bind]
    exact ⟨rfl, rfl⟩

/-- **C94** fails for arrays (and, alike, matrices and simplexes): one name for all entries. -/
theorem C94_array_counterexample (name : String) (s : List ℕ) (lb ub : Flt) (val : Arr) (b : Bool) :
    ∃ ns, (Param.leaf ⟨name, .array s lb ub, val, b⟩).names = .ok ns ∧ ns.length = 1 ∧
      (Param.leaf ⟨name, .array s lb ub, val, b⟩).vecSize = s.prod :=
  ⟨_, rfl, rfl, rfl⟩

/-- **C94** fails for entries of different parameters: the scalar `v_1` and the second entry of the
vector `v` have one name. -/
theorem C94_collision_counterexample :
    ∃ d : Param, (∀ eigh, Built eigh d) ∧ d.Labelled ∧ d.names = .ok ["v_0", "v_1", "v_1"] := by
  refine ⟨((Param.emptyDict "d").push (.leaf exVector)).push (.leaf { exScalar with name := "v_1" }),
    fun eigh => .push (.push (.empty "d") (exVector_built eigh) trivial trivial (by
      simp [Param.emptyDict, Param.keys, Param.items, Entries.toList]))
      (.leaf ⟨_, [], .scalar (name := "v_1") (lb := .fin 0) (ub := .pinf) (val := some (Arr.scalar 1))
        (by simp [mkScalar, checkBoundsScalar, Leaf.set, exScalar]), rfl⟩ trivial) trivial trivial ?_,
      ?_, ?_⟩
  · simp [Param.emptyDict, Param.push, Param.keys, Param.items, Entries.toList, Entries.assign,
      Param.name, exVector, exScalar]
  · simp [Param.emptyDict, Param.push, Param.Labelled, Entries.Labelled, Entries.assign, Param.name,
      exScalar, exVector]
  · simp [Param.emptyDict, Param.push, Param.names, Entries.names, Leaf.names, Entries.assign,
      Param.name, exScalar, exVector, List.range_succ, py_ok_bind]
    exact ⟨rfl, rfl⟩

/-- `names()` of an empty dictionary raises. -/
theorem C94_empty_dictionary (name : String) : (Param.emptyDict name).names = .error .valueError := rfl

end

end LRVB
