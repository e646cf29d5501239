import Verif.Props.DictDeriv
import Verif.Lemmas.AgJac
import Verif.Spec.Interrupt

/-!
# C157: grouping parameters into dictionaries changes no vector
-/

namespace LRVB

/-! ### The vector forms of a list of parameters -/

/-- The parameters after setting consecutive pieces of the free vector. -/
noncomputable def Leaf.allFree : List Leaf → List ℝ → List Leaf
  | [], _ => []
  | l :: ls, x => { l with val := freeVal l.kind (x.take l.freeSize), boxed := false } ::
      allFree ls (x.drop l.freeSize)

/-- The parameters after setting consecutive pieces of the vector. -/
noncomputable def Leaf.allVec : List Leaf → List ℝ → List Leaf
  | [], _ => []
  | l :: ls, x => { l with val := vectorVal l.kind (x.take l.vecSize), boxed := false } ::
      allVec ls (x.drop l.vecSize)

/-- The vector for consecutive pieces of the free vector. -/
noncomputable def Leaf.allFtv : List Leaf → List ℝ → List ℝ
  | [], _ => []
  | l :: ls, x => ftv l.kind (x.take l.freeSize) ++ allFtv ls (x.drop l.freeSize)

/-- The sizes. -/
def Leaf.fsizes (ls : List Leaf) : ℕ := (ls.map Leaf.freeSize).sum
def Leaf.vsizes (ls : List Leaf) : ℕ := (ls.map Leaf.vecSize).sum

theorem Leaf.allFree_append (a b : List Leaf) (x : List ℝ) :
    Leaf.allFree (a ++ b) x = Leaf.allFree a x ++ Leaf.allFree b (x.drop (Leaf.fsizes a)) := by
  induction a generalizing x with
  | nil => simp [Leaf.allFree, Leaf.fsizes]
  | cons l a ih =>
    simp only [List.cons_append, Leaf.allFree, ih, List.drop_drop]
    simp [Leaf.fsizes]

theorem Leaf.allVec_append (a b : List Leaf) (x : List ℝ) :
    Leaf.allVec (a ++ b) x = Leaf.allVec a x ++ Leaf.allVec b (x.drop (Leaf.vsizes a)) := by
  induction a generalizing x with
  | nil => simp [Leaf.allVec, Leaf.vsizes]
  | cons l a ih =>
    simp only [List.cons_append, Leaf.allVec, ih, List.drop_drop]
    simp [Leaf.vsizes]

theorem Leaf.allFtv_append (a b : List Leaf) (x : List ℝ) :
    Leaf.allFtv (a ++ b) x = Leaf.allFtv a x ++ Leaf.allFtv b (x.drop (Leaf.fsizes a)) := by
  induction a generalizing x with
  | nil => simp [Leaf.allFtv, Leaf.fsizes]
  | cons l a ih =>
    simp only [List.cons_append, Leaf.allFtv, ih, List.drop_drop]
    simp [Leaf.fsizes]

theorem Leaf.allFree_take (a : List Leaf) (x : List ℝ) (k : ℕ) (hk : Leaf.fsizes a ≤ k) :
    Leaf.allFree a (x.take k) = Leaf.allFree a x := by
  induction a generalizing x k with
  | nil => rfl
  | cons l a ih =>
    have h1 : Leaf.fsizes (l :: a) = l.freeSize + Leaf.fsizes a := by simp [Leaf.fsizes]
    rw [h1] at hk
    simp only [Leaf.allFree]
    rw [List.take_take, min_eq_left (by omega), List.drop_take, ih _ _ (by omega)]

theorem Leaf.allVec_take (a : List Leaf) (x : List ℝ) (k : ℕ) (hk : Leaf.vsizes a ≤ k) :
    Leaf.allVec a (x.take k) = Leaf.allVec a x := by
  induction a generalizing x k with
  | nil => rfl
  | cons l a ih =>
    have h1 : Leaf.vsizes (l :: a) = l.vecSize + Leaf.vsizes a := by simp [Leaf.vsizes]
    rw [h1] at hk
    simp only [Leaf.allVec]
    rw [List.take_take, min_eq_left (by omega), List.drop_take, ih _ _ (by omega)]

theorem Leaf.allFtv_take (a : List Leaf) (x : List ℝ) (k : ℕ) (hk : Leaf.fsizes a ≤ k) :
    Leaf.allFtv a (x.take k) = Leaf.allFtv a x := by
  induction a generalizing x k with
  | nil => rfl
  | cons l a ih =>
    have h1 : Leaf.fsizes (l :: a) = l.freeSize + Leaf.fsizes a := by simp [Leaf.fsizes]
    rw [h1] at hk
    simp only [Leaf.allFtv]
    rw [List.take_take, min_eq_left (by omega), List.drop_take, ih _ _ (by omega)]

namespace Param

mutual
theorem sizes_leaves : ∀ p : Param, p.WF →
    p.freeSize = Leaf.fsizes p.leaves ∧ p.vecSize = Leaf.vsizes p.leaves
  | leaf l, _ => by simp [leaves, freeSize, vecSize, Leaf.fsizes, Leaf.vsizes]
  | dict h es, hw => by
    simp only [WF] at hw
    have := sizes_leavesE es hw.1
    simp only [freeSize, vecSize, leaves, hw.2.2.1, hw.2.2.2.1, this, and_self]
theorem sizes_leavesE : ∀ es : Entries, es.WF →
    es.fsum = Leaf.fsizes es.leaves ∧ es.vsum = Leaf.vsizes es.leaves
  | .nil, _ => by simp [Entries.leaves, Entries.fsum, Entries.vsum, Leaf.fsizes, Leaf.vsizes]
  | .cons k p rest, hw => by
    simp only [Entries.WF] at hw
    have h1 := sizes_leaves p hw.1
    have h2 := sizes_leavesE rest hw.2.2
    simp only [Entries.fsum, Entries.vsum, Entries.leaves, h1, h2, Leaf.fsizes, Leaf.vsizes,
      List.map_append, List.sum_append, and_self]
end

mutual
theorem leaves_freeP : ∀ p : Param, p.WF → ∀ x : List ℝ, x.length = p.freeSize →
    (p.freeP x).leaves = Leaf.allFree p.leaves x
  | leaf l, _, x, hx => by
    have : x.take l.freeSize = x := List.take_of_length_le hx.le
    simp [freeP, leaves, Leaf.allFree, this]
  | dict h es, hw, x, _ => by
    simp only [WF] at hw
    simp only [freeP, leaves]
    exact leaves_freeE es hw.1 x (by simp_all [freeSize])
theorem leaves_freeE : ∀ es : Entries, es.WF → ∀ x : List ℝ, x.length = es.fsum →
    (es.freeE x).leaves = Leaf.allFree es.leaves x
  | .nil, _, x, _ => rfl
  | .cons k p rest, hw, x, hx => by
    simp only [Entries.WF] at hw
    simp only [Entries.fsum] at hx
    simp only [Entries.freeE, Entries.leaves]
    rw [leaves_freeP p hw.1 _ (by simp; omega), leaves_freeE rest hw.2.2 _ (by simp; omega),
      Leaf.allFree_append, Leaf.allFree_take _ _ _ (sizes_leaves p hw.1).1.ge, (sizes_leaves p hw.1).1]
end

mutual
theorem leaves_vecP : ∀ p : Param, p.WF → ∀ x : List ℝ, x.length = p.vecSize →
    (p.vecP x).leaves = Leaf.allVec p.leaves x
  | leaf l, _, x, hx => by
    have : x.take l.vecSize = x := List.take_of_length_le hx.le
    simp [vecP, leaves, Leaf.allVec, this]
  | dict h es, hw, x, _ => by
    simp only [WF] at hw
    simp only [vecP, leaves]
    exact leaves_vecE es hw.1 x (by simp_all [vecSize])
theorem leaves_vecE : ∀ es : Entries, es.WF → ∀ x : List ℝ, x.length = es.vsum →
    (es.vecE x).leaves = Leaf.allVec es.leaves x
  | .nil, _, x, _ => rfl
  | .cons k p rest, hw, x, hx => by
    simp only [Entries.WF] at hw
    simp only [Entries.vsum] at hx
    simp only [Entries.vecE, Entries.leaves]
    rw [leaves_vecP p hw.1 _ (by simp; omega), leaves_vecE rest hw.2.2 _ (by simp; omega),
      Leaf.allVec_append, Leaf.allVec_take _ _ _ (sizes_leaves p hw.1).2.ge, (sizes_leaves p hw.1).2]
end

mutual
theorem ftvP_leaves : ∀ p : Param, p.WF → ∀ x : List ℝ, x.length = p.freeSize →
    p.ftvP x = Leaf.allFtv p.leaves x
  | leaf l, _, x, hx => by
    have : x.take l.freeSize = x := List.take_of_length_le hx.le
    simp [ftvP, leaves, Leaf.allFtv, this]
  | dict h es, hw, x, _ => by
    simp only [WF] at hw
    simp only [ftvP, leaves]
    exact ftvE_leaves es hw.1 x (by simp_all [freeSize])
theorem ftvE_leaves : ∀ es : Entries, es.WF → ∀ x : List ℝ, x.length = es.fsum →
    es.ftvE x = Leaf.allFtv es.leaves x
  | .nil, _, x, _ => rfl
  | .cons k p rest, hw, x, hx => by
    simp only [Entries.WF] at hw
    simp only [Entries.fsum] at hx
    simp only [Entries.ftvE, Entries.leaves]
    rw [ftvP_leaves p hw.1 _ (by simp; omega), ftvE_leaves rest hw.2.2 _ (by simp; omega),
      Leaf.allFtv_append, Leaf.allFtv_take _ _ _ (sizes_leaves p hw.1).1.ge, (sizes_leaves p hw.1).1]
end

/-- The pieces, one after the other. -/
def flat (r : Py (List (List ℝ))) : Py (List ℝ) := r >>= fun xs => .ok xs.flatten

theorem flat_append (f : Leaf → Py (List ℝ)) (a b : List Leaf) :
    flat ((a ++ b).mapM f) = flat (a.mapM f) >>= fun x => flat (b.mapM f) >>= fun y => .ok (x ++ y) := by
  rw [List.mapM_append]
  cases a.mapM f with
  | error e => rfl
  | ok xs =>
    cases b.mapM f with
    | error e => rfl
    | ok ys =>
      show Except.ok (xs ++ ys).flatten = Except.ok (xs.flatten ++ ys.flatten)
      simp

theorem getFreeEntries_len : ∀ (es : Entries) (xs : List (List ℝ)), getFreeEntries es = .ok xs →
    xs.length = es.toList.length
  | .nil, xs, h => by cases h; rfl
  | .cons k p rest, xs, h => by
    simp only [getFreeEntries] at h
    obtain ⟨_, _, h⟩ := py_bind_ok h
    obtain ⟨ys, h2, h⟩ := py_bind_ok h
    cases h
    simp [Entries.toList, getFreeEntries_len rest ys h2]

theorem getVectorEntries_len : ∀ (es : Entries) (xs : List (List ℝ)), getVectorEntries es = .ok xs →
    xs.length = es.toList.length
  | .nil, xs, h => by cases h; rfl
  | .cons k p rest, xs, h => by
    simp only [getVectorEntries] at h
    obtain ⟨_, _, h⟩ := py_bind_ok h
    obtain ⟨ys, h2, h⟩ := py_bind_ok h
    cases h
    simp [Entries.toList, getVectorEntries_len rest ys h2]

theorem flat_single (r : Py (List ℝ)) (f : Leaf → Py (List ℝ)) (l : Leaf) (h : f l = r) :
    r = flat ([l].mapM f) := by
  subst h
  simp only [List.mapM_cons, List.mapM_nil, flat]
  cases f l with
  | error e => rfl
  | ok x => show Except.ok x = Except.ok [x].flatten; simp

theorem flat_cons (r : Py (List ℝ)) (s : Py (List (List ℝ))) :
    flat (do let x ← r; let xs ← s; .ok (x :: xs)) = r >>= fun x => flat s >>= fun y => .ok (x ++ y) := by
  cases r with
  | error e => rfl
  | ok x => cases s <;> rfl

mutual
theorem getFree_leaves : ∀ p : Param, p.WF → p.HasParams → p.getFree = flat (p.leaves.mapM Leaf.getFree)
  | leaf l, _, _ => flat_single _ _ _ rfl
  | dict h es, hw, hp => by
    simp only [WF] at hw
    simp only [getFree, leaves]
    rw [← getFreeE_leaves es hw.1, flat]
    cases hx : getFreeEntries es with
    | error e => rfl
    | ok xs =>
      rw [py_ok_bind, py_ok_bind]
      exact hstack_entries hp (getFreeEntries_len es xs hx)
theorem getFreeE_leaves : ∀ es : Entries, es.WF →
    flat (getFreeEntries es) = flat (es.leaves.mapM Leaf.getFree)
  | .nil, _ => rfl
  | .cons k p rest, hw => by
    simp only [Entries.WF] at hw
    simp only [getFreeEntries, Entries.leaves]
    rw [flat_append, ← getFree_leaves p hw.1 hw.2.1, ← getFreeE_leaves rest hw.2.2, flat_cons]
end

mutual
theorem getVector_leaves : ∀ p : Param, p.WF → p.HasParams →
    p.getVector = flat (p.leaves.mapM Leaf.getVector)
  | leaf l, _, _ => flat_single _ _ _ rfl
  | dict h es, hw, hp => by
    simp only [WF] at hw
    simp only [getVector, leaves]
    rw [← getVectorE_leaves es hw.1, flat]
    cases hx : getVectorEntries es with
    | error e => rfl
    | ok xs =>
      rw [py_ok_bind, py_ok_bind]
      exact hstack_entries hp (getVectorEntries_len es xs hx)
theorem getVectorE_leaves : ∀ es : Entries, es.WF →
    flat (getVectorEntries es) = flat (es.leaves.mapM Leaf.getVector)
  | .nil, _ => rfl
  | .cons k p rest, hw => by
    simp only [Entries.WF] at hw
    simp only [getVectorEntries, Entries.leaves]
    rw [flat_append, ← getVector_leaves p hw.1 hw.2.1, ← getVectorE_leaves rest hw.2.2, flat_cons]
end

end Param

theorem PartialDeriv.congr {F G : List ℝ → Py (List ℝ)} {i j : ℕ} {x : List ℝ} {d : ℝ}
    (h : ∀ y : List ℝ, y.length = x.length → F y = G y) (hF : PartialDeriv F i j x d) :
    PartialDeriv G i j x d := by
  obtain ⟨g, g1, g2⟩ := hF
  exact ⟨g, fun s => by rw [← h _ (by simp)]; exact g1 s, g2⟩

theorem SecondPartialDeriv.congr {F G : List ℝ → Py (List ℝ)} {i a b : ℕ} {x : List ℝ} {d : ℝ}
    (h : ∀ y : List ℝ, y.length = x.length → F y = G y) (hF : SecondPartialDeriv F i a b x d) :
    SecondPartialDeriv G i a b x d := by
  obtain ⟨g, g1, g2⟩ := hF
  exact ⟨g, fun s => (g1 s).congr fun y hy => h y (by simpa using hy), g2⟩

/-! ### C157 -/

/-- The calls of a dictionary that read or write the vector forms. -/
inductive VecCall
  | setFree (x : List ℝ)
  | setVector (x : List ℝ)
  | getFree
  | getVector
  | freeToVector (x : List ℝ)

/-- The object after the call, and what the call returns (nothing is written as the empty list). -/
noncomputable def VecCall.run (p : Param) : VecCall → Param × Py (List ℝ)
  | .setFree x => ((p.setFree x).1, match (p.setFree x).2 with | none => .ok [] | some e => .error e)
  | .setVector x => ((p.setVector x).1, match (p.setVector x).2 with | none => .ok [] | some e => .error e)
  | .getFree => (p, p.getFree)
  | .getVector => (p, p.getVector)
  | .freeToVector x => p.freeToVector x

/-- The object after a sequence of calls, and everything that the calls return. -/
noncomputable def VecCall.runAll (p : Param) : List VecCall → Param × List (Py (List ℝ))
  | [] => (p, [])
  | c :: cs => ((runAll (c.run p).1 cs).1, (c.run p).2 :: (runAll (c.run p).1 cs).2)

namespace Param

/-- A well formed dictionary that is not empty. -/
structure Filled (p : Param) : Prop where
  wf : p.WF
  has : p.HasParams
  isDict : p.IsDict

theorem Filled.of_erase {p q : Param} (h : p.Filled) (e : q.erase = p.erase) : q.Filled := by
  refine ⟨?_, (hasParams_congr e).mpr h.has, ?_⟩
  · exact (wf_congr e).mpr h.wf
  · have := h.isDict
    cases p with
    | leaf l => exact absurd this id
    | dict h es =>
      cases q with
      | leaf l => simp [Param.erase] at e
      | dict h es => trivial

theorem Filled.setFree_wrong {p : Param} (h : p.Filled) {x : List ℝ} (hx : x.length ≠ p.freeSize) :
    p.setFree x = (p, some .valueError) := by
  have := h.isDict
  cases p with
  | leaf l => exact absurd this id
  | dict h es => simp only [setFree]; exact if_pos hx

theorem Filled.setVector_wrong {p : Param} (h : p.Filled) {x : List ℝ} (hx : x.length ≠ p.vecSize) :
    p.setVector x = (p, some .valueError) := by
  have := h.isDict
  cases p with
  | leaf l => exact absurd this id
  | dict h es => simp only [setVector]; exact if_pos hx

theorem Filled.freeToVector_eq {p : Param} (h : p.Filled) (x : List ℝ) :
    p.freeToVector x = ((p.setFree x).1, match (p.setFree x).2 with
      | some e => .error e
      | none => (p.setFree x).1.getVector) := by
  have := h.isDict
  cases p with
  | leaf l => exact absurd this id
  | dict h' es =>
    simp only [freeToVector]
    cases (setFree (dict h' es) x).2 <;> rfl

theorem grouped_sizes {p q : Param} (hp : p.WF) (hq : q.WF) (hl : p.leaves = q.leaves) :
    p.freeSize = q.freeSize ∧ p.vecSize = q.vecSize := by
  rw [(sizes_leaves p hp).1, (sizes_leaves q hq).1, (sizes_leaves p hp).2, (sizes_leaves q hq).2, hl]
  exact ⟨rfl, rfl⟩

theorem grouped_setFree {p q : Param} (hp : p.Filled) (hq : q.Filled) (hl : p.leaves = q.leaves) (x : List ℝ) :
    (p.setFree x).2 = (q.setFree x).2 ∧ (p.setFree x).1.leaves = (q.setFree x).1.leaves ∧
      (p.setFree x).1.Filled ∧ (q.setFree x).1.Filled := by
  have hs := (grouped_sizes hp.wf hq.wf hl).1
  refine ⟨?_, ?_, hp.of_erase (setFree_erase p x), hq.of_erase (setFree_erase q x)⟩ <;>
  by_cases hx : x.length = p.freeSize
  · rw [setFree_ok p hp.wf x hx, setFree_ok q hq.wf x (hx.trans hs)]
  · rw [hp.setFree_wrong hx, hq.setFree_wrong (hs ▸ hx)]
  · rw [setFree_ok p hp.wf x hx, setFree_ok q hq.wf x (hx.trans hs), leaves_freeP p hp.wf x hx,
      leaves_freeP q hq.wf x (hx.trans hs), hl]
  · rw [hp.setFree_wrong hx, hq.setFree_wrong (hs ▸ hx)]
    exact hl

theorem grouped_setVector {p q : Param} (hp : p.Filled) (hq : q.Filled) (hl : p.leaves = q.leaves)
    (x : List ℝ) :
    (p.setVector x).2 = (q.setVector x).2 ∧ (p.setVector x).1.leaves = (q.setVector x).1.leaves ∧
      (p.setVector x).1.Filled ∧ (q.setVector x).1.Filled := by
  have hs := (grouped_sizes hp.wf hq.wf hl).2
  refine ⟨?_, ?_, hp.of_erase (setVector_erase p x), hq.of_erase (setVector_erase q x)⟩ <;>
  by_cases hx : x.length = p.vecSize
  · rw [setVector_ok p hp.wf x hx, setVector_ok q hq.wf x (hx.trans hs)]
  · rw [hp.setVector_wrong hx, hq.setVector_wrong (hs ▸ hx)]
  · rw [setVector_ok p hp.wf x hx, setVector_ok q hq.wf x (hx.trans hs), leaves_vecP p hp.wf x hx,
      leaves_vecP q hq.wf x (hx.trans hs), hl]
  · rw [hp.setVector_wrong hx, hq.setVector_wrong (hs ▸ hx)]
    exact hl

theorem grouped_getVector {p q : Param} (hp : p.Filled) (hq : q.Filled) (hl : p.leaves = q.leaves) :
    p.getVector = q.getVector := by
  rw [getVector_leaves p hp.wf hp.has, getVector_leaves q hq.wf hq.has, hl]

theorem grouped_run {p q : Param} (hp : p.Filled) (hq : q.Filled) (hl : p.leaves = q.leaves) (c : VecCall) :
    (c.run p).2 = (c.run q).2 ∧ (c.run p).1.leaves = (c.run q).1.leaves ∧ (c.run p).1.Filled ∧
      (c.run q).1.Filled := by
  cases c with
  | setFree x =>
    obtain ⟨h1, h2, h3, h4⟩ := grouped_setFree hp hq hl x
    exact ⟨by simp only [VecCall.run, h1], h2, h3, h4⟩
  | setVector x =>
    obtain ⟨h1, h2, h3, h4⟩ := grouped_setVector hp hq hl x
    exact ⟨by simp only [VecCall.run, h1], h2, h3, h4⟩
  | getFree =>
    exact ⟨by simp only [VecCall.run]; rw [getFree_leaves p hp.wf hp.has, getFree_leaves q hq.wf hq.has, hl],
      hl, hp, hq⟩
  | getVector => exact ⟨grouped_getVector hp hq hl, hl, hp, hq⟩
  | freeToVector x =>
    obtain ⟨h1, h2, h3, h4⟩ := grouped_setFree hp hq hl x
    simp only [VecCall.run]
    rw [hp.freeToVector_eq, hq.freeToVector_eq]
    refine ⟨?_, h2, h3, h4⟩
    simp only [h1, grouped_getVector h3 h4 h2]

end Param

/-- **C157** Take two dictionaries that hold, at whatever depth and under whatever keys, the same
parameters in the same order.  Every sequence of calls that read or write the vector forms returns the
same, errors included, for both of them, and leaves the same parameters in both. -/
theorem C157_calls {eigh : Eigh} (he : EighContract eigh) (p q : Param) (hp : Built eigh p)
    (hq : Built eigh q) (hpp : p.HasParams) (hqq : q.HasParams) (hpd : p.IsDict) (hqd : q.IsDict)
    (hl : p.leaves = q.leaves) (cs : List VecCall) :
    p.freeSize = q.freeSize ∧ p.vecSize = q.vecSize ∧
    (VecCall.runAll p cs).2 = (VecCall.runAll q cs).2 ∧
    (VecCall.runAll p cs).1.leaves = (VecCall.runAll q cs).1.leaves := by
  obtain ⟨s1, s2⟩ := Param.grouped_sizes (hp.wf he) (hq.wf he) hl
  refine ⟨s1, s2, ?_⟩
  have gen : ∀ (cs : List VecCall) (p q : Param), p.Filled → q.Filled → p.leaves = q.leaves →
      (VecCall.runAll p cs).2 = (VecCall.runAll q cs).2 ∧
      (VecCall.runAll p cs).1.leaves = (VecCall.runAll q cs).1.leaves := by
    intro cs
    induction cs with
    | nil => exact fun p q _ _ hl => ⟨rfl, hl⟩
    | cons c cs ih =>
      intro p q hp hq hl
      obtain ⟨h1, h2, h3, h4⟩ := Param.grouped_run hp hq hl c
      obtain ⟨i1, i2⟩ := ih _ _ h3 h4 h2
      simp only [VecCall.runAll]
      exact ⟨by rw [h1, i1], i2⟩
  exact gen cs p q ⟨hp.wf he, hpp, hpd⟩ ⟨hq.wf he, hqq, hqd⟩ hl

/-- **C157** The Jacobians and Hessians of the two are the same matrices. -/
theorem C157_derivatives {eigh : Eigh} (he : EighContract eigh) (p q : Param) (hp : Built eigh p)
    (hq : Built eigh q) (hpp : p.HasParams) (hqq : q.HasParams) (hl : p.leaves = q.leaves) (x : List ℝ)
    (hx : x.length = p.freeSize) :
    (∃ p' q' J K, p.jac x = (p', .ok J) ∧ q.jac x = (q', .ok K) ∧ J.nr = K.nr ∧ J.nc = K.nc ∧
      ∀ i < J.nr, ∀ j < J.nc, J.toDense i j = K.toDense i j) ∧
    ∃ p' q' Js Ks, p.hess x = (p', .ok Js) ∧ q.hess x = (q', .ok Ks) ∧
      List.Forall₂ (fun J K : Coo => J.nr = K.nr ∧ J.nc = K.nc ∧
        ∀ i < J.nr, ∀ j < J.nc, J.toDense i j = K.toDense i j) Js Ks := by
  have hwp := hp.wf he
  have hwq := hq.wf he
  obtain ⟨s1, s2⟩ := Param.grouped_sizes hwp hwq hl
  have hF : ∀ y : List ℝ, y.length = x.length → q.freeToVectorVal y = p.freeToVectorVal y := by
    intro y hy
    have h1 : y.length = p.freeSize := hy.trans hx
    rw [(p.freeToVectorVal_ok hwp hpp y h1).1, (q.freeToVectorVal_ok hwq hqq y (h1.trans s1)).1,
      Param.ftvP_leaves p hwp y h1, Param.ftvP_leaves q hwq y (h1.trans s1), hl]
  constructor
  · obtain ⟨p', J, h1, j1, j2, j3⟩ := C39_jacobian he p hp hpp x hx
    obtain ⟨q', K, h2, k1, k2, k3⟩ := C39_jacobian he q hq hqq x (hx.trans s1)
    refine ⟨p', q', J, K, h1, h2, by rw [j1, k1, s2], by rw [j2, k2, s1], fun i hi j hj => ?_⟩
    exact (j3 i (j1 ▸ hi) j (j2 ▸ hj)).unique
      ((k3 i (s2 ▸ j1 ▸ hi) j (s1 ▸ j2 ▸ hj)).congr hF)
  · obtain ⟨p', Js, h1, j1, j2⟩ := C40_hessians he p hp hpp x hx
    obtain ⟨q', Ks, h2, k1, k2⟩ := C40_hessians he q hq hqq x (hx.trans s1)
    refine ⟨p', q', Js, Ks, h1, h2, List.forall₂_iff_get.mpr ⟨by rw [j1, k1, s2], fun i hi hk => ?_⟩⟩
    obtain ⟨a1, a2, a3⟩ := j2 i hi
    obtain ⟨b1, b2, b3⟩ := k2 i hk
    simp only [List.get_eq_getElem]
    refine ⟨by rw [a1, b1, s1], by rw [a2, b2, s1], fun a ha b hb => ?_⟩
    exact (a3 a (a1 ▸ ha) b (a2 ▸ hb)).unique
      ((b3 a (s1 ▸ a1 ▸ ha) b (s1 ▸ a2 ▸ hb)).congr hF)

/-- The parameters of `exDict` in one dictionary. -/
def exFlat : Param := ((Param.emptyDict "f").push (.leaf exScalar)).push (.leaf exVector)

/-- `exDict` has a dictionary in it, and `exFlat` has not. -/
example : ∃ (eigh : Eigh) (q : Param), EighContract eigh ∧ Built eigh exDict ∧ Built eigh q ∧ q.HasParams ∧
    q.IsDict ∧ exDict.leaves = q.leaves ∧ exDict ≠ q ∧ exDict.keys ≠ q.keys := by
  obtain ⟨eigh, he⟩ := exists_eigh
  have hk : exDict.keys ≠ exFlat.keys := by
    simp [exDict, exFlat, exSub, Param.keys, Param.items, Param.emptyDict, Param.push, Entries.toList,
      Entries.assign, Param.name, exScalar, exVector]
  refine ⟨eigh, exFlat, he, exDict_built eigh, ?_, ?_, trivial, ?_, fun h => hk (by rw [h]), hk⟩
  · exact .push (.push (.empty _) (exScalar_built eigh) trivial trivial
      (by simp [Param.keys, Param.items, Param.emptyDict, Entries.toList])) (exVector_built eigh) trivial
      trivial (by simp [Param.keys, Param.items, Param.emptyDict, Param.push, Entries.toList, Entries.assign,
        Param.name, exScalar, exVector])
  · simp [exFlat, Param.emptyDict, Param.push, Param.HasParams, Entries.assign, Param.name, exScalar, exVector]
  · simp [exDict, exFlat, exSub, Param.leaves, Entries.leaves, Param.emptyDict, Param.push, Entries.assign,
      Param.name, exScalar, exVector]

end LRVB
