import Verif.Lemmas.HeapSens
import Verif.Props.HeapTwo
import Verif.Props.TaylorFlags

/-!
# C119: linear approximations that hold references
-/

namespace LRVB

open Classical Flt

noncomputable section

/-- **C119** (nothing is written) Neither the constructor, nor `set_base_values`, nor a prediction, whether it
returns or raises, and whatever the parameters share, changes an array that existed before. -/
theorem C119_arrays_unchanged {depth : ℕ} :
    (∀ {st : Store} (_ : PReached Unit depth st) (objFn : Param → Param → Py Arr) (i j : ℕ) (x v : List ℕ) (fi fh : Bool)
      (hess0 : Option Ref) (hyperFn : Option (Param → Param → Py Arr)) (r : Ref), r.Alive st.mem →
      (LWorld.new depth st objFn i j x v fi fh hess0 hyperFn).1.st.mem.read r = st.mem.read r) ∧
    ∀ {w : LWorld} (_ : LReached depth w) (r : Ref), r.Alive w.st.mem →
      (∀ (x v : List ℕ) (hess0 : Option Ref), (LEvent.setBase x v hess0).Ok depth w →
        (w.setBaseValues depth x v hess0).1.st.mem.read r = w.st.mem.read r) ∧
      ∀ n : List ℕ, (w.predict n).1.st.mem.read r = w.st.mem.read r := by
  refine ⟨fun h objFn i j x v fi fh hess0 hyperFn r hr => ?_, fun h r hr => ⟨fun x v hess0 ok => ?_, fun n => ?_⟩⟩
  · exact (setBaseValues_step (LWorld.blank_wf h.wf _ _ _ _ _ _) x v (by simp)).grow.le.read hr
  · exact (setBaseValues_step h.wf x v ok.2.2).grow.le.read hr
  · exact (predict_step _ n).grow.le.read hr

/-- **C119** (setting base values, partial) If the two parameters have no object in common, `set_base_values`
returns or raises, and leaves behind, what the model without references says.  Missing: parameters with
common objects, for which the claim is false (`C117_counterexample`). -/
theorem C119_set_base_partial {depth : ℕ} {w : LWorld} (h : LReached depth w) {T : LinApprox} (hT : w.view depth = some T)
    (ha : w.st.Apart depth w.o.inputPar w.o.hyperPar) (x v : List ℕ) (hess0 : Option Ref)
    (ok : (LEvent.setBase x v hess0).Ok depth w) :
    (w.setBaseValues depth x v hess0).1.view depth =
        some (T.setBaseValues (w.st.mem.vals x) (w.st.mem.vals v) (hess0.map w.st.mem.read)).1 ∧
      outcome (w.setBaseValues depth x v hess0).2 =
        (T.setBaseValues (w.st.mem.vals x) (w.st.mem.vals v) (hess0.map w.st.mem.read)).2 := by
  obtain ⟨h1, h2, h3⟩ := lin_view.1 hT
  obtain ⟨k1, k2⟩ := setBaseValues_sim (x := x) ⟨h.wf, ⟨h.wf.st, h1, h2, ha⟩, h3⟩ ok.2.1 ok.2.2
  exact ⟨k1.view, k2⟩

/-- **C119** (the constructor, partial) The same for the constructor. -/
theorem C119_new_partial {depth : ℕ} {st : Store} (h : PReached Unit depth st) (objFn : Param → Param → Py Arr) {i j : ℕ}
    {p q : Param} (hp : st.tree depth i = some p) (hq : st.tree depth j = some q) (ha : st.Apart depth i j) (x v : List ℕ)
    (hv : (Ref.vec v).Alive st.mem) (fi fh : Bool) (hess0 : Option Ref) (hyperFn : Option (Param → Param → Py Arr)) :
    let r := LWorld.new depth st objFn i j x v fi fh hess0 hyperFn
    let R := LinApprox.new objFn p q (st.mem.vals x) (st.mem.vals v) fi fh (hess0.map st.mem.read) hyperFn
    (∀ e, r.2 = .error e ↔ R = .error e) ∧ ∀ T, R = .ok T → r.2 = .ok () ∧ r.1.view depth = some T := by
  intro r R
  have hw := LWorld.blank_wf h.wf objFn (hyperFn.getD objFn) i j fi fh
  obtain ⟨k1, k2⟩ := setBaseValues_sim (depth := depth) (x := x) (v := v) (hess0 := none)
    (T := ⟨p, q, fi, fh, objFn, hyperFn.getD objFn, ⟨⟨[0, 0], []⟩, [], []⟩, ⟨[0, 0], []⟩, ⟨[0, 0], []⟩, ⟨[0, 0], []⟩⟩)
    ⟨hw, ⟨h.wf, hp, hq, ha⟩, rfl⟩ hv (by simp)
  have hr : r.2 = (LWorld.setBaseValues depth ⟨st, i, j, fi, fh, objFn, hyperFn.getD objFn, [], [], ⟨[0, 0], []⟩,
    ⟨[0, 0], []⟩, ⟨[0, 0], []⟩, ⟨[0, 0], []⟩⟩ x v none).2 := rfl
  have hr1 : r.1 = (LWorld.setBaseValues depth ⟨st, i, j, fi, fh, objFn, hyperFn.getD objFn, [], [], ⟨[0, 0], []⟩,
    ⟨[0, 0], []⟩, ⟨[0, 0], []⟩, ⟨[0, 0], []⟩⟩ x v none).1 := rfl
  rw [← hr] at k2
  rw [← hr1] at k1
  simp only [Option.map_none] at k1 k2
  have hR0 : R = LinApprox.new objFn p q (st.mem.vals x) (st.mem.vals v) fi fh (hess0.map st.mem.read) hyperFn := rfl
  clear_value R
  unfold LinApprox.new at hR0
  simp only at hR0
  generalize (⟨p, q, fi, fh, objFn, hyperFn.getD objFn, ⟨⟨[0, 0], []⟩, [], []⟩, ⟨[0, 0], []⟩, ⟨[0, 0], []⟩,
    ⟨[0, 0], []⟩⟩ : LinApprox).setBaseValues (st.mem.vals x) (st.mem.vals v) none = S at *
  cases hS : S.2 with
  | none =>
    have hR : R = .ok S.1 := by rw [hR0, hS]
    rw [hS] at k2
    rw [hR, outcome_ok k2]
    refine ⟨by simp, fun T hT => ?_⟩
    cases hT
    exact ⟨rfl, k1.view⟩
  | some e =>
    have hR : R = .error e := by rw [hR0, hS]
    rw [hS] at k2
    rw [hR, outcome_error k2]
    exact ⟨fun e' => by simp, fun T hT => by cases hT⟩

/-- **C119** (predictions) A prediction is `input_val0 + sensitivity @ (new - hyper_val0)` with the numbers that
the arrays of the object contain at that moment, in a new array; the object and its parameters stay the
same. -/
theorem C119_predict {depth : ℕ} {w : LWorld} (h : LReached depth w) {T : LinApprox} (hT : w.view depth = some T)
    (n : List ℕ) :
    (w.predict n).1.st.mem.vals <$> (w.predict n).2 = T.predictInput (w.st.mem.vals n) ∧
      (∀ y, (w.predict n).2 = .ok y → ∀ k ∈ y, w.st.mem.next ≤ k) ∧ (w.predict n).1.view depth = some T := by
  obtain ⟨h1, h2, h3⟩ := lin_view.1 hT
  have hpred : T.predictInput (w.st.mem.vals n) = (do
      let d ← vsub (w.st.mem.vals n) (w.st.mem.vals w.o.hyperVal0)
      vadd (w.st.mem.vals w.o.inputVal0) (← (w.st.mem.read w.o.sens).mulVec d)) := by
    rw [h3]; rfl
  rw [hpred]
  unfold LWorld.predict
  cases (do
      let d ← vsub (w.st.mem.vals n) (w.st.mem.vals w.o.hyperVal0)
      vadd (w.st.mem.vals w.o.inputVal0) (← (w.st.mem.read w.o.sens).mulVec d)) with
  | error e => exact ⟨rfl, by simp, hT⟩
  | ok v =>
    refine ⟨congrArg Except.ok (newVec_vals _ _), ?_, ?_⟩
    · intro y hy k hk
      cases hy
      simp only [Store.newVec, Mem.alloc, List.mem_map] at hk
      obtain ⟨i, -, rfl⟩ := hk
      omega
    · refine lin_view.2 ⟨?_, ?_, ?_⟩
      · rw [newVec_tree h.wf.st]; exact h1
      · rw [newVec_tree h.wf.st]; exact h2
      · rw [value_grow h.wf (newVec_grow _ _) T.inputPar T.hyperPar, ← h3]

/-- **C119** (later, partial) Whatever the program does after `set_base_values` has returned, as long as it does
not set base values again and, among the arrays it changes in place, there is none that was made during
the call, the predictions do not change.  In particular it may change the arrays that it passed, assign new
values to the parameters, and evaluate objectives of them.  Missing: programs that get hold of arrays made
during the call and change them, for which the claim is false (`C119_counterexample`). -/
theorem C119_later_partial {depth : ℕ} {w : LWorld} (h : LReached depth w) {x v : List ℕ} {hess0 : Option Ref}
    (ok : (LEvent.setBase x v hess0).Ok depth w) (hret : (w.setBaseValues depth x v hess0).2 = .ok ())
    (es : List LEvent) (hes : okL depth (w.setBaseValues depth x v hess0).1 es) (hr : ∀ e ∈ es, ¬ e.Resets)
    (hw : ∀ e ∈ es, ∀ k ∈ e.writes,
      k < w.st.mem.next ∨ (w.setBaseValues depth x v hess0).1.st.mem.next ≤ k) (y : List ℝ) :
    (runL depth (w.setBaseValues depth x v hess0).1 es).predictAt y =
      (w.setBaseValues depth x v hess0).1.predictAt y := by
  refine runL_predictAt es ((setBaseValues_step (depth := depth) h.wf x v ok.2.2).wf h.wf) hes hr fun e he k hk hk' => ?_
  have := setBaseValues_fresh h.wf ok.2.2 hret k hk'
  rcases hw e he k hk with h1 | h1 <;> omega

/-- **C119** (later, partial) The same from the constructor on. -/
theorem C119_later_new_partial {depth : ℕ} {st : Store} (h : PReached Unit depth st) (objFn : Param → Param → Py Arr)
    (i j : ℕ) (x v : List ℕ) (fi fh : Bool) (hess0 : Option Ref) (hyperFn : Option (Param → Param → Py Arr))
    (hret : (LWorld.new depth st objFn i j x v fi fh hess0 hyperFn).2 = .ok ())
    (es : List LEvent) (hes : okL depth (LWorld.new depth st objFn i j x v fi fh hess0 hyperFn).1 es)
    (hr : ∀ e ∈ es, ¬ e.Resets)
    (hw : ∀ e ∈ es, ∀ k ∈ e.writes,
      k < st.mem.next ∨ (LWorld.new depth st objFn i j x v fi fh hess0 hyperFn).1.st.mem.next ≤ k) (y : List ℝ) :
    (runL depth (LWorld.new depth st objFn i j x v fi fh hess0 hyperFn).1 es).predictAt y =
      (LWorld.new depth st objFn i j x v fi fh hess0 hyperFn).1.predictAt y := by
  have hb := LWorld.blank_wf h.wf objFn (hyperFn.getD objFn) i j fi fh
  refine runL_predictAt es ((setBaseValues_step (depth := depth) hb x v (by simp)).wf hb) hes hr fun e he k hk hk' => ?_
  have := setBaseValues_fresh hb (by simp) hret k hk'
  rcases hw e he k hk with h1 | h1
  · exact absurd this.1 (not_le.2 h1)
  · exact absurd this.2 (not_lt.2 h1)

/-- **C119** (later, partial) With parameters that have no object in common, all these predictions are those
of the model without references at the base values. -/
theorem C119_base_partial {depth : ℕ} {w : LWorld} (h : LReached depth w) {T : LinApprox} (hT : w.view depth = some T)
    (ha : w.st.Apart depth w.o.inputPar w.o.hyperPar) {x v : List ℕ} {hess0 : Option Ref}
    (ok : (LEvent.setBase x v hess0).Ok depth w) (hret : (w.setBaseValues depth x v hess0).2 = .ok ())
    (es : List LEvent) (hes : okL depth (w.setBaseValues depth x v hess0).1 es) (hr : ∀ e ∈ es, ¬ e.Resets)
    (hw : ∀ e ∈ es, ∀ k ∈ e.writes,
      k < w.st.mem.next ∨ (w.setBaseValues depth x v hess0).1.st.mem.next ≤ k) (y : List ℝ) :
    ∃ T', T.setBaseValues (w.st.mem.vals x) (w.st.mem.vals v) (hess0.map w.st.mem.read) = (T', none) ∧
      (runL depth (w.setBaseValues depth x v hess0).1 es).predictAt y = T'.predictInput y := by
  obtain ⟨h1, h2⟩ := C119_set_base_partial h hT ha x v hess0 ok
  rw [hret] at h2
  refine ⟨_, Prod.ext rfl h2.symm, ?_⟩
  rw [C119_later_partial h ok hret es hes hr hw]
  have hwf := (setBaseValues_step (depth := depth) h.wf x v ok.2.2).wf h.wf
  have h3 := (lin_view.1 h1).2.2
  rw [predictAt_eq hwf]
  exact (congrArg (fun T' : LinApprox => T'.predictInput y) h3).symm

/-! ### An example, and the counterexample -/

/-- A program that makes two parameters of size 1 and two arrays. -/
def linProgram (x0 h0 : ℝ) : List Event := pairProgram x0 ++ [.newArray (Arr.vec [h0])]

theorem linProgram_store (depth : ℕ) (x0 h0 : ℝ) :
    Reached depth (runEvents depth emptyStore (linProgram x0 h0)) ∧
    ∃ m, runEvents depth emptyStore (linProgram x0 h0) = ⟨m, [.leaf ⟨"a", .vector 1 ninf pinf, ⟨[1], [0]⟩, false⟩,
        .leaf ⟨"b", .vector 1 ninf pinf, ⟨[1], [1]⟩, false⟩]⟩ ∧
      m.next = 4 ∧ m.cell 2 = x0 ∧ m.cell 3 = h0 := by
  obtain ⟨hr, m, hs, hn, -, -, h2⟩ := pairProgram_store depth x0
  have he : ∀ (es : List Event) (st : Store) (e : Event), runEvents depth st (es ++ [e]) = e.run depth (runEvents depth st es) := by
    intro es
    induction es with
    | nil => intro st e; rfl
    | cons a es ih => intro st e; exact ih _ _
  rw [linProgram, he, hs]
  rw [hs] at hr
  refine ⟨.step hr (.newArray _) trivial, _, rfl, ?_, ?_, ?_⟩
  · simp [Mem.alloc, Arr.vec, hn]
  · simp [Mem.alloc, Arr.vec, hn, h2]
  · simp [Mem.alloc, Arr.vec, hn]

/-- A parameter of size 1 with any value. -/
def vecOne (s : String) (v : Arr) (b : Bool) : Param := .leaf ⟨s, .vector 1 ninf pinf, v, b⟩

theorem vecOne_getVector (s : String) (v : Arr) (b free : Bool) (x : ℝ) :
    (setPar (vecOne s v b) [x] free).2 = none ∧ ((setPar (vecOne s v b) [x] free).1.mark false).getVector = .ok [x] := by
  have hw : (vecOne s v b).WF := by simp [vecOne, Param.WF, Kind.Legal]
  cases free
  · simp only [setPar]
    rw [if_neg (by simp), (vecOne s v b).setVector_ok hw [x] rfl]
    refine ⟨rfl, ?_⟩
    change ((vecOne s v b).vecP [x]).getVector = _
    rw [(vecOne s v b).getVector_vecP hw trivial [x] rfl]
  · simp only [setPar]
    rw [if_pos trivial, (vecOne s v b).setFree_ok hw [x] rfl]
    refine ⟨rfl, ?_⟩
    rw [Param.mark_plain _ (Param.freeP_plain _ _), (vecOne s v b).getVector_freeP hw trivial [x] rfl]
    simp [vecOne, Param.ftvP, ftv, constrainFn_real]

theorem vecOne_evaluates (s t : String) (v u : Arr) (b c fi fh : Bool) (h : ℝ → ℝ → ℝ) :
    Evaluates (n := 1) (m := 1) (vecOne s v b) (vecOne t u c) (scFn h) fi fh fun z => h (z.1 0) (z.2 0) := by
  intro y1 y2 hy1 hy2
  obtain ⟨a, rfl⟩ := List.length_eq_one_iff.mp hy1
  obtain ⟨d, rfl⟩ := List.length_eq_one_iff.mp hy2
  obtain ⟨s1, g1⟩ := vecOne_getVector s v b fi a
  obtain ⟨s2, g2⟩ := vecOne_getVector t u c fh d
  simp only [TwoObjective.evalFun, s1, s2, scFn, g1, g2, py_ok_bind]
  simp [toVec]

/-- The sensitivity of `x² / 2 - ε x` at its optimum is 1. -/
theorem quad_sens (b : ℝ) : sensArr 1 1 (hessArr exQF (toVec 1 [b]) (toVec 1 [b]))
    (crossArr exQF (toVec 1 [b]) (toVec 1 [b])) = ⟨[1, 1], [1]⟩ := by
  have hlr := linearResponse_of (exQF_smooth.of_le two_le_infty) (x := [b]) (e := [b]) rfl rfl (exQF_curv b b) rfl
  obtain ⟨A, hA, hA2, -⟩ := hlr.2 id continuousAt_id rfl (Filter.Eventually.of_forall fun e' => by
    have h := exQ_deriv (e' 0) (e' 0)
    rw [sub_self] at h
    have h' := scalar_crit h
    have : (toVec 1 [e' 0]) = e' := by
      funext i
      rw [Subsingleton.elim i 0]; rfl
    rw [this] at h'
    exact h')
  have h1 := hA2 0 0
  rw [hA.unique (hasFDerivAt_id _)] at h1
  have h2 := hlr.1
  generalize sensArr 1 1 (hessArr exQF (toVec 1 [b]) (toVec 1 [b])) (crossArr exQF (toVec 1 [b]) (toVec 1 [b])) = S at *
  obtain ⟨sh, da⟩ := S
  obtain ⟨e2, e1⟩ := h2
  simp only at e1 e2
  subst e1
  obtain ⟨a, rfl⟩ := List.length_eq_one_iff.mp (by simpa [Arr.WF, Arr.size] using e2)
  simp [Arr.at2] at h1
  rw [h1]

/-- The linear approximation of `x² / 2 - ε x` at the arrays `[b]` and `[b]`. -/
def linWorld (d : ℕ) (b : ℝ) : LWorld × Py Unit :=
  LWorld.new (d + 1) (runEvents (d + 1) emptyStore (linProgram b b)) (scFn exQ) 0 1 [2] [3] true false none none

private theorem lin_setBase {T : LinApprox} (h1 : T.inputIsFree = true) (h2 : T.hyperIsFree = false)
    (h3 : T.objFn = scFn exQ) (h4 : T.hyperFn = scFn exQ) {v u : Arr} {c e : Bool} (h5 : T.inputPar = vecOne "a" v c)
    (h6 : T.hyperPar = vecOne "b" u e) (b : ℝ) :
    ∃ T', T.setBaseValues [b] [b] none = (T', none) ∧ T'.base.inputVal0 = [b] ∧ T'.base.hyperVal0 = [b] ∧
      T'.sens = ⟨[1, 1], [1]⟩ ∧ (∃ v' c', T'.inputPar = vecOne "a" v' c') ∧ (∃ v' c', T'.hyperPar = vecOne "b" v' c') ∧
      T'.inputIsFree = true ∧ T'.hyperIsFree = false ∧ T'.objFn = scFn exQ ∧ T'.hyperFn = scFn exQ := by
  have hev : Evaluates T.inputPar T.hyperPar (scFn exQ) true false exQF := by
    rw [h5, h6]; exact vecOne_evaluates _ _ _ _ _ _ _ _ _
  obtain ⟨l, hl⟩ := LinApprox.setBase_ok (T := T) h1 h2 (exQF_smooth.of_le two_le_infty) (by rw [h3]; exact hev)
    (exQF_smooth.of_le two_le_infty) (by rw [h4]; exact hev) one_pos (x := [b]) (e := [b]) rfl rfl none rfl
    (hessArr_posDef (exQF_smooth.of_le two_le_infty) (exQF_curv b b))
  refine ⟨_, hl, rfl, rfl, quad_sens b, ?_, ?_, h1, h2, h3, h4⟩
  · rw [h5]
    have hw : (vecOne "a" v c).WF := by simp [vecOne, Param.WF, Kind.Legal]
    simp only [setPar]
    rw [if_pos trivial, Param.setFree_ok _ hw [b] rfl]
    exact ⟨_, _, rfl⟩
  · rw [h6]
    have hw : (vecOne "b" u e).WF := by simp [vecOne, Param.WF, Kind.Legal]
    simp only [setPar]
    rw [if_neg (by simp), Param.setVector_ok _ hw [b] rfl]
    exact ⟨_, _, rfl⟩

/-- What the example contains. -/
private theorem linWorld_facts (d : ℕ) (b : ℝ) :
    LReached (d + 1) (linWorld d b).1 ∧ (linWorld d b).2 = .ok () ∧ (linWorld d b).1.o.inputPar = 0 ∧
    (linWorld d b).1.o.hyperPar = 1 ∧ (linWorld d b).1.st.Apart (d + 1) 0 1 ∧
    (∃ T v c u e, (linWorld d b).1.view (d + 1) = some T ∧ T.inputIsFree = true ∧ T.hyperIsFree = false ∧
      T.objFn = scFn exQ ∧ T.hyperFn = scFn exQ ∧ T.inputPar = vecOne "a" v c ∧ T.hyperPar = vecOne "b" u e ∧
      T.base.inputVal0 = [b] ∧ T.base.hyperVal0 = [b] ∧ T.sens = ⟨[1, 1], [1]⟩) ∧
    (linWorld d b).1.st.mem.vals [2] = [b] ∧ (linWorld d b).1.st.mem.vals [3] = [b] ∧
    (Ref.vec [2, 3]).Alive (linWorld d b).1.st.mem ∧
    (linWorld d b).1.st.get 1 = .ok (Ref.vec (linWorld d b).1.o.hyperVal0) ∧
    List.Disjoint (linWorld d b).1.o.inputVal0 (linWorld d b).1.o.hyperVal0 ∧
    List.Disjoint (linWorld d b).1.o.inputVal0 (linWorld d b).1.o.sens.addr ∧
    List.Disjoint (linWorld d b).1.o.hyperVal0 (linWorld d b).1.o.sens.addr := by
  obtain ⟨hr, m, hs, hn, h2, h3⟩ := linProgram_store (d + 1) b b
  have hst : PReached Unit (d + 1) (runEvents (d + 1) emptyStore (linProgram b b)) := hr.preached
  have ht : (runEvents (d + 1) emptyStore (linProgram b b)).tree (d + 1) 0 = some (vecOne "a" ⟨[1], [m.cell 0]⟩ false) ∧
      (runEvents (d + 1) emptyStore (linProgram b b)).tree (d + 1) 1 = some (vecOne "b" ⟨[1], [m.cell 1]⟩ false) ∧
      (runEvents (d + 1) emptyStore (linProgram b b)).Apart (d + 1) 0 1 ∧
      (Ref.vec [2, 3]).Alive (runEvents (d + 1) emptyStore (linProgram b b)).mem ∧
      (runEvents (d + 1) emptyStore (linProgram b b)).mem.vals [2] = [b] ∧
      (runEvents (d + 1) emptyStore (linProgram b b)).mem.vals [3] = [b] ∧
      (runEvents (d + 1) emptyStore (linProgram b b)).objs[1]? =
        some (.leaf ⟨"b", .vector 1 ninf pinf, ⟨[1], [1]⟩, false⟩) := by
    rw [hs]
    simp [Store.tree, HLeaf.view, vecOne, Mem.read, Mem.vals, Store.Apart, Store.foot, Ref.Alive, Ref.vec, hn, h2, h3]
  clear hs hr
  unfold linWorld
  generalize runEvents (d + 1) emptyStore (linProgram b b) = st at *
  obtain ⟨t1, t2, ta, tal, tv2, tv3, tob⟩ := ht
  have ha3 : (Ref.vec [3]).Alive st.mem := fun k hk => tal k (by simp [Ref.vec] at hk ⊢; simp [hk])
  have ha2 : (Ref.vec [2]).Alive st.mem := fun k hk => tal k (by simp [Ref.vec] at hk ⊢; simp [hk])
  obtain ⟨T, hT, q1, q2, q3, ⟨v, c, q4⟩, ⟨u, e, q5⟩, q6, q7, q8, q9⟩ := lin_setBase
    (T := ⟨vecOne "a" ⟨[1], [m.cell 0]⟩ false, vecOne "b" ⟨[1], [m.cell 1]⟩ false, true, false, scFn exQ, scFn exQ,
      ⟨⟨[0, 0], []⟩, [], []⟩, ⟨[0, 0], []⟩, ⟨[0, 0], []⟩, ⟨[0, 0], []⟩⟩) rfl rfl rfl rfl rfl rfl b
  have hnew := (C119_new_partial hst (scFn exQ) t1 t2 ta [2] [3] ha3 true false none none).2 T
    (by simp only [LinApprox.new, tv2, tv3, Option.getD_none, hT])
  have hwf := LWorld.blank_wf hst.wf (scFn exQ) (scFn exQ) 0 1 true false
  have hstep := setBaseValues_step (depth := d + 1) hwf [2] [3] (hess0 := none) (by simp)
  refine ⟨.start hst _ _ _ _ _ _ _ _ _ ha2 ha3 hnew.1, hnew.1, hstep.inputPar, hstep.hyperPar, ?_,
    ⟨T, v, c, u, e, hnew.2, q6, q7, q8, q9, q4, q5, q1, q2, q3⟩, ?_, ?_, ?_, ?_, ?_⟩
  · exact apart_skel ta hstep.grow.skel
  · rw [← tv2]; exact hstep.grow.le.vals ha2
  · rw [← tv3]; exact hstep.grow.le.vals ha3
  · exact tal.mono hstep.grow.le
  · exact setBaseValues_alias (x := [2]) (h := [3]) (hess0 := none) hwf (by simp) hnew.1 tob rfl
  · exact setBaseValues_apart (x := [2]) (h := [3]) (hess0 := none) hwf (by simp) hnew.1

theorem lin_predict (b y z s : ℝ) : (do
      let d ← vsub [z] [y]
      vadd [b] (← (Arr.mk [1, 1] [s]).mulVec d)) = .ok [b + s * (z - y)] := by
  simp [vsub, vadd, Arr.mulVec, py_ok_bind, Arr.at2]

/-- **C119** (counterexample) The linear approximation of `x² / 2 - ε x` at the arrays `[b]` and `[b]` predicts
`[z]` for the new value `[z]`.  If the program sets an entry of `hyper_par.get()` to `y`, the prediction
becomes `b + (z - y)`; if it sets an entry of `get_dinput_dhyper()` to `y`, it becomes `b + y (z - b)`. -/
theorem C119_counterexample (d : ℕ) (b y z : ℝ) :
    let w := (linWorld d b).1
    LReached (d + 1) w ∧ w.predictAt [z] = .ok [z] ∧
    (∃ a, w.st.get w.o.hyperPar = .ok a ∧
      okL (d + 1) w [.other (.other (.assign ⟨a, 0, y⟩))] ∧
      (runL (d + 1) w [.other (.other (.assign ⟨a, 0, y⟩))]).predictAt [z] = .ok [b + (z - y)]) ∧
    okL (d + 1) w [.other (.other (.assign ⟨w.dinputDhyper, 0, y⟩))] ∧
    (runL (d + 1) w [.other (.other (.assign ⟨w.dinputDhyper, 0, y⟩))]).predictAt [z] = .ok [b + y * (z - b)] := by
  intro w
  obtain ⟨hR, -, -, hh, -, ⟨T, v, c, u, e, hT, -, -, -, -, -, -, k1, k2, k3⟩, -, -, -, hg, d1, d2, d3⟩ := linWorld_facts d b
  obtain ⟨t1, t2, t3⟩ := lin_view.1 hT
  have hwf := hR.wf
  change LReached _ w at hR
  change w.WF at hwf
  change w.st.get 1 = _ at hg
  change T = w.value _ _ at t3
  rw [← hh] at hg
  change w.st.get w.o.hyperPar = .ok (Ref.vec w.o.hyperVal0) at hg
  change List.Disjoint w.o.inputVal0 w.o.hyperVal0 at d1
  change List.Disjoint w.o.inputVal0 w.o.sens.addr at d2
  change List.Disjoint w.o.hyperVal0 w.o.sens.addr at d3
  clear_value w
  have e1 : w.st.mem.vals w.o.inputVal0 = [b] := by rw [← k1, t3]; rfl
  have e2 : w.st.mem.vals w.o.hyperVal0 = [b] := by rw [← k2, t3]; rfl
  have e3 : w.st.mem.read w.o.sens = ⟨[1, 1], [1]⟩ := by rw [← k3, t3]; rfl
  have hwr : ∀ (r : Ref) (k : ℕ), r.addr = [k] → (w.st.assign [⟨r, 0, y⟩]).mem.cell = Function.update w.st.mem.cell k y := by
    intro r k hr
    simp [Store.assign, Mem.write, hr]
  have hin : ∀ x : List ℕ, ∀ k, k ∉ x → x.map (Function.update w.st.mem.cell k y) = w.st.mem.vals x := fun x k hk =>
    List.map_congr_left fun j hj => Function.update_of_ne (fun h : j = k => hk (h ▸ hj)) _ _
  obtain ⟨k, hk⟩ : ∃ k, w.o.hyperVal0 = [k] := List.length_eq_one_iff.mp (by
    have := congrArg List.length e2; simpa [Mem.vals] using this)
  obtain ⟨j, hj⟩ : ∃ j, w.o.sens.addr = [j] := List.length_eq_one_iff.mp (by
    have := congrArg (fun a : Arr => a.data.length) e3; simpa [Mem.vals, Mem.read] using this)
  have hsh : w.o.sens.shape = [1, 1] := congrArg Arr.shape e3
  rw [hk] at d1 d3
  rw [hj] at d2 d3
  have n1 : k ∉ w.o.inputVal0 := fun h => d1 h (by simp)
  have n2 : j ∉ w.o.inputVal0 := fun h => d2 h (by simp)
  have n3 : k ≠ j := fun h => d3 (List.mem_singleton.2 rfl) (List.mem_singleton.2 h)
  have hk' : ∀ l ∈ (Ref.vec w.o.hyperVal0).addr, l < w.st.mem.next := hwf.hyper
  refine ⟨hR, ?_, ⟨Ref.vec w.o.hyperVal0, hg, ⟨hk', trivial⟩, ?_⟩, ⟨hwf.sens, trivial⟩, ?_⟩
  · rw [predictAt_eq hwf, e1, e2, e3, lin_predict]
    simp
  · have ok : (LEvent.other (.other (.assign ⟨Ref.vec w.o.hyperVal0, 0, y⟩))).Ok (d + 1) w := hk'
    have h' := (levent_wf hwf _ ok).1
    simp only [runL]
    rw [predictAt_eq h']
    simp only [LEvent.run, PEvent.run, Event.run, Mem.vals, Mem.read, hwr (Ref.vec w.o.hyperVal0) k hk]
    rw [hin _ _ n1, hin w.o.sens.addr _ (by rw [hj]; simpa using n3), e1, hk]
    have : (⟨w.o.sens.shape, w.st.mem.vals w.o.sens.addr⟩ : Arr) = ⟨[1, 1], [1]⟩ := e3
    rw [this]
    simp only [List.map_cons, List.map_nil, Function.update_self, lin_predict, one_mul]
  · have ok : (LEvent.other (.other (.assign ⟨w.dinputDhyper, 0, y⟩))).Ok (d + 1) w := hwf.sens
    have h' := (levent_wf hwf _ ok).1
    simp only [runL]
    rw [predictAt_eq h']
    simp only [LEvent.run, PEvent.run, Event.run, Mem.vals, Mem.read, hwr w.dinputDhyper j hj]
    rw [hin _ _ n2, hin w.o.hyperVal0 _ (by rw [hk]; simpa using Ne.symm n3), e1, e2, hj, hsh]
    simp only [List.map_cons, List.map_nil, Function.update_self, lin_predict]

/-- A program that meets the conditions of the theorems: `set_base_values` with the arrays of the constructor,
then the first array is overwritten, the hyperparameter gets the new numbers, and a prediction is made. -/
example (d : ℕ) (b y : ℝ) :
    let w := (linWorld d b).1
    let w' := (w.setBaseValues (d + 1) [2] [3] none).1
    let es : List LEvent := [.other (.other (.assign ⟨Ref.vec [2], 0, y⟩)), .other (.other (.call (.setVector 1 [2]))),
      .predict [2]]
    LReached (d + 1) w ∧ (∃ T, w.view (d + 1) = some T) ∧ w.st.Apart (d + 1) w.o.inputPar w.o.hyperPar ∧
      (LEvent.setBase [2] [3] none).Ok (d + 1) w ∧ (w.setBaseValues (d + 1) [2] [3] none).2 = .ok () ∧
      okL (d + 1) w' es ∧ (∀ e ∈ es, ¬ e.Resets) ∧
      ∀ e ∈ es, ∀ k ∈ e.writes, k < w.st.mem.next ∨ w'.st.mem.next ≤ k := by
  intro w w' es
  obtain ⟨hR, -, hi, hh, ha, ⟨T, v, c, u, e, hT, q1, q2, q3, q4, q5, q6, -⟩, v2, v3, hal, -⟩ := linWorld_facts d b
  have hok : (LEvent.setBase [2] [3] none).Ok (d + 1) w :=
    ⟨fun k hk => hal k (by simp [Ref.vec] at hk ⊢; simp [hk]), fun k hk => hal k (by simp [Ref.vec] at hk ⊢; simp [hk]),
      by simp⟩
  have hA : w.st.Apart (d + 1) w.o.inputPar w.o.hyperPar := by
    change (linWorld d b).1.st.Apart (d + 1) (linWorld d b).1.o.inputPar (linWorld d b).1.o.hyperPar
    rw [hi, hh]; exact ha
  have hs := (C119_set_base_partial hR hT hA [2] [3] none hok).2
  obtain ⟨T', hT', -⟩ := lin_setBase q1 q2 q3 q4 q5 q6 b
  change outcome _ = (T.setBaseValues ((linWorld d b).1.st.mem.vals [2]) ((linWorld d b).1.st.mem.vals [3]) none).2 at hs
  rw [v2, v3, hT'] at hs
  have hg := (setBaseValues_step (depth := d + 1) hR.wf [2] [3] (hess0 := none) (by simp))
  have hwf' := hg.wf hR.wf
  have k2 : (Ref.vec [2]).Alive w'.st.mem := hok.1.mono hg.grow.le
  refine ⟨hR, ⟨T, hT⟩, hA, hok, outcome_ok hs, ?_, by simp [es, LEvent.Resets], ?_⟩
  · have m1 : ∀ e ∈ es, e.Ok (d + 1) w' := by
      simpa [es, LEvent.Ok, PEvent.Ok, Event.Ok, Call.args] using k2
    refine ⟨m1 _ (by simp [es]), ?_, ?_, trivial⟩
    · have := (levent_wf hwf' _ (m1 (.other (.other (.assign ⟨Ref.vec [2], 0, y⟩))) (by simp [es]))).2
      intro r hr k hk
      simp only [Call.args, List.mem_singleton] at hr
      subst hr
      exact lt_of_lt_of_le (k2 k hk) this
    · have l1 := levent_wf hwf' _ (m1 (.other (.other (.assign ⟨Ref.vec [2], 0, y⟩))) (by simp [es]))
      intro k hk
      have l2 := levent_wf (depth := d + 1) l1.1 (.other (.other (.call (.setVector 1 [2])))) (by
        intro r hr k hk
        simp only [Call.args, List.mem_singleton] at hr
        subst hr
        exact lt_of_lt_of_le (k2 k hk) l1.2)
      exact lt_of_lt_of_le (lt_of_lt_of_le (k2 k hk) l1.2) l2.2
  · intro e he k hk
    left
    simp only [es, List.mem_cons, List.not_mem_nil, or_false] at he
    rcases he with rfl | rfl | rfl
    · exact hok.1 k hk
    · simp [LEvent.writes] at hk
    · simp [LEvent.writes] at hk

end

end LRVB
