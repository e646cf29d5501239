import Verif.Lemmas.HeapTaylor
import Verif.Props.HeapSens

/-!
# C121: Taylor expansions that hold references
-/

namespace LRVB

open Classical Flt
open scoped ContDiff Matrix

noncomputable section

/-- **C121** (nothing is written) No method, whether it returns or raises, and whatever the parameters share,
changes an array that existed before. -/
theorem C121_arrays_unchanged {depth : ℕ} :
    (∀ {st : Store} (_ : PReached Unit depth st) (objFn : Param → Param → Py Arr) (i j : ℕ) (x v : List ℕ) (order : ℕ)
      (fi fh : Bool) (hess0 : Option Ref) (hyperFn : Option (Param → Param → Py Arr)) (r : Ref), r.Alive st.mem →
      (TWorld.new depth st objFn i j x v order fi fh hess0 hyperFn).1.st.mem.read r = st.mem.read r) ∧
    ∀ {w : TWorld} (_ : TReached depth w) (r : Ref), r.Alive w.st.mem →
      (∀ (x v : List ℕ) (hess0 : Option Ref), (TEvent.setBase x v hess0).Ok depth w →
        (w.setBaseValues depth x v hess0).1.st.mem.read r = w.st.mem.read r) ∧
      (∀ order : ℕ, (w.setOrder depth order).1.st.mem.read r = w.st.mem.read r) ∧
      (∀ (d : List ℕ) (k : ℤ), (w.evaluateDk depth d k).1.st.mem.read r = w.st.mem.read r) ∧
      ∀ (d : List ℕ) (off : Bool) (m : Option ℤ), (w.evaluateSeries depth d off m).1.st.mem.read r = w.st.mem.read r := by
  refine ⟨fun h objFn i j x v n fi fh hess0 hyperFn r hr => ?_, fun h r hr =>
    ⟨fun x v hess0 ok => ?_, fun n => ?_, fun d k => ?_, fun d off m => ?_⟩⟩
  · exact (tNew_step h.wf objFn i j x v n fi fh hess0 hyperFn).grow.le.read hr
  · exact (tSetBaseValues_step h.wf x v ok.2.2).grow.le.read hr
  · exact (tSetOrder_step _ n).grow.le.read hr
  · exact (tEvaluateDk_step h.wf d k).grow.le.read hr
  · exact (tEvaluateSeries_step h.wf d off m).grow.le.read hr

/-- **C121** (setting base values, partial) If the two parameters have no object in common, `set_base_values`
returns or raises, and leaves behind, what the model without references says.  Missing: parameters with
common objects, for which the claim is false (`C117_counterexample`). -/
theorem C121_set_base_partial {depth : ℕ} {w : TWorld} (h : TReached depth w) {T : Taylor} (hT : w.view depth = some T)
    (ha : w.st.Apart depth w.o.inputPar w.o.hyperPar) (x v : List ℕ) (hess0 : Option Ref)
    (ok : (TEvent.setBase x v hess0).Ok depth w) :
    (w.setBaseValues depth x v hess0).1.view depth =
        some (T.setBaseValues (w.st.mem.vals x) (w.st.mem.vals v) (hess0.map w.st.mem.read)).1 ∧
      outcome (w.setBaseValues depth x v hess0).2 =
        (T.setBaseValues (w.st.mem.vals x) (w.st.mem.vals v) (hess0.map w.st.mem.read)).2 := by
  obtain ⟨k1, k2⟩ := tSetBaseValues_sim (x := x) (v := v) (TSim.of_view h.wf hT ha) ok.2.1 ok.2.2
  exact ⟨k1.view, k2⟩

/-- **C121** (setting the order, partial) The same for `set_order`. -/
theorem C121_set_order_partial {depth : ℕ} {w : TWorld} (h : TReached depth w) {T : Taylor} (hT : w.view depth = some T)
    (ha : w.st.Apart depth w.o.inputPar w.o.hyperPar) (order : ℕ) :
    (w.setOrder depth order).1.view depth = some (T.setOrder order).1 ∧
      outcome (w.setOrder depth order).2 = (T.setOrder order).2 := by
  obtain ⟨k1, k2⟩ := tSetOrder_sim (TSim.of_view h.wf hT ha) order
  exact ⟨k1.view, k2⟩

/-- **C121** (evaluation, partial) The same for a derivative and for the Taylor series; what they return is a
new array. -/
theorem C121_evaluate_partial {depth : ℕ} {w : TWorld} (h : TReached depth w) {T : Taylor} (hT : w.view depth = some T)
    (ha : w.st.Apart depth w.o.inputPar w.o.hyperPar) (d : List ℕ) (hd : (Ref.vec d).Alive w.st.mem) :
    (∀ k : ℤ, (w.evaluateDk depth d k).1.view depth = some (T.evaluateDk (w.st.mem.vals d) k).1 ∧
      (w.evaluateDk depth d k).1.st.mem.vals <$> (w.evaluateDk depth d k).2 = (T.evaluateDk (w.st.mem.vals d) k).2 ∧
      ∀ y, (w.evaluateDk depth d k).2 = .ok y → ∀ a ∈ y, w.st.mem.next ≤ a) ∧
    ∀ (off : Bool) (m : Option ℤ),
      (w.evaluateSeries depth d off m).1.view depth = some (T.evaluateSeries (w.st.mem.vals d) off m).1 ∧
      (w.evaluateSeries depth d off m).1.st.mem.vals <$> (w.evaluateSeries depth d off m).2 =
        (T.evaluateSeries (w.st.mem.vals d) off m).2 ∧
      ∀ y, (w.evaluateSeries depth d off m).2 = .ok y → ∀ a ∈ y, w.st.mem.next ≤ a := by
  have hs := TSim.of_view h.wf hT ha
  refine ⟨fun k => ?_, fun off m => ?_⟩
  · obtain ⟨a, b, c⟩ := tEvaluateDk_sim hs d k
    exact ⟨a.view, b, c⟩
  · obtain ⟨a, b, c⟩ := tEvaluateSeries_sim hs hd off m
    exact ⟨a.view, b, c⟩

/-- **C121** (the constructor, partial) The same for the constructor. -/
theorem C121_new_partial {depth : ℕ} {st : Store} (h : PReached Unit depth st) (objFn : Param → Param → Py Arr) {i j : ℕ}
    {p q : Param} (hp : st.tree depth i = some p) (hq : st.tree depth j = some q) (ha : st.Apart depth i j) (x v : List ℕ)
    (hv : (Ref.vec v).Alive st.mem) (order : ℕ) (fi fh : Bool) (hess0 : Option Ref)
    (hyperFn : Option (Param → Param → Py Arr)) :
    let r := TWorld.new depth st objFn i j x v order fi fh hess0 hyperFn
    let R := Taylor.new objFn p q (st.mem.vals x) (st.mem.vals v) order fi fh (hess0.map st.mem.read) hyperFn
    (∀ e, r.2 = .error e ↔ R = .error e) ∧ ∀ T, R = .ok T → r.2 = .ok () ∧ r.1.view depth = some T := by
  intro r R
  have hw := TWorld.blank_wf h.wf objFn (hyperFn.getD objFn) i j fi fh
  have h0 : TSim depth ⟨st, i, j, fi, fh, objFn, hyperFn.getD objFn, [], [], ⟨[0, 0], []⟩, ⟨[0, 0], []⟩, 0, none⟩
      ⟨p, q, fi, fh, objFn, hyperFn.getD objFn, ⟨⟨[0, 0], []⟩, [], []⟩, ⟨[0, 0], []⟩, 0, [], []⟩ :=
    ⟨⟨hw, ⟨h.wf, hp, hq, ha⟩, rfl⟩, rfl, rfl, rfl⟩
  obtain ⟨k1, k2⟩ := tSetBaseValues_sim (x := x) (v := v) h0 hv (hess0 := none) (by simp)
  have hr : r = thenDo (TWorld.setBaseValues depth ⟨st, i, j, fi, fh, objFn, hyperFn.getD objFn, [], [],
    ⟨[0, 0], []⟩, ⟨[0, 0], []⟩, 0, none⟩ x v none) fun w => w.setOrder depth order := rfl
  have hR : R = Taylor.new objFn p q (st.mem.vals x) (st.mem.vals v) order fi fh (hess0.map st.mem.read) hyperFn := rfl
  clear_value r R
  unfold Taylor.new at hR
  simp only at hR
  simp only [Option.map_none] at k1 k2
  generalize TWorld.setBaseValues depth ⟨st, i, j, fi, fh, objFn, hyperFn.getD objFn, [], [],
    ⟨[0, 0], []⟩, ⟨[0, 0], []⟩, 0, none⟩ x v none = s at *
  generalize (⟨p, q, fi, fh, objFn, hyperFn.getD objFn, ⟨⟨[0, 0], []⟩, [], []⟩, ⟨[0, 0], []⟩, 0, [], []⟩ :
    Taylor).setBaseValues (st.mem.vals x) (st.mem.vals v) none = S at *
  obtain ⟨k3, k4⟩ := tSetOrder_sim k1 order
  cases hS : S.2 with
  | some e =>
    rw [hS] at k2 hR
    have he := outcome_error k2
    rw [hr, hR]
    unfold thenDo
    rw [he]
    exact ⟨fun e' => by simp, fun T hT => by cases hT⟩
  | none =>
    rw [hS] at k2 hR
    have he := outcome_ok k2
    rw [hr, hR]
    unfold thenDo
    rw [he]
    cases hO : (S.1.setOrder order).2 with
    | some e =>
      rw [hO] at k4
      simp only [hO]
      rw [outcome_error k4]
      exact ⟨fun e' => by simp, fun T hT => by cases hT⟩
    | none =>
      rw [hO] at k4
      simp only [hO]
      rw [outcome_ok k4]
      refine ⟨by simp, fun T hT => ?_⟩
      cases hT
      exact ⟨rfl, k3.view⟩

/-- **C121** (later, partial) Whatever the program does after `set_base_values` has returned, as long as it does
not set base values or the order again and, among the arrays it changes in place, there is neither one that
was made during the call nor the Hessian passed to it, the derivatives and the Taylor series do not change.
The parameters must still have no object in common, and the structure that they had.  In particular the program
may change the arrays of base values that it passed, assign new values to the parameters, and evaluate
objectives of them.  Missing: programs that change the passed Hessian, or an array made during the call, for
which the claim is false (`C121_counterexample`), and parameters with common objects (`C117_counterexample`). -/
theorem C121_later_partial {depth : ℕ} {w : TWorld} (h : TReached depth w) {x v : List ℕ} {hess0 : Option Ref}
    (ok : (TEvent.setBase x v hess0).Ok depth w) (hret : (w.setBaseValues depth x v hess0).2 = .ok ())
    (es : List TEvent) (hes : okT depth (w.setBaseValues depth x v hess0).1 es) (hr : ∀ e ∈ es, ¬ e.Resets)
    (hw : ∀ e ∈ es, ∀ k ∈ e.writes,
      k < w.st.mem.next ∨ (w.setBaseValues depth x v hess0).1.st.mem.next ≤ k)
    (hh : ∀ r, hess0 = some r → ∀ e ∈ es, ∀ k ∈ e.writes, k ∉ r.addr) {T T' : Taylor}
    (hT : (w.setBaseValues depth x v hess0).1.view depth = some T)
    (ha : (w.setBaseValues depth x v hess0).1.st.Apart depth w.o.inputPar w.o.hyperPar)
    (hT' : (runT depth (w.setBaseValues depth x v hess0).1 es).view depth = some T')
    (ha' : (runT depth (w.setBaseValues depth x v hess0).1 es).st.Apart depth w.o.inputPar w.o.hyperPar)
    (hp : T'.inputPar.blank = T.inputPar.blank) (hq : T'.hyperPar.blank = T.hyperPar.blank) (y : List ℝ) :
    (∀ k : ℤ, (runT depth (w.setBaseValues depth x v hess0).1 es).dkAt depth y k =
      (w.setBaseValues depth x v hess0).1.dkAt depth y k) ∧
    ∀ (off : Bool) (m : Option ℤ), (runT depth (w.setBaseValues depth x v hess0).1 es).seriesAt depth y off m =
      (w.setBaseValues depth x v hess0).1.seriesAt depth y off m := by
  have st := tSetBaseValues_step (depth := depth) h.wf x v ok.2.2
  have hwf := st.wf h.wf
  obtain ⟨f1, f2, f3, -⟩ := tSetBaseValues_fresh h.wf ok.2.2 hret
  obtain ⟨g1, g2, g3⟩ := runT_keeps es hwf hes hr fun e he k hk hk' => by
    rcases List.mem_append.1 hk' with hk' | hk'
    · have := f1 k hk'
      rcases hw e he k hk with h1 | h1 <;> omega
    · cases hess0 with
      | some r =>
        rw [f2 r rfl] at hk'
        exact hh r rfl e he k hk hk'
      | none =>
        have := f3 rfl k hk'
        rcases hw e he k hk with h1 | h1 <;> omega
  have i1 : (w.setBaseValues depth x v hess0).1.o.inputPar = w.o.inputPar := st.inputPar
  have i2 : (w.setBaseValues depth x v hess0).1.o.hyperPar = w.o.hyperPar := st.hyperPar
  have s1 := TSim.of_view hwf hT (by rw [i1, i2]; exact ha)
  have s2 := TSim.of_view g1 hT' (by rw [g2, i1, i2]; exact ha')
  have hal := alike_of s1 s2 g2 g3 hp hq
  refine ⟨fun k => ?_, fun off m => ?_⟩
  · rw [dkAt_eq s1, dkAt_eq s2, evaluateDk_alike hal]
  · rw [seriesAt_eq s1, seriesAt_eq s2, evaluateSeries_alike hal]

/-- **C121** (later, partial) ... and these are the derivatives and the series of the model without references at
the base values. -/
theorem C121_base_partial {depth : ℕ} {w : TWorld} (h : TReached depth w) {T0 : Taylor} (hT0 : w.view depth = some T0)
    (ha0 : w.st.Apart depth w.o.inputPar w.o.hyperPar) {x v : List ℕ} {hess0 : Option Ref}
    (ok : (TEvent.setBase x v hess0).Ok depth w) (hret : (w.setBaseValues depth x v hess0).2 = .ok ())
    (es : List TEvent) (hes : okT depth (w.setBaseValues depth x v hess0).1 es) (hr : ∀ e ∈ es, ¬ e.Resets)
    (hw : ∀ e ∈ es, ∀ k ∈ e.writes,
      k < w.st.mem.next ∨ (w.setBaseValues depth x v hess0).1.st.mem.next ≤ k)
    (hh : ∀ r, hess0 = some r → ∀ e ∈ es, ∀ k ∈ e.writes, k ∉ r.addr) {T' : Taylor}
    (hT' : (runT depth (w.setBaseValues depth x v hess0).1 es).view depth = some T')
    (ha' : (runT depth (w.setBaseValues depth x v hess0).1 es).st.Apart depth w.o.inputPar w.o.hyperPar)
    (hp : T'.inputPar.blank = T0.inputPar.blank) (hq : T'.hyperPar.blank = T0.hyperPar.blank) (y : List ℝ) :
    ∃ T, T0.setBaseValues (w.st.mem.vals x) (w.st.mem.vals v) (hess0.map w.st.mem.read) = (T, none) ∧
      (∀ k : ℤ, (runT depth (w.setBaseValues depth x v hess0).1 es).dkAt depth y k = (T.evaluateDk y k).2) ∧
      ∀ (off : Bool) (m : Option ℤ), (runT depth (w.setBaseValues depth x v hess0).1 es).seriesAt depth y off m =
        (T.evaluateSeries y off m).2 := by
  obtain ⟨k1, k2⟩ := tSetBaseValues_sim (x := x) (v := v) (TSim.of_view h.wf hT0 ha0) ok.2.1 ok.2.2
  rw [hret] at k2
  obtain ⟨p, q, b, c, e1, b1, b2⟩ := T0.setBaseValues_shape (w.st.mem.vals x) (w.st.mem.vals v) (hess0.map w.st.mem.read)
  have st := tSetBaseValues_step (depth := depth) h.wf x v ok.2.2
  have i1 : (w.setBaseValues depth x v hess0).1.o.inputPar = w.o.inputPar := st.inputPar
  have i2 : (w.setBaseValues depth x v hess0).1.o.hyperPar = w.o.hyperPar := st.hyperPar
  have hl := C121_later_partial h ok hret es hes hr hw hh k1.view (by rw [← i1, ← i2]; exact k1.lin.duo.apart) hT' ha'
    (by rw [e1]; exact hp.trans b1.symm) (by rw [e1]; exact hq.trans b2.symm) y
  refine ⟨_, Prod.ext rfl k2.symm, fun k => ?_, fun off m => ?_⟩
  · rw [hl.1, dkAt_eq k1]
  · rw [hl.2, seriesAt_eq k1]

/-! ### An example, and the counterexample -/

/-- A program that makes two parameters of size 1, two arrays of base values and a Hessian. -/
def tayProgram (b : ℝ) : List Event := linProgram b b ++ [.newArray ⟨[1, 1], [1]⟩]

theorem tayProgram_store (depth : ℕ) (b : ℝ) :
    Reached depth (runEvents depth emptyStore (tayProgram b)) ∧
    ∃ m, runEvents depth emptyStore (tayProgram b) = ⟨m, [.leaf ⟨"a", .vector 1 ninf pinf, ⟨[1], [0]⟩, false⟩,
        .leaf ⟨"b", .vector 1 ninf pinf, ⟨[1], [1]⟩, false⟩]⟩ ∧
      m.next = 5 ∧ m.cell 2 = b ∧ m.cell 3 = b ∧ m.cell 4 = 1 := by
  obtain ⟨hr, m, hs, hn, h2, h3⟩ := linProgram_store depth b b
  have he : ∀ (es : List Event) (st : Store) (e : Event), runEvents depth st (es ++ [e]) = e.run depth (runEvents depth st es) := by
    intro es
    induction es with
    | nil => intro st e; rfl
    | cons a es ih => intro st e; exact ih _ _
  rw [tayProgram, he, hs]
  rw [hs] at hr
  refine ⟨.step hr (.newArray _) trivial, _, rfl, ?_, ?_, ?_, ?_⟩
  · simp [Mem.alloc, hn]
  · simp [Mem.alloc, hn, h2]
  · simp [Mem.alloc, hn, h3]
  · simp [Mem.alloc, hn]

/-- The Taylor expansion of order 1 of `x² / 2 - ε x` at the arrays `[b]` and `[b]`. -/
def tayWorld (d : ℕ) (b : ℝ) : TWorld × Py Unit :=
  TWorld.new (d + 1) (runEvents (d + 1) emptyStore (tayProgram b)) (scFn exQ) 0 1 [2] [3] 1 true false none none

/-- The Hessian `[[1]]` that the program has made. -/
def tayHess : Ref := ⟨[1, 1], [4]⟩

/-- The derivative of the optimum of the quadratic objective, with any Hessian. -/
private theorem quad_dk {T : Taylor} (hT : Taylor.Inv exQF true false T) (ho : 1 ≤ T.order) {b c : ℝ} (hc : c ≠ 0)
    (hb : T.base = ⟨⟨[1, 1], [c]⟩, [b], [b]⟩) (z : ℝ) : (T.evaluateDk [z] 1).2 = .ok [z / c] := by
  have hM : toMatrix 1 1 ⟨[1, 1], [c]⟩ = Matrix.diagonal fun _ => c := by
    ext i j
    rw [Subsingleton.elim i 0, Subsingleton.elim j 0]
    simp [toMatrix, Arr.at2]
  obtain ⟨s1, s2⟩ := TwoObjective.evalFun_ok (hT.ev [b] [b] rfl rfl)
  simp only at s1 s2
  have := Taylor.evaluateDk_one hT.ready one_pos one_pos (d := [z]) (by rw [hb]; rfl) (by rw [hb]; rfl) rfl
    (by rw [hb]) (by rw [hb, hM]; simpa using hc) (by rw [hb, hT.hfi]; exact s1) (by rw [hb, hT.hfh]; exact s2) ho
  rw [this, hb, hM, inv_diagonal_one hc, exQF_gradF]
  simp [Matrix.mulVec_diagonal, toVec]
  field_simp

/-- What the example contains. -/
private theorem tayWorld_facts (d : ℕ) (b : ℝ) :
    TReached (d + 1) (tayWorld d b).1 ∧ (tayWorld d b).1.o.inputPar = 0 ∧
    (tayWorld d b).1.o.hyperPar = 1 ∧ (tayWorld d b).1.st.Apart (d + 1) 0 1 ∧
    (∃ T, (tayWorld d b).1.view (d + 1) = some T ∧ Taylor.Inv exQF true false T ∧ T.order = 1) ∧
    (tayWorld d b).1.st.mem.vals [2] = [b] ∧ (tayWorld d b).1.st.mem.vals [3] = [b] ∧
    (tayWorld d b).1.st.mem.read tayHess = ⟨[1, 1], [1]⟩ ∧
    (Ref.vec [2, 3, 4]).Alive (tayWorld d b).1.st.mem := by
  obtain ⟨hr, m, hs, hn, h2, h3, h4⟩ := tayProgram_store (d + 1) b
  have hst : PReached Unit (d + 1) (runEvents (d + 1) emptyStore (tayProgram b)) := hr.preached
  have ht : (runEvents (d + 1) emptyStore (tayProgram b)).tree (d + 1) 0 = some (vecOne "a" ⟨[1], [m.cell 0]⟩ false) ∧
      (runEvents (d + 1) emptyStore (tayProgram b)).tree (d + 1) 1 = some (vecOne "b" ⟨[1], [m.cell 1]⟩ false) ∧
      (runEvents (d + 1) emptyStore (tayProgram b)).Apart (d + 1) 0 1 ∧
      (Ref.vec [2, 3, 4]).Alive (runEvents (d + 1) emptyStore (tayProgram b)).mem ∧
      (runEvents (d + 1) emptyStore (tayProgram b)).mem.vals [2] = [b] ∧
      (runEvents (d + 1) emptyStore (tayProgram b)).mem.vals [3] = [b] ∧
      (runEvents (d + 1) emptyStore (tayProgram b)).mem.read tayHess = ⟨[1, 1], [1]⟩ := by
    rw [hs]
    simp [Store.tree, HLeaf.view, vecOne, Mem.read, Mem.vals, Store.Apart, Store.foot, Ref.Alive, Ref.vec, hn, h2, h3, h4,
      tayHess]
  clear hs hr
  unfold tayWorld
  generalize runEvents (d + 1) emptyStore (tayProgram b) = st at *
  obtain ⟨t1, t2, ta, tal, tv2, tv3, tv4⟩ := ht
  have ha3 : (Ref.vec [3]).Alive st.mem := fun k hk => tal k (by simp [Ref.vec] at hk ⊢; simp [hk])
  have ha2 : (Ref.vec [2]).Alive st.mem := fun k hk => tal k (by simp [Ref.vec] at hk ⊢; simp [hk])
  have ha4 : tayHess.Alive st.mem := fun k hk => tal k (by simp [tayHess, Ref.vec] at hk ⊢; simp [hk])
  obtain ⟨T, hT, q1, -, q2, -⟩ := Taylor.new_ok exQF_smooth one_pos (x := [b]) (e := [b])
    (vecOne_evaluates "a" "b" ⟨[1], [m.cell 0]⟩ ⟨[1], [m.cell 1]⟩ false false true false exQ) rfl rfl (exQF_curv b b)
    (order := 1) le_rfl none
  have hnew := (C121_new_partial hst (scFn exQ) t1 t2 ta [2] [3] ha3 1 true false none none).2 T
    (by rw [tv2, tv3]; exact hT)
  have hstep := tNew_step (depth := d + 1) hst.wf (scFn exQ) 0 1 [2] [3] 1 true false none none
  refine ⟨.start hst _ _ _ _ _ _ _ _ _ _ ha2 ha3 hnew.1, hstep.inputPar, hstep.hyperPar, ?_,
    ⟨T, hnew.2, q1, q2⟩, ?_, ?_, ?_, ?_⟩
  · exact apart_skel ta hstep.grow.skel
  · rw [← tv2]; exact hstep.grow.le.vals ha2
  · rw [← tv3]; exact hstep.grow.le.vals ha3
  · rw [← tv4]; exact hstep.grow.le.read ha4
  · exact tal.mono hstep.grow.le

/-- ... after `set_base_values([b], [b], [[1]])`. -/
private theorem tayBased_facts (d : ℕ) (b : ℝ) :
    (TEvent.setBase [2] [3] (some tayHess)).Ok (d + 1) (tayWorld d b).1 ∧
    ((tayWorld d b).1.setBaseValues (d + 1) [2] [3] (some tayHess)).2 = .ok () ∧
    ∃ T, TSim (d + 1) ((tayWorld d b).1.setBaseValues (d + 1) [2] [3] (some tayHess)).1 T ∧
      Taylor.Inv exQF true false T ∧ T.order = 1 ∧ T.base = ⟨⟨[1, 1], [1]⟩, [b], [b]⟩ := by
  obtain ⟨hR, hi, hh, ha, ⟨T, hT, q1, q2⟩, v2, v3, v4, hal⟩ := tayWorld_facts d b
  have hok : (TEvent.setBase [2] [3] (some tayHess)).Ok (d + 1) (tayWorld d b).1 :=
    ⟨fun k hk => hal k (by simp [Ref.vec] at hk ⊢; simp [hk]), fun k hk => hal k (by simp [Ref.vec] at hk ⊢; simp [hk]),
      fun r hr k hk => hal k (by cases hr; simp [tayHess, Ref.vec] at hk ⊢; simp [hk])⟩
  obtain ⟨k1, k2⟩ := tSetBaseValues_sim (x := [2]) (v := [3]) (TSim.of_view hR.wf hT (by rw [hi, hh]; exact ha)) hok.2.1
    hok.2.2
  rw [v2, v3, Option.map_some, v4] at k1 k2
  have hpd : (toMatrix 1 1 ⟨[1, 1], [1]⟩).PosDef := by
    have : toMatrix 1 1 ⟨[1, 1], [1]⟩ = Matrix.diagonal fun _ => (1 : ℝ) := by
      ext i j
      rw [Subsingleton.elim i 0, Subsingleton.elim j 0]
      simp [toMatrix, Arr.at2]
    rw [this]
    exact Matrix.PosDef.diagonal fun _ => one_pos
  obtain ⟨l, e1⟩ := Taylor.setBase_supplied q1 (x := [b]) (e := [b]) rfl rfl rfl hpd
  have hI := q1.step exQF_smooth (.setBase [b] [b] (some ⟨[1, 1], [1]⟩))
  rw [Taylor.step] at hI
  refine ⟨hok, outcome_ok (by rw [k2, e1]), _, k1, hI, ?_, ?_⟩
  · rw [e1]; exact q2
  · rw [e1]

/-- **C121** (counterexample) The Taylor expansion of `x² / 2 - ε x` at the arrays `[b]` and `[b]`, with its Hessian
passed as the array `[[1]]`, returns the derivative `[z]` in the direction `[z]`.  If the program sets the
entry of the array that it passed to `c`, the derivative becomes `[z / c]`. -/
theorem C121_counterexample (d : ℕ) (b c z : ℝ) (hc : c ≠ 0) :
    let w := ((tayWorld d b).1.setBaseValues (d + 1) [2] [3] (some tayHess)).1
    TReached (d + 1) w ∧ w.dkAt (d + 1) [z] 1 = .ok [z] ∧
    okT (d + 1) w [.other (.other (.assign ⟨tayHess, 0, c⟩))] ∧
    (runT (d + 1) w [.other (.other (.assign ⟨tayHess, 0, c⟩))]).dkAt (d + 1) [z] 1 = .ok [z / c] := by
  intro w
  obtain ⟨hR, hi, hh, ha, -, -, -, -, hal⟩ := tayWorld_facts d b
  obtain ⟨hok, hret, T, hs, hI, ho, hb⟩ := tayBased_facts d b
  obtain ⟨f1, f2, -⟩ := tSetBaseValues_fresh hR.wf hok.2.2 hret
  have st := tSetBaseValues_step (depth := d + 1) hR.wf [2] [3] hok.2.2
  have hf : ∀ k ∈ w.o.inputVal0 ++ w.o.hyperVal0, k ≠ 4 := by
    intro k hk h4
    subst h4
    exact absurd (f1 4 hk).1 (not_le.2 (hal 4 (by simp [Ref.vec])))
  have hg : w.o.hess0 = tayHess := f2 _ rfl
  have hw : TReached (d + 1) w := hR.step (.setBase [2] [3] (some tayHess)) hok
  have hal' : tayHess.Alive w.st.mem := (hok.2.2 _ rfl).mono st.grow.le
  change TSim (d + 1) w T at hs
  clear_value w
  have ok : (TEvent.other (.other (.assign ⟨tayHess, 0, c⟩))).Ok (d + 1) w := hal'
  refine ⟨hw, ?_, ⟨ok, trivial⟩, ?_⟩
  · rw [dkAt_eq hs, quad_dk hI ho.ge one_ne_zero hb, div_one]
  · simp only [runT]
    have hwf := (tevent_step hw.wf _ ok).1
    have hsk : w.st.Skel ((TEvent.other (.other (.assign ⟨tayHess, 0, c⟩))).run (d + 1) w).st := assign_skel _ _
    obtain ⟨T', hs', b1, b2⟩ := hs.skel hwf hsk rfl
    have hfl := sim_fields hs hs' rfl b1 b2
    have hI' : Taylor.Inv exQF true false T' := by
      rw [hfl]
      exact hI.withPars rfl rfl rfl rfl rfl rfl b1 b2
    rw [dkAt_eq hs']
    refine quad_dk hI' (by rw [hfl]; exact ho.ge) hc (b := b) ?_ z
    rw [base_sim hs'.lin]
    rw [base_sim hs.lin] at hb
    have hcell : ∀ k, ((TEvent.other (.other (.assign ⟨tayHess, 0, c⟩))).run (d + 1) w).st.mem.cell k =
        Function.update w.st.mem.cell 4 c k := by
      intro k
      simp [TEvent.run, PEvent.run, Event.run, Store.assign, Mem.write, tayHess]
    have hv : ∀ x : List ℕ, (∀ k ∈ x, k ≠ 4) →
        ((TEvent.other (.other (.assign ⟨tayHess, 0, c⟩))).run (d + 1) w).st.mem.vals x = w.st.mem.vals x := fun x hx =>
      List.map_congr_left fun k hk => by rw [hcell, Function.update_of_ne (hx k hk)]
    have hO : ((TEvent.other (.other (.assign ⟨tayHess, 0, c⟩))).run (d + 1) w).o = w.o := rfl
    unfold TWorld.base at hb ⊢
    rw [hO, hv _ fun k hk => hf k (List.mem_append_left _ hk), hv _ fun k hk => hf k (List.mem_append_right _ hk), hg]
    simp only [Base.mk.injEq] at hb ⊢
    refine ⟨?_, hb.2⟩
    have h4 := hcell 4
    rw [Function.update_self] at h4
    exact congrArg (fun a => (⟨[1, 1], [a]⟩ : Arr)) h4

/-- A program that meets the conditions of the theorems: `set_base_values` with the arrays above, then the array of
base values is overwritten, the hyperparameter gets the new numbers, and a derivative is evaluated. -/
example (d : ℕ) (b y : ℝ) :
    let w := (tayWorld d b).1
    let w' := (w.setBaseValues (d + 1) [2] [3] (some tayHess)).1
    let es : List TEvent := [.other (.other (.assign ⟨Ref.vec [2], 0, y⟩)), .other (.other (.call (.setVector 1 [2]))),
      .evaluateDk [2] 1]
    TReached (d + 1) w ∧ w.st.Apart (d + 1) w.o.inputPar w.o.hyperPar ∧
      (TEvent.setBase [2] [3] (some tayHess)).Ok (d + 1) w ∧
      (w.setBaseValues (d + 1) [2] [3] (some tayHess)).2 = .ok () ∧ okT (d + 1) w' es ∧ (∀ e ∈ es, ¬ e.Resets) ∧
      (∀ e ∈ es, ∀ k ∈ e.writes, k < w.st.mem.next ∨ w'.st.mem.next ≤ k) ∧
      (∀ e ∈ es, ∀ k ∈ e.writes, k ∉ tayHess.addr) ∧
      w'.st.Apart (d + 1) w.o.inputPar w.o.hyperPar ∧ (runT (d + 1) w' es).st.Apart (d + 1) w.o.inputPar w.o.hyperPar ∧
      ∃ T0 T T', w.view (d + 1) = some T0 ∧ w'.view (d + 1) = some T ∧ (runT (d + 1) w' es).view (d + 1) = some T' ∧
        T'.inputPar.blank = T.inputPar.blank ∧ T'.hyperPar.blank = T.hyperPar.blank := by
  intro w w' es
  obtain ⟨hR, hi, hh, ha, ⟨T0, hT0, -⟩, -, -, -, hal⟩ := tayWorld_facts d b
  obtain ⟨hok, hret, T, hs, -⟩ := tayBased_facts d b
  have st := tSetBaseValues_step (depth := d + 1) hR.wf [2] [3] hok.2.2
  have hwf : w'.lin.WF := st.wf hR.wf
  have k2 : (Ref.vec [2]).Alive w'.st.mem := hok.1.mono st.grow.le
  have i1 : w'.o.inputPar = w.o.inputPar := st.inputPar
  have i2 : w'.o.hyperPar = w.o.hyperPar := st.hyperPar
  change TSim (d + 1) w' T at hs
  clear_value w'
  have okA : (TEvent.other (.other (.assign ⟨Ref.vec [2], 0, y⟩))).Ok (d + 1) w' := k2
  obtain ⟨wA, nA⟩ := tevent_step hwf _ okA
  have kA := k2.mono (m' := ((TEvent.other (.other (.assign ⟨Ref.vec [2], 0, y⟩))).run (d + 1) w').st.mem)
  have k3 : (Ref.vec [2]).Alive ((TEvent.other (.other (.assign ⟨Ref.vec [2], 0, y⟩))).run (d + 1) w').st.mem :=
    fun k hk => lt_of_lt_of_le (k2 k hk) nA
  have skA : w'.st.Skel ((TEvent.other (.other (.assign ⟨Ref.vec [2], 0, y⟩))).run (d + 1) w').st := assign_skel _ _
  have oA : ((TEvent.other (.other (.assign ⟨Ref.vec [2], 0, y⟩))).run (d + 1) w').o = w'.o := rfl
  have hes : es = [.other (.other (.assign ⟨Ref.vec [2], 0, y⟩)), .other (.other (.call (.setVector 1 [2]))),
      .evaluateDk [2] 1] := rfl
  have hrun : runT (d + 1) w' es = runT (d + 1) ((TEvent.other (.other (.assign ⟨Ref.vec [2], 0, y⟩))).run (d + 1) w')
    [.other (.other (.call (.setVector 1 [2]))), .evaluateDk [2] 1] := rfl
  have hokT : okT (d + 1) w' es = ((TEvent.other (.other (.assign ⟨Ref.vec [2], 0, y⟩))).Ok (d + 1) w' ∧
    okT (d + 1) ((TEvent.other (.other (.assign ⟨Ref.vec [2], 0, y⟩))).run (d + 1) w')
    [.other (.other (.call (.setVector 1 [2]))), .evaluateDk [2] 1]) := rfl
  rw [hrun, hokT]
  generalize (TEvent.other (.other (.assign ⟨Ref.vec [2], 0, y⟩))).run (d + 1) w' = wa at *
  have okB : (TEvent.other (.other (.call (.setVector 1 [2])))).Ok (d + 1) wa := by
    intro r hr
    simp only [Call.args, List.mem_singleton] at hr
    subst hr
    exact k3
  obtain ⟨wB, nB⟩ := tevent_step wA _ okB
  have skB : wa.st.Skel ((TEvent.other (.other (.call (.setVector 1 [2])))).run (d + 1) wa).st := by
    have := (setPar_grow (depth := d + 1) (i := 1) (x := [2]) false k3).skel
    simp only [Store.setPar, Bool.false_eq_true, if_false] at this
    exact this
  have oB : ((TEvent.other (.other (.call (.setVector 1 [2])))).run (d + 1) wa).o = wa.o := rfl
  have k4 : (Ref.vec [2]).Alive ((TEvent.other (.other (.call (.setVector 1 [2])))).run (d + 1) wa).st.mem :=
    fun k hk => lt_of_lt_of_le (k3 k hk) nB
  have hfin : runT (d + 1) wa [.other (.other (.call (.setVector 1 [2]))), .evaluateDk [2] 1] =
    (TEvent.evaluateDk [2] 1).run (d + 1) ((TEvent.other (.other (.call (.setVector 1 [2])))).run (d + 1) wa) := rfl
  have hok' : okT (d + 1) wa [.other (.other (.call (.setVector 1 [2]))), .evaluateDk [2] 1] :=
    ⟨okB, k4, trivial⟩
  rw [hfin]
  generalize (TEvent.other (.other (.call (.setVector 1 [2])))).run (d + 1) wa = wb at *
  have sC := tEvaluateDk_step (depth := d + 1) wB [2] 1
  have oC : ((TEvent.evaluateDk [2] 1).run (d + 1) wb).o = wb.o := tevent_object (by simp [TEvent.Resets])
  have hsk : w'.st.Skel ((TEvent.evaluateDk [2] 1).run (d + 1) wb).st := (skA.trans skB).trans sC.grow.skel
  have hA' : w'.st.Apart (d + 1) w'.o.inputPar w'.o.hyperPar := hs.lin.duo.apart
  rw [i1, i2] at hA'
  obtain ⟨T', hs', b1, b2⟩ := hs.skel (sC.wf wB) hsk (oC.trans (oB.trans oA))
  refine ⟨hR, ?_, hok, hret, ⟨k2, hok'⟩, by simp [hes, TEvent.Resets], ?_, ?_, hA', apart_skel hA' hsk, T0, T, T', hT0,
    hs.view, hs'.view, b1, b2⟩
  · change (tayWorld d b).1.st.Apart (d + 1) (tayWorld d b).1.o.inputPar (tayWorld d b).1.o.hyperPar
    rw [hi, hh]; exact ha
  · intro e he k hk
    left
    simp only [hes, List.mem_cons, List.not_mem_nil, or_false] at he
    rcases he with rfl | rfl | rfl
    · exact hok.1 k hk
    · simp [TEvent.writes] at hk
    · simp [TEvent.writes] at hk
  · intro e he k hk
    simp only [hes, List.mem_cons, List.not_mem_nil, or_false] at he
    rcases he with rfl | rfl | rfl
    · simp [TEvent.writes, Ref.vec] at hk
      simp [hk, tayHess]
    · simp [TEvent.writes] at hk
    · simp [TEvent.writes] at hk

end

end LRVB
