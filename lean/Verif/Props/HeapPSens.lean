import Verif.Lemmas.HeapPSensSim
import Verif.Props.HeapSens
import Verif.Props.Sensitivity

/-!
# C120: `ParametricSensitivity` objects that hold references
-/

namespace LRVB

open Classical Flt

noncomputable section

/-- **C120** (nothing is written) Neither the constructor, nor `set_optimal_input_par`, nor a prediction, whether
it returns or raises, and whatever the parameters share, changes an array that existed before. -/
theorem C120_arrays_unchanged {depth : ℕ} :
    (∀ {st : Store} (_ : PReached Unit depth st) (objFn : Param → Param → Py Arr) (i j k : ℕ)
      (conv : Store → Store × Py Unit) (_ : (HConverter.mk i j conv).Assigns depth) (x : Option (List ℕ))
      (hess : Option Ref) (_ : ∀ r, hess = some r → r.Alive st.mem) (hyperFn : Option (Param → Param → Py Arr)) (r : Ref),
      r.Alive st.mem → (SWorld.new depth st objFn i j k conv x hess hyperFn).1.st.mem.read r = st.mem.read r) ∧
    ∀ {w : SWorld} (_ : SReached depth w) (r : Ref), r.Alive w.st.mem →
      (∀ (x : Option (List ℕ)) (hess : Option Ref), (SEvent.setOptimal x hess).Ok depth w →
        (w.setOptimal depth x hess).1.st.mem.read r = w.st.mem.read r) ∧
      (∀ n : List ℕ, (w.predictInput n).1.st.mem.read r = w.st.mem.read r) ∧
      ∀ (n : List ℕ) (linear : Bool), (w.predictOutput depth n linear).1.st.mem.read r = w.st.mem.read r := by
  refine ⟨fun h objFn i j k conv hc x hess hh hyperFn r hr => ?_, fun h r hr => ⟨fun x hess ok => ?_, fun n => ?_,
    fun n linear => ?_⟩⟩
  · exact (setOptimal_step (SWorld.blank_wf h.wf _ _ _ _ _ _) hc x hh).grow.le.read hr
  · exact (setOptimal_step h.wf.1 h.wf.2 x ok.2).grow.le.read hr
  · exact (sens_predictInput_step _ n).grow.le.read hr
  · exact (sens_predictOutput_step h.wf.1 h.wf.2 n linear).grow.le.read hr

/-- **C120** (setting the optimum, partial) If no two of the three parameters have an object in common,
`set_optimal_input_par` returns or raises, and leaves behind, what the model without references says.
Missing: parameters with common objects, for which the claim is false (`C117_counterexample`,
`C118_counterexample`). -/
theorem C120_set_optimal_partial {depth : ℕ} {w : SWorld} (h : SReached depth w)
    {conv : Param → Param → Param × Option PyErr} (hd : w.converter.Describes depth conv) {S : Sens}
    (hS : w.view depth conv = some S) (h3 : w.st.Apart3 depth w.o.inputPar w.o.outputPar w.o.hyperPar)
    (x : Option (List ℕ)) (hess : Option Ref) (ok : (SEvent.setOptimal x hess).Ok depth w)
    (hq : hess = none → S.hyperPar.Plain) :
    (w.setOptimal depth x hess).1.view depth conv =
        some (S.setOptimal (x.map w.st.mem.vals) (hess.map w.st.mem.read)).1 ∧
      outcome (w.setOptimal depth x hess).2 = (S.setOptimal (x.map w.st.mem.vals) (hess.map w.st.mem.read)).2 := by
  obtain ⟨h1, h2, h4, h5⟩ := sens_view.1 hS
  obtain ⟨k1, k2⟩ := setOptimal_sim ⟨h.wf.1, ⟨h.wf.1.st, h1, h2, h4, h3⟩, h5⟩ h.wf.2 hd x hq ok.2
  exact ⟨k1.view, k2⟩

/-- **C120** (the constructor, partial) The same for the constructor. -/
theorem C120_new_partial {depth : ℕ} {st : Store} (h : PReached Unit depth st) (objFn : Param → Param → Py Arr)
    {i j k : ℕ} {p q r : Param} (hp : st.tree depth i = some p) (hq : st.tree depth j = some q)
    (hr : st.tree depth k = some r) (h3 : st.Apart3 depth i j k) {hconv : Store → Store × Py Unit}
    {conv : Param → Param → Param × Option PyErr} (hc : (HConverter.mk i j hconv).Assigns depth)
    (hd : (HConverter.mk i j hconv).Describes depth conv) (x : Option (List ℕ)) (hess : Option Ref)
    (hh : ∀ r, hess = some r → r.Alive st.mem) (hpl : hess = none → r.Plain)
    (hyperFn : Option (Param → Param → Py Arr)) :
    let w := SWorld.new depth st objFn i j k hconv x hess hyperFn
    let R := Sens.new objFn p q r conv (x.map st.mem.vals) (hess.map st.mem.read) hyperFn
    (∀ e, w.2 = .error e ↔ R = .error e) ∧ ∀ S, R = .ok S → w.2 = .ok () ∧ w.1.view depth conv = some S := by
  intro w R
  have hw := SWorld.blank_wf h.wf objFn (hyperFn.getD objFn) i j k hconv
  obtain ⟨k1, k2⟩ := setOptimal_sim (depth := depth) (conv := conv) (hess := hess)
    (S := ⟨p, q, r, conv, objFn, hyperFn.getD objFn, [], [], [], ⟨[0, 0], []⟩, ⟨[0, 0], []⟩, ⟨[0, 0], []⟩,
      ⟨[0, 0], []⟩, ⟨[0, 0], []⟩⟩)
    ⟨hw, ⟨h.wf, hp, hq, hr, h3⟩, rfl⟩ hc hd x hpl hh
  have hw0 : w = SWorld.setOptimal depth ⟨st, i, j, k, hconv, objFn, hyperFn.getD objFn, [], [], [],
    ⟨[0, 0], []⟩, ⟨[0, 0], []⟩, ⟨[0, 0], []⟩, ⟨[0, 0], []⟩, ⟨[0, 0], []⟩⟩ x hess := rfl
  rw [← hw0] at k1 k2
  have hR0 : R = Sens.new objFn p q r conv (x.map st.mem.vals) (hess.map st.mem.read) hyperFn := rfl
  clear_value R
  unfold Sens.new at hR0
  simp only at hR0 k1 k2
  generalize (⟨p, q, r, conv, objFn, hyperFn.getD objFn, [], [], [], ⟨[0, 0], []⟩, ⟨[0, 0], []⟩, ⟨[0, 0], []⟩,
    ⟨[0, 0], []⟩, ⟨[0, 0], []⟩⟩ : Sens).setOptimal (x.map st.mem.vals) (hess.map st.mem.read) = S at *
  cases hS : S.2 with
  | none =>
    have hR : R = .ok S.1 := by rw [hR0, hS]
    rw [hS] at k2
    rw [hR, outcome_ok k2]
    refine ⟨by simp, fun T hT => ?_⟩
    cases hT
    exact ⟨rfl, k1.view⟩
  | some e =>
    have hR : R = .error e := by rw [hR0, hS]
    rw [hS] at k2
    rw [hR, outcome_error k2]
    exact ⟨fun e' => by simp, fun T hT => by cases hT⟩

/-- **C120** (predictions of the input) A prediction is that of the model without references with the numbers
that the arrays of the object contain at that moment, in a new array; the object and its parameters stay
the same. -/
theorem C120_predict_input {depth : ℕ} {w : SWorld} (h : SReached depth w)
    {conv : Param → Param → Param × Option PyErr} {S : Sens} (hS : w.view depth conv = some S)
    (n : List ℕ) :
    (w.predictInput n).1.st.mem.vals <$> (w.predictInput n).2 = S.predictInput (w.st.mem.vals n) ∧
      (∀ y, (w.predictInput n).2 = .ok y → ∀ k ∈ y, w.st.mem.next ≤ k) ∧
      (w.predictInput n).1.view depth conv = some S := by
  obtain ⟨h1, h2, h3, h4⟩ := sens_view.1 hS
  have hpred : S.predictInput (w.st.mem.vals n) = (do
      let d ← vsub (w.st.mem.vals n) (w.st.mem.vals w.o.optHyper)
      vadd (w.st.mem.vals w.o.optInput) (← (w.st.mem.read w.o.sens).mulVec d)) := by
    rw [h4]; rfl
  rw [hpred]
  unfold SWorld.predictInput
  cases (do
      let d ← vsub (w.st.mem.vals n) (w.st.mem.vals w.o.optHyper)
      vadd (w.st.mem.vals w.o.optInput) (← (w.st.mem.read w.o.sens).mulVec d)) with
  | error e => exact ⟨rfl, by simp, hS⟩
  | ok v =>
    refine ⟨congrArg Except.ok (newVec_vals _ _), ?_, ?_⟩
    · intro y hy k hk
      cases hy
      exact Mem.alloc_new _ _ k hk
    · refine sens_view.2 ⟨?_, ?_, ?_, ?_⟩
      · rw [newVec_tree h.wf.1.st]; exact h1
      · rw [newVec_tree h.wf.1.st]; exact h2
      · rw [newVec_tree h.wf.1.st]; exact h3
      · rw [svalue_grow h.wf.1 (newVec_grow _ _) S.inputPar S.outputPar S.hyperPar, ← h4]

/-- **C120** (predictions of the output, partial) The same for the output, linear or not, if no two of the
parameters have an object in common.  Missing: parameters with common objects, and that the array is new:
with `linear=False` it may be the array that the output parameter holds (C118). -/
theorem C120_predict_output_partial {depth : ℕ} {w : SWorld} (h : SReached depth w)
    {conv : Param → Param → Param × Option PyErr} (hd : w.converter.Describes depth conv) {S : Sens}
    (hS : w.view depth conv = some S) (h3 : w.st.Apart3 depth w.o.inputPar w.o.outputPar w.o.hyperPar)
    (n : List ℕ) (linear : Bool) :
    (w.predictOutput depth n linear).1.st.mem.vals <$> (w.predictOutput depth n linear).2 =
        (S.predictOutput (w.st.mem.vals n) linear).2 ∧
      (w.predictOutput depth n linear).1.view depth conv = some (S.predictOutput (w.st.mem.vals n) linear).1 := by
  obtain ⟨h1, h2, h4, h5⟩ := sens_view.1 hS
  obtain ⟨k1, k2⟩ := sens_predictOutput_sim ⟨h.wf.1, ⟨h.wf.1.st, h1, h2, h4, h3⟩, h5⟩ h.wf.2 hd n linear
  exact ⟨k2, k1.view⟩

/-- **C120** (later, partial) Whatever the program does after `set_optimal_input_par` has returned, as long as it
does not set the optimum again and changes in place none of the arrays made during the call and none of the
arrays that the hyperparameter and the output parameter held, the predictions of the input and the linear
predictions of the output do not change.  In particular it may change the optimum and the Hessian that it
passed, assign new values to the parameters, make predictions and evaluate objectives.  Missing: programs
that change the array of the hyperparameter or of the output parameter in place, for which the claim is
false (`C120_counterexample`), and parameters with common objects. -/
theorem C120_later_partial {d : ℕ} {w : SWorld} (h : SReached (d + 1) w)
    (h3 : w.st.Apart3 (d + 1) w.o.inputPar w.o.outputPar w.o.hyperPar) {x : Option (List ℕ)} {hess : Option Ref}
    (ok : (SEvent.setOptimal x hess).Ok (d + 1) w) (hret : (w.setOptimal (d + 1) x hess).2 = .ok ())
    (es : List SEvent) (hes : okS (d + 1) (w.setOptimal (d + 1) x hess).1 es) (hr : ∀ e ∈ es, ¬ e.Resets)
    (hw : ∀ e ∈ es, ∀ k ∈ e.writes,
      (k < w.st.mem.next ∧ k ∉ w.st.holds w.o.hyperPar ∧ k ∉ w.st.holds w.o.outputPar) ∨
        (w.setOptimal (d + 1) x hess).1.st.mem.next ≤ k) (y : List ℝ) :
    (runS (d + 1) (w.setOptimal (d + 1) x hess).1 es).inputAt y = (w.setOptimal (d + 1) x hess).1.inputAt y ∧
      (runS (d + 1) (w.setOptimal (d + 1) x hess).1 es).outputAt (d + 1) y =
        (w.setOptimal (d + 1) x hess).1.outputAt (d + 1) y := by
  have hs := setOptimal_step h.wf.1 h.wf.2 x ok.2
  have hwf := hs.wf h.wf.1
  refine runS_predict es hwf (hs.assigns h.wf.2) hes hr fun e he k hk hk' => ?_
  rcases hw e he k hk with ⟨h1, h2, h4⟩ | h1
  · rcases setOptimal_cells h.wf.1 h.wf.2 h3 ok.2 hret k hk' with h5 | h5 | h5
    · exact absurd h1 (not_lt.2 h5)
    · exact h2 h5
    · exact h4 h5
  · refine absurd h1 (not_le.2 ?_)
    simp only [SWorld.cells, List.mem_append] at hk'
    rcases hk' with ((hk' | hk') | hk') | hk'
    · exact hwf.input k hk'
    · exact hwf.hyper k hk'
    · exact hwf.output k hk'
    · exact hwf.sens k hk'

/-- **C120** (later, partial) The same from the constructor on. -/
theorem C120_later_new_partial {d : ℕ} {st : Store} (h : PReached Unit (d + 1) st) (objFn : Param → Param → Py Arr)
    {i j k : ℕ} (h3 : st.Apart3 (d + 1) i j k) {conv : Store → Store × Py Unit}
    (hc : (HConverter.mk i j conv).Assigns (d + 1)) (x : Option (List ℕ)) (hess : Option Ref)
    (hh : ∀ r, hess = some r → r.Alive st.mem) (hyperFn : Option (Param → Param → Py Arr))
    (hret : (SWorld.new (d + 1) st objFn i j k conv x hess hyperFn).2 = .ok ())
    (es : List SEvent) (hes : okS (d + 1) (SWorld.new (d + 1) st objFn i j k conv x hess hyperFn).1 es)
    (hr : ∀ e ∈ es, ¬ e.Resets)
    (hw : ∀ e ∈ es, ∀ l ∈ e.writes, (l < st.mem.next ∧ l ∉ st.holds k ∧ l ∉ st.holds j) ∨
      (SWorld.new (d + 1) st objFn i j k conv x hess hyperFn).1.st.mem.next ≤ l) (y : List ℝ) :
    (runS (d + 1) (SWorld.new (d + 1) st objFn i j k conv x hess hyperFn).1 es).inputAt y =
        (SWorld.new (d + 1) st objFn i j k conv x hess hyperFn).1.inputAt y ∧
      (runS (d + 1) (SWorld.new (d + 1) st objFn i j k conv x hess hyperFn).1 es).outputAt (d + 1) y =
        (SWorld.new (d + 1) st objFn i j k conv x hess hyperFn).1.outputAt (d + 1) y := by
  have hb := SWorld.blank_wf h.wf objFn (hyperFn.getD objFn) i j k conv
  have hs := setOptimal_step hb hc x hh
  have hwf := hs.wf hb
  refine runS_predict es hwf (hs.assigns hc) hes hr fun e he l hl hl' => ?_
  rcases hw e he l hl with ⟨h1, h2, h4⟩ | h1
  · rcases setOptimal_cells hb hc h3 hh hret l hl' with h5 | h5 | h5
    · exact absurd h1 (not_lt.2 h5)
    · exact h2 h5
    · exact h4 h5
  · refine absurd h1 (not_le.2 ?_)
    simp only [SWorld.cells, List.mem_append] at hl'
    rcases hl' with ((hl' | hl') | hl') | hl'
    · exact hwf.input l hl'
    · exact hwf.hyper l hl'
    · exact hwf.output l hl'
    · exact hwf.sens l hl'

/-! ### An example, and the counterexample -/

/-- A program that makes three parameters of size 1 and the array `[b]`, which it assigns to the second
parameter. -/
def senProgram (b : ℝ) : List Event :=
  [.call (.newParam (mkVector "a" 1 ninf pinf) none), .call (.newParam (mkVector "b" 1 ninf pinf) none),
    .call (.newParam (mkVector "c" 1 ninf pinf) none), .newArray (Arr.vec [b]), .call (.setVector 1 [3])]

theorem senProgram_store (d : ℕ) (b : ℝ) :
    Reached (d + 1) (runEvents (d + 1) emptyStore (senProgram b)) ∧
    ∃ m, runEvents (d + 1) emptyStore (senProgram b) = ⟨m, [.leaf ⟨"a", .vector 1 ninf pinf, ⟨[1], [0]⟩, false⟩,
        .leaf ⟨"b", .vector 1 ninf pinf, ⟨[1], [3]⟩, false⟩, .leaf ⟨"c", .vector 1 ninf pinf, ⟨[1], [2]⟩, false⟩]⟩ ∧
      m.next = 4 ∧ m.cell 0 = 0 ∧ m.cell 2 = 0 ∧ m.cell 3 = b := by
  have hm : ∀ s, mkVector s 1 ninf pinf none = .ok ⟨s, .vector 1 ninf pinf, Arr.full [1] 0, false⟩ := by
    simp [mkVector, checkBoundsVector, Leaf.set, Arr.full, Arr.size, getInboundsValue, Flt.toReal, py_ok_bind]
  refine ⟨(emptyStore_reached _).run _ ?_,
    ((((Mem.alloc ⟨0, fun _ => 0⟩ (Arr.full [1] 0)).1.alloc (Arr.full [1] 0)).1.alloc (Arr.full [1] 0)).1.alloc
      (Arr.vec [b])).1, ?_, ?_⟩
  · simp only [senProgram, okEvents, Event.Ok, Call.args, runEvents, Event.run, Call.run, Store.newParam, hm, emptyStore,
      List.nil_append, Mem.alloc]
    simp [Arr.full, Arr.vec, Ref.Alive, Ref.vec]
  · simp only [senProgram, runEvents, Event.run, Call.run, Store.newParam, hm, emptyStore, List.nil_append, Mem.alloc]
    simp [Arr.full, Arr.vec, Store.setVector, Store.visit, Store.vecVisit, HLeaf.setVector, HLeaf.set, HLeaf.view,
      Leaf.set, Mem.read, Ref.vec, Mem.vals, py_ok_bind, Arr.size]
  · simp [Mem.alloc, Arr.full, Arr.vec]

/-- The copying converter on values. -/
theorem copy_converts (v u : Arr) (c e : Bool) :
    Converts (n := 1) (vecOne "a" v c) (vecOne "c" u e) copyValue 1 fun u _ => u 0 := by
  have hw : (vecOne "c" u e).WF := by simp [vecOne, Param.WF, Kind.Legal]
  intro q hq y hy
  obtain ⟨a, rfl⟩ := List.length_eq_one_iff.mp hy
  obtain ⟨s1, g1⟩ := vecOne_getVector "a" v c true a
  have hset : q.setVector [a] = ((vecOne "c" u e).vecP [a], none) := by
    have h0 := (vecOne "c" u e).setVector_ok hw [a] rfl
    have := setPar_eq (free := false) (p := vecOne "c" u e) (q := q) (x := [a]) hq.symm
      (by simp only [setPar]; rw [if_neg (by simp), h0])
    simp only [setPar] at this
    rw [if_neg (by simp), if_neg (by simp)] at this
    rw [this, h0]
  simp only [Converter.convert, s1, copyValue, g1, hset]
  simp only [Converter.readOut]
  rw [if_neg (by simp), (vecOne "c" u e).getVector_vecP hw trivial [a] rfl]
  rfl

/-- `set_optimal_input_par` for the objective `x² / 2 - ε x`, parameters of size 1 and the copying converter. -/
theorem sen_setOptimal {S : Sens} {v : Arr} {c : Bool} (b : ℝ) (h1 : S.inputPar = vecOne "a" v c)
    (h2 : S.outputPar = vecOne "c" ⟨[1], [0]⟩ false) (h3 : S.hyperPar = vecOne "b" ⟨[1], [b]⟩ false)
    (h4 : S.conv = copyValue) (h5 : S.objFn = scFn exQ) (h6 : S.hyperFn = scFn exQ) :
    ∃ S', S.setOptimal (some [b]) none = (S', none) ∧ S'.optInput = [b] ∧ S'.optHyper = [b] ∧ S'.optOutput = [0] ∧
      S'.sens = ⟨[1, 1], [1]⟩ ∧ S'.doutDin = ⟨[1, 1], [1]⟩ ∧ (∃ v' c', S'.inputPar = vecOne "a" v' c') ∧
      S'.outputPar = vecOne "c" ⟨[1], [0]⟩ false ∧ S'.hyperPar = vecOne "b" ⟨[1], [b]⟩ false ∧
      S'.conv = copyValue ∧ S'.objFn = scFn exQ ∧ S'.hyperFn = scFn exQ := by
  obtain ⟨eigh, he⟩ := exists_eigh
  have hsm : ContDiff ℝ 2 exQF := exQF_smooth.of_le two_le_infty
  have hev : Evaluates S.inputPar S.hyperPar (scFn exQ) true false exQF := by
    rw [h1, h3]; exact vecOne_evaluates _ _ _ _ _ _ _ _ _
  have hwa : (vecOne "a" v c).WF := by simp [vecOne, Param.WF, Kind.Legal]
  have hwb : (vecOne "b" ⟨[1], [b]⟩ false).WF := by simp [vecOne, Param.WF, Kind.Legal]
  have hwc : (vecOne "c" ⟨[1], [0]⟩ false).WF := by simp [vecOne, Param.WF, Kind.Legal]
  obtain ⟨l, w, q, w1, -, -, -, w2, hl⟩ := Sens.setOptimal_ok he (S := S) (F := exQF) (G := exQF) hsm (by rw [h5]; exact hev)
    hsm (by rw [h6]; exact hev) one_pos (x := [b]) (e := [b]) rfl rfl (K := fun u _ => u 0) (r := 1)
    (by
      rw [h4]
      intro p q
      unfold copyValue
      split
      · rfl
      · exact Param.setVector_blank _ _)
    (by
      rw [h2]
      exact .leaf ⟨_, [], .vector (name := "c") (n := 1) (lb := ninf) (ub := pinf) (val := some ⟨[1], [0]⟩)
        (by simp [mkVector, checkBoundsVector, Leaf.set, Arr.size]), rfl⟩ trivial)
    (by rw [h2]; trivial)
    (by rw [h2]; simp [vecOne, Param.Proper, Leaf.Proper, Arr.WF, Arr.size, Kind.shapeOf])
    one_pos (fun i _ => by fun_prop) (by rw [h1, h2, h4]; exact copy_converts _ _ _ _)
    (by rw [h3, (vecOne "b" ⟨[1], [b]⟩ false).setVector_ok hwb [b] rfl]; rfl)
    (by rw [h3]; simp [vecOne, Param.getVector, Leaf.getVector]) (optInput := some [b]) (Or.inl rfl) none rfl
    (hessArr_posDef hsm (exQF_curv b b))
  have hw : w = [0] := by
    rw [h2] at w1
    simp [vecOne, Param.getVector, Leaf.getVector] at w1
    exact w1.symm
  subst hw
  refine ⟨_, hl, rfl, rfl, rfl, quad_sens b, ?_, ?_, ?_, h3, h4, h5, h6⟩
  · have : fderiv ℝ (fun u : Fin 1 → ℝ => u 0) (toVec 1 [b]) (basis 1 0) = 1 := by
      have h : HasFDerivAt (fun u : Fin 1 → ℝ => u 0) (ContinuousLinearMap.proj (R := ℝ) (φ := fun _ : Fin 1 => ℝ) 0)
        (toVec 1 [b]) := (ContinuousLinearMap.proj (R := ℝ) (φ := fun _ : Fin 1 => ℝ) 0).hasFDerivAt
      rw [h.fderiv]
      simp [basis]
    simp [Arr.ofFn2, this]
  · simp only
    rw [h1]
    simp only [setPar]
    rw [if_pos trivial, Param.setFree_ok _ hwa [b] rfl]
    exact ⟨_, _, rfl⟩
  · simp only
    rw [w2 (by rw [h2]; rfl), h2, Param.setVector_ok _ hwc [0] rfl]
    rfl

/-- The `ParametricSensitivity` of `x² / 2 - ε x` at its optimum `[b]`, with the copying converter; input,
output and hyperparameter are the objects 0, 2 and 1. -/
def senWorld (d : ℕ) (b : ℝ) : SWorld × Py Unit :=
  SWorld.new (d + 1) (runEvents (d + 1) emptyStore (senProgram b)) (scFn exQ) 0 2 1 (copyConv (d + 1) 0 2).conv
    (some [3]) none none

/-- What the example contains. -/
private theorem senWorld_facts (d : ℕ) (b : ℝ) :
    SReached (d + 1) (senWorld d b).1 ∧ (senWorld d b).2 = .ok () ∧
    (senWorld d b).1.o.inputPar = 0 ∧ (senWorld d b).1.o.outputPar = 2 ∧ (senWorld d b).1.o.hyperPar = 1 ∧
    (senWorld d b).1.converter.Describes (d + 1) copyValue ∧
    (senWorld d b).1.st.Apart3 (d + 1) 0 2 1 ∧
    (∃ S v c, (senWorld d b).1.view (d + 1) copyValue = some S ∧ S.optInput = [b] ∧ S.optHyper = [b] ∧
      S.optOutput = [0] ∧ S.sens = ⟨[1, 1], [1]⟩ ∧ S.doutDin = ⟨[1, 1], [1]⟩ ∧ S.inputPar = vecOne "a" v c ∧
      S.outputPar = vecOne "c" ⟨[1], [0]⟩ false ∧ S.hyperPar = vecOne "b" ⟨[1], [b]⟩ false ∧
      S.conv = copyValue ∧ S.objFn = scFn exQ ∧ S.hyperFn = scFn exQ) ∧
    (senWorld d b).1.st.mem.vals [3] = [b] ∧ (Ref.vec [2, 3]).Alive (senWorld d b).1.st.mem ∧
    (senWorld d b).1.o.optHyper = [3] ∧ (senWorld d b).1.o.optOutput = [2] ∧
    (∀ k ∈ (senWorld d b).1.o.optInput ++ (senWorld d b).1.o.sens.addr, 4 ≤ k) ∧
    (senWorld d b).1.st.get 1 = .ok (Ref.vec [3]) ∧ (∃ r, (senWorld d b).1.st.get 2 = .ok r ∧ r.addr = [2]) := by
  obtain ⟨hr, m, hs, hn, h0, h2, h3⟩ := senProgram_store d b
  have hst : PReached Unit (d + 1) (runEvents (d + 1) emptyStore (senProgram b)) := hr.preached
  have ht : (runEvents (d + 1) emptyStore (senProgram b)).tree (d + 1) 0 = some (vecOne "a" ⟨[1], [0]⟩ false) ∧
      (runEvents (d + 1) emptyStore (senProgram b)).tree (d + 1) 2 = some (vecOne "c" ⟨[1], [0]⟩ false) ∧
      (runEvents (d + 1) emptyStore (senProgram b)).tree (d + 1) 1 = some (vecOne "b" ⟨[1], [b]⟩ false) ∧
      (runEvents (d + 1) emptyStore (senProgram b)).Apart3 (d + 1) 0 2 1 ∧
      (Ref.vec [2, 3]).Alive (runEvents (d + 1) emptyStore (senProgram b)).mem ∧
      (runEvents (d + 1) emptyStore (senProgram b)).mem.vals [3] = [b] ∧
      (runEvents (d + 1) emptyStore (senProgram b)).mem.next = 4 ∧
      (runEvents (d + 1) emptyStore (senProgram b)).objs[1]? =
        some (.leaf ⟨"b", .vector 1 ninf pinf, ⟨[1], [3]⟩, false⟩) ∧
      (runEvents (d + 1) emptyStore (senProgram b)).objs[2]? =
        some (.leaf ⟨"c", .vector 1 ninf pinf, ⟨[1], [2]⟩, false⟩) := by
    rw [hs]
    simp [Store.tree, HLeaf.view, vecOne, Mem.read, Mem.vals, Store.Apart3, Store.Apart, Store.foot, Ref.Alive, Ref.vec,
      hn, h0, h2, h3]
  clear hs hr
  unfold senWorld
  generalize runEvents (d + 1) emptyStore (senProgram b) = st at *
  obtain ⟨t1, t2, t3, ta, tal, tv, tn, tb, tc⟩ := ht
  have ha3 : (Ref.vec [3]).Alive st.mem := fun k hk => tal k (by simp [Ref.vec] at hk ⊢; simp [hk])
  have hc := copyConv_assigns (d + 1) 0 2
  have hd := copyConv_describes (d + 1) 0 2
  have hwf := SWorld.blank_wf hst.wf (scFn exQ) (scFn exQ) 0 2 1 (copyConv (d + 1) 0 2).conv
  have hpl : (vecOne "b" ⟨[1], [b]⟩ false).Plain := by simp [vecOne, Param.Plain]
  obtain ⟨S, hS, q1, q2, q3, q4, q5, ⟨v, c, q6⟩, q7⟩ := sen_setOptimal
    (S := ⟨vecOne "a" ⟨[1], [0]⟩ false, vecOne "c" ⟨[1], [0]⟩ false, vecOne "b" ⟨[1], [b]⟩ false, copyValue, scFn exQ,
      scFn exQ, [], [], [], ⟨[0, 0], []⟩, ⟨[0, 0], []⟩, ⟨[0, 0], []⟩, ⟨[0, 0], []⟩, ⟨[0, 0], []⟩⟩) b rfl rfl rfl rfl rfl rfl
  have hnew := (C120_new_partial hst (scFn exQ) t1 t2 t3 ta hc hd (some [3]) none (by simp) (fun _ => hpl) none).2 S
    (by simp only [Sens.new, Option.map_some, tv, Option.map_none, Option.getD_none, hS])
  have hstep := setOptimal_step (depth := d + 1) hwf hc (some [3]) (hess := none) (by simp)
  obtain ⟨r1, -, -, r2, r3⟩ := setOptimal_arrays (x := some [3]) (hess := none) hwf hc (by simp) hnew.1
  obtain ⟨p1, p2⟩ := setOptimal_shares (x := some [3]) (hess := none) hwf hc ta (by simp) hnew.1
  have p1' := p1 _ _ _ _ tb rfl
  have p2' := p2 _ _ _ _ tc rfl
  have r2' := r2 _ _ _ _ tb rfl
  have r3' := r3 _ _ _ _ tc rfl
  rw [p1'] at r2'
  rw [p2'] at r3'
  refine ⟨.start hst _ _ _ _ _ _ _ _ hc (by rintro y ⟨⟩; exact ha3) (by simp) hnew.1, hnew.1, hstep.inputPar,
    hstep.outputPar, hstep.hyperPar, hstep.describes hd, apart3_skel ta hstep.grow.skel,
    ⟨S, v, c, hnew.2, q1, q2, q3, q4, q5, q6, q7⟩, ?_, tal.mono hstep.grow.le, p1', p2', ?_, r2', r3'⟩
  · rw [← tv]; exact hstep.grow.le.vals ha3
  · rw [← tn]; exact r1

theorem predictInput_value {w : SWorld} (n : List ℕ) :
    (w.predictInput n).1.st.mem.vals <$> (w.predictInput n).2 = (do
      let d ← vsub (w.st.mem.vals n) (w.st.mem.vals w.o.optHyper)
      vadd (w.st.mem.vals w.o.optInput) (← (w.st.mem.read w.o.sens).mulVec d)) := by
  unfold SWorld.predictInput
  cases (do
      let d ← vsub (w.st.mem.vals n) (w.st.mem.vals w.o.optHyper)
      vadd (w.st.mem.vals w.o.optInput) (← (w.st.mem.read w.o.sens).mulVec d)) with
  | error e => rfl
  | ok v => exact congrArg Except.ok (newVec_vals _ _)

/-- **C120** (counterexample) The hyperparameter holds the array `[b]` of the program, and `ParametricSensitivity`
predicts the input `[z]` and, with `linear=True`, the output `z - b` for the new value `[z]`.  If the program
sets the entry of its array to `y`, the predictions become `b + (z - y)` and `z - y`; the prediction of the
input for that array itself is still `[b]`.  If it sets the entry of `output_par.get()` to `y`, the linear
prediction of the output becomes `y + (z - b)`. -/
theorem C120_counterexample (d : ℕ) (b y z : ℝ) :
    let w := (senWorld d b).1
    SReached (d + 1) w ∧ w.inputAt [z] = .ok [z] ∧ w.outputAt (d + 1) [z] = .ok [z - b] ∧
    (w.st.get w.o.hyperPar = .ok (Ref.vec [3]) ∧
      okS (d + 1) w [.other (.other (.assign ⟨Ref.vec [3], 0, y⟩))] ∧
      let w' := runS (d + 1) w [.other (.other (.assign ⟨Ref.vec [3], 0, y⟩))]
      w'.inputAt [z] = .ok [b + (z - y)] ∧ w'.outputAt (d + 1) [z] = .ok [z - y] ∧
      w'.st.mem.vals [3] = [y] ∧ (w'.predictInput [3]).1.st.mem.vals <$> (w'.predictInput [3]).2 = .ok [b]) ∧
    ∃ r, w.st.get w.o.outputPar = .ok r ∧ okS (d + 1) w [.other (.other (.assign ⟨r, 0, y⟩))] ∧
      (runS (d + 1) w [.other (.other (.assign ⟨r, 0, y⟩))]).outputAt (d + 1) [z] = .ok [y + (z - b)] := by
  intro w
  obtain ⟨hR, -, -, ho, hh, -, -, ⟨S, v, c, hS, k1, k2, k3, k4, k5, -⟩, -, hal, f1, f2, f3, g1, r, g2, g3⟩ :=
    senWorld_facts d b
  obtain ⟨-, -, -, t⟩ := sens_view.1 hS
  have hwf := hR.wf.1
  change SReached _ w at hR
  change w.WF at hwf
  change w.st.get 1 = _ at g1
  change w.st.get 2 = _ at g2
  change S = w.value _ _ _ _ at t
  change w.o.outputPar = 2 at ho
  change w.o.hyperPar = 1 at hh
  change w.o.optHyper = [3] at f1
  change w.o.optOutput = [2] at f2
  change ∀ k ∈ w.o.optInput ++ w.o.sens.addr, 4 ≤ k at f3
  change (Ref.vec [2, 3]).Alive w.st.mem at hal
  clear_value w
  have e1 : w.st.mem.vals w.o.optInput = [b] := by rw [← k1, t]; rfl
  have e2 : w.st.mem.vals [3] = [b] := by rw [← k2, t, ← f1]; rfl
  have e3 : w.st.mem.vals [2] = [0] := by rw [← k3, t, ← f2]; rfl
  have e4 : w.st.mem.read w.o.sens = ⟨[1, 1], [1]⟩ := by rw [← k4, t]; rfl
  have e5 : w.o.doutDin = ⟨[1, 1], [1]⟩ := by rw [← k5, t]; rfl
  have hwr : ∀ (r : Ref) (k : ℕ), r.addr = [k] → (w.st.assign [⟨r, 0, y⟩]).mem.cell = Function.update w.st.mem.cell k y := by
    intro r k hr
    simp [Store.assign, Mem.write, hr]
  have hin : ∀ x : List ℕ, ∀ k, k ∉ x → x.map (Function.update w.st.mem.cell k y) = w.st.mem.vals x := fun x k hk =>
    List.map_congr_left fun j hj => Function.update_of_ne (fun h : j = k => hk (h ▸ hj)) _ _
  have n1 : ∀ k, k < 4 → k ∉ w.o.optInput := fun k hk h => absurd (f3 k (by simp [h])) (not_le.2 hk)
  have n2 : ∀ k, k < 4 → k ∉ w.o.sens.addr := fun k hk h => absurd (f3 k (by simp [h])) (not_le.2 hk)
  have hmm : (Arr.mk [1, 1] [1]).matmul (Arr.mk [1, 1] [1]) = .ok ⟨[1, 1], [1]⟩ := by
    rw [matmul_ok rfl rfl]
    simp [Arr.ofFn2, Arr.at2]
  have h3 : ∀ k ∈ (Ref.vec [3]).addr, k < w.st.mem.next := fun k hk => hal k (by simp [Ref.vec] at hk ⊢; simp [hk])
  have h2 : ∀ k ∈ r.addr, k < w.st.mem.next := fun k hk => hal k (by rw [g3] at hk; simp [Ref.vec] at hk ⊢; simp [hk])
  have hm3 : (⟨w.o.sens.shape, w.st.mem.vals w.o.sens.addr⟩ : Arr) = ⟨[1, 1], [1]⟩ := e4
  refine ⟨hR, ?_, ?_, ⟨by rw [hh]; exact g1, ⟨h3, trivial⟩, ?_⟩, r, by rw [ho]; exact g2, ⟨h2, trivial⟩, ?_⟩
  · rw [inputAt_eq hwf, f1, e1, e2, e4, lin_predict]
    simp
  · rw [outputAt_eq hwf, f1, f2, e2, e3, e4, e5]
    simp only [hmm, py_ok_bind]
    rw [lin_predict]
    simp
  · have h' := (sevent_step hwf hR.wf.2 (.other (.other (.assign ⟨Ref.vec [3], 0, y⟩))) h3).1
    simp only [runS]
    rw [inputAt_eq h', outputAt_eq h']
    have c3 : (List.map (Function.update w.st.mem.cell 3 y) [3]) = [y] := by simp
    refine ⟨?_, ?_, ?_, ?_⟩
    · simp only [SEvent.run, PEvent.run, Event.run, Mem.vals, Mem.read, hwr (Ref.vec [3]) 3 rfl, f1]
      rw [hin _ _ (n1 3 (by omega)), hin _ _ (n2 3 (by omega)), e1, hm3, c3, lin_predict, one_mul]
    · simp only [SEvent.run, PEvent.run, Event.run, Mem.vals, Mem.read, hwr (Ref.vec [3]) 3 rfl, f1, f2]
      rw [hin _ _ (n2 3 (by omega)), hin [2] 3 (by simp), e3, e5, hm3, c3]
      simp only [hmm, py_ok_bind]
      rw [lin_predict, one_mul, zero_add]
    · simp only [SEvent.run, PEvent.run, Event.run, Mem.vals, hwr (Ref.vec [3]) 3 rfl]
      exact c3
    · rw [predictInput_value]
      simp only [SEvent.run, PEvent.run, Event.run, Mem.vals, Mem.read, hwr (Ref.vec [3]) 3 rfl, f1]
      rw [hin _ _ (n1 3 (by omega)), hin _ _ (n2 3 (by omega)), e1, hm3, c3, lin_predict]
      simp
  · have h' := (sevent_step hwf hR.wf.2 (.other (.other (.assign ⟨r, 0, y⟩))) h2).1
    simp only [runS]
    rw [outputAt_eq h']
    simp only [SEvent.run, PEvent.run, Event.run, Mem.vals, Mem.read, hwr r 2 g3, f1, f2]
    rw [hin _ _ (n2 2 (by omega)), hin [3] 2 (by simp), e2, e5, hm3]
    simp only [hmm, py_ok_bind]
    have c2 : (List.map (Function.update w.st.mem.cell 2 y) [2]) = [y] := by simp
    rw [c2, lin_predict, one_mul]

/-- A program that meets the conditions of the theorems: `set_optimal_input_par` with an array, then that
array is overwritten, the input gets the new numbers, and predictions are made. -/
example (d : ℕ) (b y : ℝ) :
    let w := SEvent.run (d + 1) (senWorld d b).1 (.other (.other (.newArray (Arr.vec [b]))))
    ∃ k, let w' := (w.setOptimal (d + 1) (some [k]) none).1
    let es : List SEvent := [.other (.other (.assign ⟨Ref.vec [k], 0, y⟩)), .other (.other (.call (.setFree 0 [k]))),
      .predictInput [k], .predictOutput [k] false]
    SReached (d + 1) w ∧ w.converter.Describes (d + 1) copyValue ∧
      (∃ S, w.view (d + 1) copyValue = some S ∧ S.hyperPar.Plain) ∧
      w.st.Apart3 (d + 1) w.o.inputPar w.o.outputPar w.o.hyperPar ∧
      (SEvent.setOptimal (some [k]) none).Ok (d + 1) w ∧ (w.setOptimal (d + 1) (some [k]) none).2 = .ok () ∧
      okS (d + 1) w' es ∧ (∀ e ∈ es, ¬ e.Resets) ∧
      ∀ e ∈ es, ∀ k ∈ e.writes, (k < w.st.mem.next ∧ k ∉ w.st.holds w.o.hyperPar ∧ k ∉ w.st.holds w.o.outputPar) ∨
        w'.st.mem.next ≤ k := by
  intro w
  obtain ⟨hR, -, hi, ho, hh, hd, ha, ⟨S, v, c, hS, -, -, -, -, -, q1, q2, q3, q4, q5, q6⟩, -, hal, -, -, -, g1, r, g2, g3⟩ :=
    senWorld_facts d b
  have hRw : SReached (d + 1) w := .step hR _ trivial
  have hg : Store.Grow (senWorld d b).1.st w.st := alloc_grow _ _
  have hobj : w.st.objs = (senWorld d b).1.st.objs := rfl
  have hwo : w.o = (senWorld d b).1.o := rfl
  have hnx : w.st.mem.next = (senWorld d b).1.st.mem.next + 1 := by
    change (Mem.alloc _ _).1.next = _
    simp [Mem.alloc, Arr.vec]
  have hv : w.st.mem.vals [(senWorld d b).1.st.mem.next] = [b] := by
    change (Mem.alloc _ _).1.vals _ = _
    simp [Mem.alloc, Arr.vec, Mem.vals]
  have hSw : w.view (d + 1) copyValue = some S := by
    obtain ⟨t1, t2, t3, t4⟩ := sens_view.1 hS
    refine sens_view.2 ⟨?_, ?_, ?_, ?_⟩
    · rw [← t1]; exact newVec_tree hR.wf.1.st [b] _
    · rw [← t2]; exact newVec_tree hR.wf.1.st [b] _
    · rw [← t3]; exact newVec_tree hR.wf.1.st [b] _
    · have := svalue_grow (conv := copyValue) hR.wf.1 hg S.inputPar S.outputPar S.hyperPar S.inputPar S.outputPar S.hyperPar
      rw [← t4] at this
      exact this.symm
  have hA : w.st.Apart3 (d + 1) w.o.inputPar w.o.outputPar w.o.hyperPar := by
    rw [hwo, hi, ho, hh]; exact apart3_skel ha hg.skel
  generalize hk : (senWorld d b).1.st.mem.next = k at *
  have hkal : (Ref.vec [k]).Alive w.st.mem := by
    intro j hj
    simp [Ref.vec] at hj
    omega
  have hok : (SEvent.setOptimal (some [k]) none).Ok (d + 1) w := ⟨by rintro _ ⟨⟩; exact hkal, by simp⟩
  have hpl : S.hyperPar.Plain := by rw [q3]; simp [vecOne, Param.Plain]
  have hs := (C120_set_optimal_partial hRw hd hSw hA (some [k]) none hok fun _ => hpl).2
  obtain ⟨S', hS', -⟩ := sen_setOptimal b q1 q2 q3 q4 q5 q6
  simp only [Option.map_some, Option.map_none, hv, hS'] at hs
  have hst := setOptimal_step hRw.wf.1 hRw.wf.2 (some [k]) (hess := none) (by simp)
  have hwf' := hst.wf hRw.wf.1
  have ha' := hst.assigns hRw.wf.2
  have hk' : (Ref.vec [k]).Alive (w.setOptimal (d + 1) (some [k]) none).1.st.mem := hkal.mono hst.grow.le
  refine ⟨k, hRw, hd, ⟨S, hSw, hpl⟩, hA, hok, outcome_ok hs, ?_, by simp [SEvent.Resets], ?_⟩
  · obtain ⟨f1, a1, l1⟩ := sevent_step hwf' ha' (.other (.other (.assign ⟨Ref.vec [k], 0, y⟩))) hk'
    obtain ⟨f2, a2, l2⟩ := sevent_step f1 a1 (.other (.other (.call (.setFree 0 [k])))) (by
      intro r hr j hj
      simp only [Call.args, List.mem_singleton] at hr
      subst hr
      exact lt_of_lt_of_le (hk' j hj) l1)
    obtain ⟨f3, a3, l3⟩ := sevent_step f2 a2 (.predictInput [k])
      (fun j hj => lt_of_lt_of_le (hk' j hj) (l1.trans l2))
    refine ⟨hk', ?_, fun j hj => lt_of_lt_of_le (hk' j hj) (l1.trans l2),
      fun j hj => lt_of_lt_of_le (hk' j hj) ((l1.trans l2).trans l3), trivial⟩
    intro r hr j hj
    simp only [Call.args, List.mem_singleton] at hr
    subst hr
    exact lt_of_lt_of_le (hk' j hj) l1
  · intro e he j hj
    left
    simp only [List.mem_cons, List.not_mem_nil, or_false] at he
    rcases he with rfl | rfl | rfl | rfl
    · simp only [SEvent.writes, Ref.vec, List.mem_singleton] at hj
      subst hj
      have l3 := hal 3 (by simp [Ref.vec])
      have l2 := hal 2 (by simp [Ref.vec])
      refine ⟨by omega, fun h => ?_, fun h => ?_⟩
      · rw [hwo, hh] at h
        unfold Store.holds at h
        rw [hobj] at h
        unfold Store.get at g1
        cases ho1 : (senWorld d b).1.st.objs[1]? with
        | none => rw [ho1] at h; cases h
        | some o =>
          rw [ho1] at h g1
          cases o with
          | dict _ _ => cases h
          | leaf l =>
            simp only [HLeaf.get] at h g1
            have : l.ref = Ref.vec [3] := Except.ok.inj g1
            rw [this] at h
            simp [Ref.vec] at h
            omega
      · rw [hwo, ho] at h
        unfold Store.holds at h
        rw [hobj] at h
        unfold Store.get at g2
        cases ho1 : (senWorld d b).1.st.objs[2]? with
        | none => rw [ho1] at h; cases h
        | some o =>
          rw [ho1] at h g2
          cases o with
          | dict _ _ => cases h
          | leaf l =>
            simp only [HLeaf.get] at h g2
            have : l.ref = r := Except.ok.inj g2
            rw [this, g3] at h
            simp at h
            omega
    all_goals simp [SEvent.writes] at hj

end

end LRVB
