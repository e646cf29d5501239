import Verif.Lemmas.HeapSens
import Verif.Lemmas.TaylorObj
import Verif.Spec.HeapTaylor

/-!
# Taylor expansions that hold references: lemmas
-/

namespace LRVB

open Classical

noncomputable section

/-! ### Evaluation depends on parameters only through their structure -/

theorem twoValueAt_blank {A : Type} {p q p' q' : Param} (hp : p.blank = p'.blank) (hq : q.blank = q'.blank)
    (fn : A → Param → Param → Py Arr) (f1 f2 : Bool) (a : A) :
    (⟨p', q', fn⟩ : TwoObjective A).valueAt f1 f2 a = (⟨p, q, fn⟩ : TwoObjective A).valueAt f1 f2 a := by
  funext y1 y2
  obtain ⟨a1, b1⟩ := setPar_indep hp y1 f1
  obtain ⟨a2, b2⟩ := setPar_indep hq y2 f2
  simp only [TwoObjective.valueAt, TwoObjective.evalFun]
  rw [a1]
  cases r1 : (setPar p y1 f1).2 with
  | some e => rfl
  | none =>
    simp only
    rw [a2]
    cases r2 : (setPar q y2 f2).2 with
    | some e => rfl
    | none => simp only [b1 r1, b2 r2]

theorem gradient_blank {T T' : Taylor} (h1 : T'.inputPar.blank = T.inputPar.blank)
    (h2 : T'.hyperPar.blank = T.hyperPar.blank) (h3 : T'.inputIsFree = T.inputIsFree)
    (h4 : T'.hyperIsFree = T.hyperIsFree) (h5 : T'.hyperFn = T.hyperFn) :
    T'.objectiveGradient = T.objectiveGradient := by
  funext eta eps vecs
  unfold Taylor.objectiveGradient Taylor.joint
  rw [h3, h4, h5, twoValueAt_blank h1.symm h2.symm]

/-! ### Steps -/

theorem thenDo_lstep {r : LWorld × Py Unit} {k : LWorld → LWorld × Py Unit} {w : LWorld} (hr : w.Step r.1)
    (hk : r.1.Step (k r.1).1) : w.Step (thenDo r k).1 := thenDo_step hr hk

/-- What a step of a method does. -/
def TWorld.Step (w w' : TWorld) : Prop := w.lin.Step w'.lin

theorem TWorld.Step.trans {a b c : TWorld} (h : a.Step b) (h' : b.Step c) : a.Step c := LWorld.Step.trans h h'

theorem TWorld.Step.refl (w : TWorld) : w.Step w := LWorld.Step.refl _

theorem TWorld.Step.store {w : TWorld} {st : Store} (hg : Store.Grow w.st st) : w.Step ⟨st, w.o⟩ :=
  LWorld.Step.store (w := w.lin) hg

/-- A step whose cross derivative and sensitivity are dropped. -/
theorem withLin_step {w : TWorld} {l : LWorld} (h : w.lin.Step l) (hi : l.o.inputPar = w.o.inputPar)
    (hj : l.o.hyperPar = w.o.hyperPar) : w.Step (w.withLin l) :=
  ⟨h.grow, fun hw => ⟨(h.wf hw).st, (h.wf hw).input, (h.wf hw).hyper, (h.wf hw).hess, by simp [Ref.Alive, TWorld.lin]⟩,
    rfl, rfl⟩

theorem tSetParToBase_step {depth : ℕ} {w : TWorld} (h : w.lin.WF) : w.Step (w.setParToBase depth).1 := by
  have hs := setParToBase_step (depth := depth) h
  exact withLin_step hs hs.inputPar hs.hyperPar

/-- The object with copies of the base values. -/
def TWorld.copies (w : TWorld) (x h : List ℕ) : TWorld :=
  let s1 := w.st.newVec (w.st.mem.vals x)
  let s2 := s1.1.newVec (s1.1.mem.vals h)
  ⟨s2.1, { w.o with inputVal0 := s1.2, hyperVal0 := s2.2 }⟩

theorem TWorld.copies_lin (w : TWorld) (x h : List ℕ) : (w.copies x h).lin = w.lin.copies x h := rfl

/-- The steps of `set_base_values` after the base values were copied. -/
def LWorld.rest (depth : ℕ) (w : LWorld) (hess0 : Option Ref) : LWorld × Py Unit :=
  thenDo (w.setParToBase depth) fun l => thenDo (l.setHess depth hess0) fun l => l.setChol

theorem tSetBaseValues_eq (depth : ℕ) (w : TWorld) (x h : List ℕ) (hess0 : Option Ref) :
    w.setBaseValues depth x h hess0 =
      ((w.copies x h).withLin ((w.copies x h).lin.rest depth hess0).1, ((w.copies x h).lin.rest depth hess0).2) := rfl

theorem rest_step {depth : ℕ} {w : LWorld} (hw : w.WF) {hess0 : Option Ref}
    (hh : ∀ r, hess0 = some r → r.Alive w.st.mem) : w.Step (w.rest depth hess0).1 := by
  have s1 := setParToBase_step (depth := depth) hw
  refine thenDo_step s1 ?_
  have s2 := setHess_step (depth := depth) (s1.wf hw) (hess0 := hess0) fun r hr => (hh r hr).mono s1.grow.le
  exact thenDo_step s2 (setChol_step _)

theorem tSetBaseValues_step {depth : ℕ} {w : TWorld} (hw : w.lin.WF) (x h : List ℕ) {hess0 : Option Ref}
    (hh : ∀ r, hess0 = some r → r.Alive w.st.mem) : w.Step (w.setBaseValues depth x h hess0).1 := by
  rw [tSetBaseValues_eq]
  have s0 : w.Step (w.copies x h) := copies_step w.lin x h
  refine s0.trans ?_
  have s1 := rest_step (depth := depth) (s0.wf hw) (hess0 := hess0) fun r hr => (hh r hr).mono s0.grow.le
  exact withLin_step s1 s1.inputPar s1.hyperPar

theorem tSetOrder_step {depth : ℕ} (w : TWorld) (n : ℕ) : w.Step (w.setOrder depth n).1 := by
  unfold TWorld.setOrder
  split
  · exact ⟨.refl _, id, rfl, rfl⟩
  · exact ⟨.refl _, id, rfl, rfl⟩

theorem traced_step {depth : ℕ} {w : TWorld} (h : w.lin.WF) : w.Step (w.traced depth) :=
  .store (twoTrace_grow w.joint _ _ _ _ h.input h.hyper)

theorem dkValue_step {depth : ℕ} {w : TWorld} (h : w.lin.WF) (d : List ℕ) (k : ℤ) : w.Step (w.dkValue depth d k).1 := by
  unfold TWorld.dkValue
  have s1 := traced_step (depth := depth) h
  split
  · exact .refl _
  split
  · exact .refl _
  split
  · exact .refl _
  split
  · exact s1
  · exact s1.trans (tSetParToBase_step (s1.wf h))

theorem inNew_step {w : TWorld} {r : TWorld × Py (List ℝ)} (h : w.Step r.1) : w.Step (TWorld.inNew r).1 := by
  unfold TWorld.inNew
  split
  · exact h
  · exact h.trans (.store (newVec_grow _ _))

theorem seriesLoop_step {depth : ℕ} (d : List ℕ) : ∀ (ks : List ℕ) {w : TWorld} (_ : w.lin.WF) (acc : List ℝ),
    w.Step (w.seriesLoop depth d ks acc).1
  | [], w, _, _ => .refl _
  | k :: ks, w, h, acc => by
    have s1 := dkValue_step (depth := depth) h d k
    unfold TWorld.seriesLoop
    simp only
    split
    · exact s1
    · exact s1.trans (seriesLoop_step d ks (s1.wf h) _)

theorem tEvaluateDk_step {depth : ℕ} {w : TWorld} (h : w.lin.WF) (d : List ℕ) (k : ℤ) :
    w.Step (w.evaluateDk depth d k).1 := inNew_step (dkValue_step h d k)

theorem tEvaluateSeries_step {depth : ℕ} {w : TWorld} (h : w.lin.WF) (d : List ℕ) (off : Bool) (m : Option ℤ) :
    w.Step (w.evaluateSeries depth d off m).1 := by
  unfold TWorld.evaluateSeries
  simp only
  have s1 := dkValue_step (depth := depth) h d 1
  split
  · exact .refl _
  split
  · exact .refl _
  split
  · exact s1
  · have s2 := s1.trans (seriesLoop_step (depth := depth) d
      ((List.range ((m.getD w.o.order).toNat - 1)).map (· + 2)) (s1.wf h) ‹List ℝ›)
    split
    · exact s2
    · exact inNew_step s2

theorem TWorld.blank_wf {st : Store} (h : st.WF) (objFn hyperFn : Param → Param → Py Arr) (i j : ℕ) (fi fh : Bool) :
    (TWorld.mk st ⟨i, j, fi, fh, objFn, hyperFn, [], [], ⟨[0, 0], []⟩, ⟨[0, 0], []⟩, 0, none⟩).lin.WF :=
  LWorld.blank_wf h objFn hyperFn i j fi fh

theorem tNew_step {depth : ℕ} {st : Store} (h : st.WF) (objFn : Param → Param → Py Arr) (i j : ℕ) (x v : List ℕ) (n : ℕ)
    (fi fh : Bool) (hess0 : Option Ref) (hyperFn : Option (Param → Param → Py Arr)) :
    (TWorld.mk st ⟨i, j, fi, fh, objFn, hyperFn.getD objFn, [], [], ⟨[0, 0], []⟩, ⟨[0, 0], []⟩, 0, none⟩).Step
      (TWorld.new depth st objFn i j x v n fi fh hess0 hyperFn).1 := by
  have s1 := tSetBaseValues_step (depth := depth) (TWorld.blank_wf h objFn (hyperFn.getD objFn) i j fi fh) x v
    (hess0 := none) (by simp)
  unfold TWorld.new thenDo
  simp only
  split
  · exact s1
  · exact s1.trans (tSetOrder_step _ _)

/-! ### Refinement -/

/-- What the object has in common with a linear approximation. -/
def Taylor.lin (T : Taylor) : LinApprox :=
  ⟨T.inputPar, T.hyperPar, T.inputIsFree, T.hyperIsFree, T.objFn, T.hyperFn, T.base, T.chol, ⟨[0, 0], []⟩, ⟨[0, 0], []⟩⟩

/-- The object with references and the one with values agree. -/
structure TSim (depth : ℕ) (w : TWorld) (T : Taylor) : Prop where
  lin : LSim depth w.lin T.lin
  order : T.order = w.o.order
  terms : T.termsList = listsOf T.objectiveGradient w.o.listOrder
  dk : T.dkList = T.termsList.map dkinputFromTerms

theorem taylor_view {depth : ℕ} {w : TWorld} {T : Taylor} :
    w.view depth = some T ↔ w.st.tree depth w.o.inputPar = some T.inputPar ∧
      w.st.tree depth w.o.hyperPar = some T.hyperPar ∧ T.lin = w.lin.value T.inputPar T.hyperPar ∧
      T.order = w.o.order ∧ T.termsList = listsOf T.objectiveGradient w.o.listOrder ∧
      T.dkList = T.termsList.map dkinputFromTerms := by
  unfold TWorld.view
  cases h1 : w.st.tree depth w.o.inputPar with
  | none => simp
  | some p =>
    cases h2 : w.st.tree depth w.o.hyperPar with
    | none => simp
    | some q =>
      simp only [bind, Option.bind, Option.some.injEq]
      constructor
      · rintro rfl
        exact ⟨rfl, rfl, rfl, rfl, rfl, rfl⟩
      · rintro ⟨rfl, rfl, h3, h4, h5, h6⟩
        obtain ⟨p, q, fi, fh, of, hf, b, c, n, ts, dk⟩ := T
        simp only [Taylor.lin, LWorld.value, TWorld.lin, LinApprox.mk.injEq] at h3
        simp only at h4 h5 h6
        obtain ⟨-, -, rfl, rfl, rfl, rfl, rfl, rfl, -, -⟩ := h3
        subst h4 h6
        rw [h5]
        rfl

theorem TSim.view {depth : ℕ} {w : TWorld} {T : Taylor} (h : TSim depth w T) : w.view depth = some T :=
  taylor_view.2 ⟨h.lin.duo.first, h.lin.duo.second, h.lin.value, h.order, h.terms, h.dk⟩

theorem TSim.of_view {depth : ℕ} {w : TWorld} {T : Taylor} (hw : w.lin.WF) (hT : w.view depth = some T)
    (ha : w.st.Apart depth w.o.inputPar w.o.hyperPar) : TSim depth w T := by
  obtain ⟨h1, h2, h3, h4, h5, h6⟩ := taylor_view.1 hT
  exact ⟨⟨hw, ⟨hw.st, h1, h2, ha⟩, h3⟩, h4, h5, h6⟩

/-- A step that keeps the order, the functions and the structure of the parameters. -/
theorem TSim.of_lin {depth : ℕ} {w w' : TWorld} {T T' : Taylor} (h : TSim depth w T) (hl : LSim depth w'.lin T'.lin)
    (ho : w'.o.order = w.o.order) (hlo : w'.o.listOrder = w.o.listOrder) (hT : ∃ p q b c,
      T' = { T with inputPar := p, hyperPar := q, base := b, chol := c } ∧
      p.blank = T.inputPar.blank ∧ q.blank = T.hyperPar.blank) : TSim depth w' T' := by
  obtain ⟨p, q, b, c, rfl, hp, hq⟩ := hT
  refine ⟨hl, h.order.trans ho.symm, ?_, h.dk⟩
  rw [hlo, gradient_blank (T := T) (T' := { T with inputPar := p, hyperPar := q, base := b, chol := c })
    hp hq rfl rfl rfl]
  exact h.terms

/-- The new values of the linear part put into the object. -/
def Taylor.withLin (T : Taylor) (L : LinApprox) : Taylor :=
  { T with inputPar := L.inputPar, hyperPar := L.hyperPar, base := L.base, chol := L.chol }

theorem taylor_setParToBase (T : Taylor) :
    T.setParToBase = (T.withLin T.lin.setParToBase.1, T.lin.setParToBase.2) := by
  unfold Taylor.setParToBase LinApprox.setParToBase andThen Taylor.lin Taylor.withLin
  simp only
  cases (setPar T.inputPar T.base.inputVal0 T.inputIsFree).2 <;> rfl

/-- The steps of `set_base_values` after the base values were copied. -/
def LinApprox.rest (T : LinApprox) (hess0 : Option Arr) : LinApprox × Option PyErr :=
  andThen T.setParToBase fun T => andThen (T.setHess hess0) fun T => T.setChol

theorem setParToBase_base (T : LinApprox) : T.setParToBase.1.base = T.base := by
  unfold LinApprox.setParToBase andThen
  simp only
  split <;> rfl

theorem taylor_setBaseValues (T : Taylor) (x e : List ℝ) (H : Option Arr) :
    let T1 : Taylor := { T with base := { T.base with inputVal0 := x, hyperVal0 := e } }
    T.setBaseValues x e H = (T1.withLin (T1.lin.rest H).1, (T1.lin.rest H).2) := by
  intro T1
  have hb := setParToBase_base T1.lin
  unfold Taylor.setBaseValues LinApprox.rest
  simp only
  rw [taylor_setParToBase]
  have hx : T1.lin.setParToBase.1.base.inputVal0 = x := by rw [hb]; rfl
  change (match (T1.withLin T1.lin.setParToBase.1, T1.lin.setParToBase.2).2 with
    | some e => _ | none => _) = _
  simp only
  unfold andThen
  cases r : T1.lin.setParToBase.2 with
  | some e => rfl
  | none =>
    simp only
    have hl : T1.lin.setParToBase.1 = (T1.withLin T1.lin.setParToBase.1).lin := by
      unfold LinApprox.setParToBase andThen Taylor.withLin Taylor.lin
      simp only
      split <;> rfl
    generalize T1.lin.setParToBase.1 = L at *
    cases H with
    | some H =>
      simp only [LinApprox.setHess, LinApprox.setChol, Taylor.setHess]
      cases choFactor H <;> rfl
    | none =>
      simp only [LinApprox.setHess, LinApprox.setChol, Taylor.setHess, Taylor.objective, LinApprox.objective, hx]
      have hof : L.objFn = T.objFn := by rw [hl]; rfl
      rw [hof]
      change (match ((Objective.new L.inputPar fun (_ : Unit) p => T.objFn p L.hyperPar).funFreeHessian x ()).2 with
        | .error e => ({ T1.withLin L with
            inputPar := ((Objective.new L.inputPar fun (_ : Unit) p => T.objFn p L.hyperPar).funFreeHessian x ()).1.par }, some e)
        | .ok H =>
          match choFactor H with
          | .error e => ({ T1.withLin L with
              inputPar := ((Objective.new L.inputPar fun (_ : Unit) p => T.objFn p L.hyperPar).funFreeHessian x ()).1.par,
              base := { L.base with hess0 := H } }, some e)
          | .ok l => ({ T1.withLin L with
              inputPar := ((Objective.new L.inputPar fun (_ : Unit) p => T.objFn p L.hyperPar).funFreeHessian x ()).1.par,
              base := { L.base with hess0 := H }, chol := l }, none)) = _
      generalize (Objective.new L.inputPar fun (_ : Unit) p => T.objFn p L.hyperPar).funFreeHessian x () = R
      cases R.2 with
      | error e => rfl
      | ok H =>
        simp only [hx]
        cases choFactor H <;> rfl

theorem rest_sim {depth : ℕ} {w : LWorld} {T : LinApprox} (h : LSim depth w T) {hess0 : Option Ref}
    (hh : ∀ r, hess0 = some r → r.Alive w.st.mem) :
    LSim depth (w.rest depth hess0).1 (T.rest (hess0.map w.st.mem.read)).1 ∧
      outcome (w.rest depth hess0).2 = (T.rest (hess0.map w.st.mem.read)).2 := by
  obtain ⟨h1, e1⟩ := setParToBase_sim h
  have s1 := setParToBase_step (depth := depth) h.wf
  refine thenDo_sim h1 e1 fun _ hn => ?_
  have hr : hess0.map w.st.mem.read = hess0.map (w.setParToBase depth).1.st.mem.read := by
    cases hess0 with
    | none => rfl
    | some r => simp only [Option.map_some]; rw [s1.grow.le.read (hh r rfl)]
  obtain ⟨h2, e2⟩ := setHess_sim h1 (setParToBase_plain hn) (hess0 := hess0) fun r hr => (hh r hr).mono s1.grow.le
  rw [← hr] at h2 e2
  exact thenDo_sim h2 e2 fun _ _ => setChol_sim h2

theorem tSetBaseValues_sim {depth : ℕ} {w : TWorld} {T : Taylor} (h : TSim depth w T) {x v : List ℕ}
    (hv : ∀ k ∈ v, k < w.st.mem.next) {hess0 : Option Ref} (hh : ∀ r, hess0 = some r → r.Alive w.st.mem) :
    TSim depth (w.setBaseValues depth x v hess0).1
        (T.setBaseValues (w.st.mem.vals x) (w.st.mem.vals v) (hess0.map w.st.mem.read)).1 ∧
      outcome (w.setBaseValues depth x v hess0).2 =
        (T.setBaseValues (w.st.mem.vals x) (w.st.mem.vals v) (hess0.map w.st.mem.read)).2 := by
  have h0 : LSim depth (w.copies x v).lin _ := copies_sim h.lin (x := x) hv
  have s0 : w.Step (w.copies x v) := copies_step w.lin x v
  have hr : hess0.map w.st.mem.read = hess0.map (w.copies x v).lin.st.mem.read := by
    cases hess0 with
    | none => rfl
    | some r =>
      simp only [Option.map_some]
      exact congrArg some (s0.grow.le.read (hh r rfl)).symm
  obtain ⟨h1, e1⟩ := rest_sim h0 (hess0 := hess0) fun r hr => (hh r hr).mono s0.grow.le
  have hs := T.setBaseValues_shape (w.st.mem.vals x) (w.st.mem.vals v) (hess0.map w.st.mem.read)
  have he := taylor_setBaseValues T (w.st.mem.vals x) (w.st.mem.vals v) (hess0.map w.st.mem.read)
  simp only at he
  rw [← hr] at h1 e1
  have s1 := rest_step (depth := depth) h0.wf (hess0 := hess0) fun r hr => (hh r hr).mono s0.grow.le
  refine ⟨h.of_lin ?_ rfl rfl hs, ?_⟩
  · rw [he, tSetBaseValues_eq]
    refine ⟨?_, ?_, ?_⟩
    · exact (withLin_step s1 s1.inputPar s1.hyperPar).wf h0.wf
    · have := h1.duo
      rw [s1.inputPar, s1.hyperPar] at this
      exact this
    · have hv := h1.value
      have hfun : (T.lin.inputIsFree = w.o.inputIsFree ∧ T.lin.hyperIsFree = w.o.hyperIsFree) ∧
        (T.lin.objFn = w.o.objFn ∧ T.lin.hyperFn = w.o.hyperFn) := by
        rw [h.lin.value]; exact ⟨⟨rfl, rfl⟩, rfl, rfl⟩
      simp only [LWorld.value, TWorld.lin, TWorld.withLin, Taylor.lin, Taylor.withLin] at hv hfun ⊢
      obtain ⟨⟨f1, f2⟩, f3, f4⟩ := hfun
      rw [LinApprox.mk.injEq]
      refine ⟨rfl, rfl, f1, f2, f3, f4, ?_, ?_, rfl, rfl⟩
      · exact congrArg LinApprox.base hv
      · exact congrArg LinApprox.chol hv
  · rw [he]
    exact e1

theorem gradient_sim {depth : ℕ} {w : TWorld} {T : Taylor} (h : LSim depth w.lin T.lin) :
    w.gradient depth = T.objectiveGradient := by
  have hv := twoValueAt_refine (o := w.joint) h.duo w.o.inputIsFree w.o.hyperIsFree ()
  have hval := h.value
  have f1 : T.inputIsFree = w.o.inputIsFree := congrArg LinApprox.inputIsFree hval
  have f2 : T.hyperIsFree = w.o.hyperIsFree := congrArg LinApprox.hyperIsFree hval
  have f3 : T.hyperFn = w.o.hyperFn := congrArg LinApprox.hyperFn hval
  funext eta eps vecs
  unfold TWorld.gradient Taylor.objectiveGradient Taylor.joint
  rw [f1, f2, f3]
  cases vecs with
  | nil => exact congrArg (fun F => TwoObjective.agGrad1 F eta eps) hv
  | cons _ _ => rfl

theorem base_sim {depth : ℕ} {w : TWorld} {T : Taylor} (h : LSim depth w.lin T.lin) : T.base = w.base :=
  congrArg LinApprox.base h.value

theorem dkList_sim {depth : ℕ} {w : TWorld} {T : Taylor} (h : TSim depth w T) : w.dkList depth = T.dkList := by
  unfold TWorld.dkList
  rw [gradient_sim h.lin, h.dk, h.terms]

theorem tSetOrder_sim {depth : ℕ} {w : TWorld} {T : Taylor} (h : TSim depth w T) (n : ℕ) :
    TSim depth (w.setOrder depth n).1 (T.setOrder n).1 ∧ outcome (w.setOrder depth n).2 = (T.setOrder n).2 := by
  have hg : ({ T with order := n } : Taylor).objectiveGradient = T.objectiveGradient := rfl
  have he : T.setOrder n = match orderTerms T.objectiveGradient n with
    | .error e => ({ T with order := n }, some e)
    | .ok ts => ({ T with order := n, termsList := ts, dkList := ts.map dkinputFromTerms }, none) := rfl
  rw [he]
  unfold TWorld.setOrder
  rw [gradient_sim h.lin]
  cases r : orderTerms T.objectiveGradient n with
  | error e => exact ⟨⟨h.lin, rfl, h.terms, h.dk⟩, rfl⟩
  | ok ts =>
    refine ⟨⟨h.lin, rfl, ?_, rfl⟩, rfl⟩
    change ts = listsOf T.objectiveGradient (some n)
    simp only [listsOf, r]

theorem withLin_sim {depth : ℕ} {w : TWorld} {T : Taylor} (h : TSim depth w T) :
    TSim depth (w.setParToBase depth).1 T.setParToBase.1 ∧ outcome (w.setParToBase depth).2 = T.setParToBase.2 := by
  obtain ⟨h1, e1⟩ := setParToBase_sim h.lin
  have s1 := setParToBase_step (depth := depth) h.lin.wf
  obtain ⟨p, q, hs, hp, hq⟩ := T.setParToBase_shape
  have he := taylor_setParToBase T
  refine ⟨h.of_lin ?_ rfl rfl ⟨p, q, T.base, T.chol, hs, hp, hq⟩, ?_⟩
  · rw [he]
    refine ⟨(tSetParToBase_step h.lin.wf).wf h.lin.wf, ?_, ?_⟩
    · have := h1.duo
      rw [s1.inputPar, s1.hyperPar] at this
      exact this
    · have hv := h1.value
      have hval := h.lin.value
      have f1 : T.inputIsFree = w.o.inputIsFree := congrArg LinApprox.inputIsFree hval
      have f2 : T.hyperIsFree = w.o.hyperIsFree := congrArg LinApprox.hyperIsFree hval
      have f3 : T.objFn = w.o.objFn := congrArg LinApprox.objFn hval
      have f4 : T.hyperFn = w.o.hyperFn := congrArg LinApprox.hyperFn hval
      simp only [LWorld.value, TWorld.lin, TWorld.setParToBase, TWorld.withLin, Taylor.lin, Taylor.withLin] at hv ⊢
      rw [LinApprox.mk.injEq]
      refine ⟨rfl, rfl, f1, f2, f3, f4, ?_, ?_, rfl, rfl⟩
      · exact congrArg LinApprox.base hv
      · exact congrArg LinApprox.chol hv
  · rw [he]
    exact e1

theorem TSim.store {depth : ℕ} {w : TWorld} {T : Taylor} (h : TSim depth w T) {st : Store} {p q : Param}
    (hg : Store.Grow w.st st) (hd : Duo depth st w.o.inputPar w.o.hyperPar p q)
    (hp : p.blank = T.inputPar.blank) (hq : q.blank = T.hyperPar.blank) :
    TSim depth ⟨st, w.o⟩ { T with inputPar := p, hyperPar := q } := by
  refine h.of_lin ⟨h.lin.wf.grow hg, hd, ?_⟩ rfl rfl ⟨p, q, T.base, T.chol, rfl, hp, hq⟩
  have hval := h.lin.value
  have := value_grow h.lin.wf hg T.inputPar T.hyperPar p q
  change _ = LWorld.value ⟨st, w.lin.o⟩ p q
  rw [this]
  change _ = { w.lin.value T.lin.inputPar T.lin.hyperPar with inputPar := p, hyperPar := q }
  rw [← hval]
  rfl

theorem traced_sim {depth : ℕ} {w : TWorld} {T : Taylor} (h : TSim depth w T) : TSim depth (w.traced depth) T.traced := by
  have hval := h.lin.value
  have f1 : T.inputIsFree = w.o.inputIsFree := congrArg LinApprox.inputIsFree hval
  have f2 : T.hyperIsFree = w.o.hyperIsFree := congrArg LinApprox.hyperIsFree hval
  have f4 : T.hyperFn = w.o.hyperFn := congrArg LinApprox.hyperFn hval
  have f5 := base_sim h.lin
  have hd := twoTrace_refine (o := w.joint) h.lin.duo w.o.inputIsFree w.o.hyperIsFree true true h.lin.wf.input h.lin.wf.hyper
  obtain ⟨p, q, hs, hp, hq⟩ := T.traced_shape
  have e : T.traced = { T with
      inputPar := ((⟨T.inputPar, T.hyperPar, w.joint.fn⟩ : TwoObjective Unit).trace (w.st.mem.vals w.o.inputVal0)
        (w.st.mem.vals w.o.hyperVal0) w.o.inputIsFree w.o.hyperIsFree true true).par1,
      hyperPar := ((⟨T.inputPar, T.hyperPar, w.joint.fn⟩ : TwoObjective Unit).trace (w.st.mem.vals w.o.inputVal0)
        (w.st.mem.vals w.o.hyperVal0) w.o.inputIsFree w.o.hyperIsFree true true).par2 } := by
    unfold Taylor.traced Taylor.joint
    rw [f1, f2, f4, f5]
    rfl
  have hp' := congrArg Taylor.inputPar (e.symm.trans hs)
  have hq' := congrArg Taylor.hyperPar (e.symm.trans hs)
  simp only at hp' hq'
  rw [e]
  refine h.store (twoTrace_grow w.joint _ _ _ _ h.lin.wf.input h.lin.wf.hyper) hd ?_ ?_
  · exact (congrArg Param.blank hp').trans hp
  · exact (congrArg Param.blank hq').trans hq

theorem dkValue_sim {depth : ℕ} {w : TWorld} {T : Taylor} (h : TSim depth w T) (d : List ℕ) (k : ℤ) :
    TSim depth (w.dkValue depth d k).1 (T.evaluateDk (w.st.mem.vals d) k).1 ∧
      (w.dkValue depth d k).2 = (T.evaluateDk (w.st.mem.vals d) k).2 := by
  unfold TWorld.dkValue Taylor.evaluateDk
  rw [dkList_sim h, ← base_sim h.lin, h.order]
  have e1 : w.st.mem.vals w.o.inputVal0 = T.base.inputVal0 := by rw [base_sim h.lin]; rfl
  have e2 : w.st.mem.vals w.o.hyperVal0 = T.base.hyperVal0 := by rw [base_sim h.lin]; rfl
  rw [e1, e2]
  split
  · exact ⟨h, rfl⟩
  split
  · exact ⟨h, rfl⟩
  cases getIdx T.dkList (k.toNat - 1) with
  | error e => exact ⟨h, rfl⟩
  | ok f =>
    simp only
    cases f T.base T.base.inputVal0 T.base.hyperVal0 (w.st.mem.vals d) with
    | error e => exact ⟨traced_sim h, rfl⟩
    | ok v =>
      obtain ⟨h2, o2⟩ := withLin_sim (traced_sim h)
      refine ⟨h2, ?_⟩
      simp only
      cases r : T.traced.setParToBase.2 with
      | some e => rw [r] at o2; rw [outcome_error o2]
      | none => rw [r] at o2; rw [outcome_ok o2]

theorem seriesLoop_sim {depth : ℕ} {d : List ℕ} : ∀ (ks : List ℕ) {w : TWorld} {T : Taylor} (_ : TSim depth w T)
    (_ : ∀ k ∈ d, k < w.st.mem.next) (acc : List ℝ),
    TSim depth (w.seriesLoop depth d ks acc).1 (T.seriesLoop (w.st.mem.vals d) ks acc).1 ∧
      (w.seriesLoop depth d ks acc).2 = (T.seriesLoop (w.st.mem.vals d) ks acc).2
  | [], w, T, h, _, acc => ⟨h, rfl⟩
  | k :: ks, w, T, h, hd, acc => by
    obtain ⟨h1, e1⟩ := dkValue_sim h d k
    have s1 := dkValue_step (depth := depth) h.lin.wf d k
    unfold TWorld.seriesLoop Taylor.seriesLoop
    simp only
    rw [e1]
    cases r : (do vadd acc (vscale (1 / (k.factorial : ℝ)) (← (T.evaluateDk (w.st.mem.vals d) k).2))) with
    | error e => exact ⟨h1, rfl⟩
    | ok v =>
      have := seriesLoop_sim ks h1 (s1.grow.alive hd) v
      rw [show (w.dkValue depth d k).1.st.mem.vals d = w.st.mem.vals d from s1.grow.le.vals hd] at this
      exact this

theorem inNew_sim {depth : ℕ} {w : TWorld} {T : Taylor} (h : TSim depth w T) (r : Py (List ℝ)) :
    TSim depth (TWorld.inNew (w, r)).1 T ∧ (TWorld.inNew (w, r)).1.st.mem.vals <$> (TWorld.inNew (w, r)).2 = r ∧
      ∀ y, (TWorld.inNew (w, r)).2 = .ok y → ∀ k ∈ y, w.st.mem.next ≤ k := by
  unfold TWorld.inNew
  cases r with
  | error e => exact ⟨h, rfl, by simp⟩
  | ok v =>
    refine ⟨?_, congrArg Except.ok (newVec_vals _ _), ?_⟩
    · exact h.store (newVec_grow _ _) (h.lin.duo.newVec v) rfl rfl
    · intro y hy k hk
      cases hy
      simp only [Store.newVec, Mem.alloc, List.mem_map] at hk
      obtain ⟨i, -, rfl⟩ := hk
      omega

theorem tEvaluateDk_sim {depth : ℕ} {w : TWorld} {T : Taylor} (h : TSim depth w T) (d : List ℕ) (k : ℤ) :
    TSim depth (w.evaluateDk depth d k).1 (T.evaluateDk (w.st.mem.vals d) k).1 ∧
      (w.evaluateDk depth d k).1.st.mem.vals <$> (w.evaluateDk depth d k).2 = (T.evaluateDk (w.st.mem.vals d) k).2 ∧
      ∀ y, (w.evaluateDk depth d k).2 = .ok y → ∀ k ∈ y, w.st.mem.next ≤ k := by
  obtain ⟨h1, e1⟩ := dkValue_sim h d k
  have s1 := dkValue_step (depth := depth) h.lin.wf d k
  obtain ⟨a, b, c⟩ := inNew_sim h1 (w.dkValue depth d k).2
  refine ⟨a, b.trans e1, fun y hy j hj => s1.grow.le.1.trans (c y hy j hj)⟩

theorem tEvaluateSeries_sim {depth : ℕ} {w : TWorld} {T : Taylor} (h : TSim depth w T) {d : List ℕ}
    (hd : ∀ k ∈ d, k < w.st.mem.next) (off : Bool) (m : Option ℤ) :
    TSim depth (w.evaluateSeries depth d off m).1 (T.evaluateSeries (w.st.mem.vals d) off m).1 ∧
      (w.evaluateSeries depth d off m).1.st.mem.vals <$> (w.evaluateSeries depth d off m).2 =
        (T.evaluateSeries (w.st.mem.vals d) off m).2 ∧
      ∀ y, (w.evaluateSeries depth d off m).2 = .ok y → ∀ k ∈ y, w.st.mem.next ≤ k := by
  obtain ⟨h1, e1⟩ := dkValue_sim h d 1
  have s1 := dkValue_step (depth := depth) h.lin.wf d 1
  unfold TWorld.evaluateSeries Taylor.evaluateSeries
  simp only
  rw [h.order]
  split
  · exact ⟨h, rfl, by simp⟩
  split
  · exact ⟨h, rfl, by simp⟩
  rw [e1]
  cases r : (T.evaluateDk (w.st.mem.vals d) 1).2 with
  | error e => exact ⟨h1, rfl, by simp⟩
  | ok v =>
    simp only
    obtain ⟨h2, e2⟩ := seriesLoop_sim (d := d) ((List.range ((m.getD (w.o.order : ℤ)).toNat - 1)).map (· + 2)) h1 (s1.grow.alive hd) v
    have s2 := seriesLoop_step (depth := depth) d ((List.range ((m.getD (w.o.order : ℤ)).toNat - 1)).map (· + 2)) (s1.wf h.lin.wf) v
    rw [show (w.dkValue depth d 1).1.st.mem.vals d = w.st.mem.vals d from s1.grow.le.vals hd] at h2 e2
    rw [e2]
    cases r2 : ((T.evaluateDk (w.st.mem.vals d) 1).1.seriesLoop (w.st.mem.vals d)
        ((List.range ((m.getD (w.o.order : ℤ)).toNat - 1)).map (· + 2)) v).2 with
    | error e => exact ⟨h2, rfl, by simp⟩
    | ok v' =>
      simp only
      have e3 := base_sim h2.lin
      obtain ⟨a, b, c⟩ := inNew_sim h2 (if off then vadd v' (((w.dkValue depth d 1).1.seriesLoop depth d
        ((List.range ((m.getD (w.o.order : ℤ)).toNat - 1)).map (· + 2)) v).1.st.mem.vals
        ((w.dkValue depth d 1).1.seriesLoop depth d ((List.range ((m.getD (w.o.order : ℤ)).toNat - 1)).map (· + 2)) v).1.o.inputVal0)
          else .ok v')
      refine ⟨a, ?_, fun y hy j hj => (s1.trans s2).grow.le.1.trans (c y hy j hj)⟩
      rw [e3]
      exact b

/-! ### Later programs -/

/-- Two objects that differ only in the values of their parameters. -/
def Taylor.Alike (T T' : Taylor) : Prop :=
  ∃ p q, T' = { T with inputPar := p, hyperPar := q } ∧ p.blank = T.inputPar.blank ∧ q.blank = T.hyperPar.blank

theorem Taylor.Alike.trans {a b c : Taylor} (h : a.Alike b) (h' : b.Alike c) : a.Alike c := by
  obtain ⟨p, q, rfl, hp, hq⟩ := h
  obtain ⟨p', q', rfl, hp', hq'⟩ := h'
  exact ⟨p', q', rfl, hp'.trans hp, hq'.trans hq⟩

theorem Taylor.Alike.symm {a b : Taylor} (h : a.Alike b) : b.Alike a := by
  obtain ⟨p, q, rfl, hp, hq⟩ := h
  exact ⟨a.inputPar, a.hyperPar, rfl, hp.symm, hq.symm⟩

theorem setParToBase_alike {T T' : Taylor} (h : T.Alike T') : T'.setParToBase.2 = T.setParToBase.2 := by
  obtain ⟨p, q, rfl, hp, hq⟩ := h
  unfold Taylor.setParToBase
  simp only
  rw [(setPar_indep hp.symm T.base.inputVal0 T.inputIsFree).1]
  cases (setPar T.inputPar T.base.inputVal0 T.inputIsFree).2 with
  | some e => rfl
  | none => exact (setPar_indep hq.symm T.base.hyperVal0 T.hyperIsFree).1

theorem evaluateDk_alike {T T' : Taylor} (h : T.Alike T') (y : List ℝ) (k : ℤ) :
    (T'.evaluateDk y k).2 = (T.evaluateDk y k).2 := by
  have ht : T.traced.Alike T'.traced := (Taylor.Alike.symm T.traced_shape).trans (h.trans T'.traced_shape)
  have hs := setParToBase_alike ht
  obtain ⟨p, q, rfl, hp, hq⟩ := h
  unfold Taylor.evaluateDk
  split
  · rfl
  split
  · rfl
  cases getIdx T.dkList (k.toNat - 1) with
  | error e => rfl
  | ok f =>
    simp only
    cases f T.base T.base.inputVal0 T.base.hyperVal0 y with
    | error e => rfl
    | ok v =>
      simp only
      rw [hs]

theorem seriesLoop_alike {y : List ℝ} : ∀ (ks : List ℕ) {T T' : Taylor} (_ : T.Alike T') (acc : List ℝ),
    (T'.seriesLoop y ks acc).2 = (T.seriesLoop y ks acc).2
  | [], _, _, _, _ => rfl
  | k :: ks, T, T', h, acc => by
    have e := evaluateDk_alike h y k
    have ha : (T.evaluateDk y k).1.Alike (T'.evaluateDk y k).1 :=
      (Taylor.Alike.symm (T.evaluateDk_shape y k)).trans (h.trans (T'.evaluateDk_shape y k))
    unfold Taylor.seriesLoop
    simp only
    rw [e]
    cases (do vadd acc (vscale (1 / (k.factorial : ℝ)) (← (T.evaluateDk y k).2))) with
    | error e => rfl
    | ok v => exact seriesLoop_alike ks ha v

theorem evaluateSeries_alike {T T' : Taylor} (h : T.Alike T') (y : List ℝ) (off : Bool) (m : Option ℤ) :
    (T'.evaluateSeries y off m).2 = (T.evaluateSeries y off m).2 := by
  have e := evaluateDk_alike h y 1
  have ha : (T.evaluateDk y 1).1.Alike (T'.evaluateDk y 1).1 :=
    (Taylor.Alike.symm (T.evaluateDk_shape y 1)).trans (h.trans (T'.evaluateDk_shape y 1))
  have ho : T'.order = T.order := by obtain ⟨p, q, rfl, -, -⟩ := h; rfl
  unfold Taylor.evaluateSeries
  simp only
  rw [ho]
  split
  · rfl
  split
  · rfl
  rw [e]
  cases (T.evaluateDk y 1).2 with
  | error e => rfl
  | ok v =>
    simp only
    have e2 := seriesLoop_alike (y := y) ((List.range ((m.getD (T.order : ℤ)).toNat - 1)).map (· + 2)) ha v
    have h1 := (T.evaluateDk y 1).1.seriesLoop_shape y ((List.range ((m.getD (T.order : ℤ)).toNat - 1)).map (· + 2)) v
    have h2 := (T'.evaluateDk y 1).1.seriesLoop_shape y ((List.range ((m.getD (T.order : ℤ)).toNat - 1)).map (· + 2)) v
    rw [e2]
    cases r : ((T.evaluateDk y 1).1.seriesLoop y ((List.range ((m.getD (T.order : ℤ)).toNat - 1)).map (· + 2)) v).2 with
    | error e => rfl
    | ok v' =>
      simp only
      have hb : ((T'.evaluateDk y 1).1.seriesLoop y ((List.range ((m.getD (T.order : ℤ)).toNat - 1)).map (· + 2)) v).1.base =
          ((T.evaluateDk y 1).1.seriesLoop y ((List.range ((m.getD (T.order : ℤ)).toNat - 1)).map (· + 2)) v).1.base := by
        obtain ⟨p1, q1, g1, -, -⟩ := h1
        obtain ⟨p2, q2, g2, -, -⟩ := h2
        obtain ⟨p3, q3, g3, -, -⟩ := ha
        rw [g1, g2, g3]
      rw [hb]

theorem dkAt_eq {depth : ℕ} {w : TWorld} {T : Taylor} (h : TSim depth w T) (y : List ℝ) (k : ℤ) :
    w.dkAt depth y k = (T.evaluateDk y k).2 := by
  have h1 := h.store (newVec_grow w.st y) (h.lin.duo.newVec y) rfl rfl
  have := (tEvaluateDk_sim h1 (w.st.newVec y).2 k).2.1
  simp only [newVec_vals] at this
  exact this

theorem seriesAt_eq {depth : ℕ} {w : TWorld} {T : Taylor} (h : TSim depth w T) (y : List ℝ) (off : Bool)
    (m : Option ℤ) : w.seriesAt depth y off m = (T.evaluateSeries y off m).2 := by
  have h1 := h.store (newVec_grow w.st y) (h.lin.duo.newVec y) rfl rfl
  have := (tEvaluateSeries_sim h1 (newVec_alive w.st y) off m).2.1
  simp only [newVec_vals] at this
  exact this

theorem tevent_step {depth : ℕ} {w : TWorld} (h : w.lin.WF) (e : TEvent) (ok : e.Ok depth w) :
    (e.run depth w).lin.WF ∧ w.st.mem.next ≤ (e.run depth w).st.mem.next := by
  cases e with
  | setBase x v hess0 =>
    have := tSetBaseValues_step (depth := depth) h x v ok.2.2
    exact ⟨this.wf h, this.grow.le.1⟩
  | setOrder n =>
    have := tSetOrder_step (depth := depth) w n
    exact ⟨this.wf h, this.grow.le.1⟩
  | evaluateDk d k =>
    have := tEvaluateDk_step (depth := depth) h d k
    exact ⟨this.wf h, this.grow.le.1⟩
  | evaluateSeries d off m =>
    have := tEvaluateSeries_step (depth := depth) h d off m
    exact ⟨this.wf h, this.grow.le.1⟩
  | other e =>
    have hn := pevent_next h.st e ok
    refine ⟨⟨pevent_wf h.st e ok, fun k hk => ?_, fun k hk => ?_, fun k hk => ?_, fun k hk => ?_⟩, hn⟩
    · exact lt_of_lt_of_le (h.input k hk) hn
    · exact lt_of_lt_of_le (h.hyper k hk) hn
    · exact lt_of_lt_of_le (h.hess k hk) hn
    · exact lt_of_lt_of_le (h.sens k hk) hn

theorem tevent_cells {depth : ℕ} {w : TWorld} (h : w.lin.WF) (e : TEvent) (ok : e.Ok depth w) {k : ℕ}
    (hk : k < w.st.mem.next) (hw : k ∉ e.writes) : (e.run depth w).st.mem.cell k = w.st.mem.cell k := by
  cases e with
  | setBase x v hess0 => exact (tSetBaseValues_step (depth := depth) h x v ok.2.2).grow.le.2 k hk
  | setOrder n => exact (tSetOrder_step (depth := depth) w n).grow.le.2 k hk
  | evaluateDk d j => exact (tEvaluateDk_step (depth := depth) h d j).grow.le.2 k hk
  | evaluateSeries d off m => exact (tEvaluateSeries_step (depth := depth) h d off m).grow.le.2 k hk
  | other e => exact pevent_cells h.st e ok hk fun a ha => by subst ha; exact hw

theorem setParToBase_object {depth : ℕ} (w : TWorld) : (w.setParToBase depth).1.o = w.o := by
  unfold TWorld.setParToBase TWorld.withLin LWorld.setParToBase TWorld.lin
  simp only
  split <;> rfl

theorem dkValue_object {depth : ℕ} (w : TWorld) (d : List ℕ) (k : ℤ) : (w.dkValue depth d k).1.o = w.o := by
  unfold TWorld.dkValue
  split
  · rfl
  split
  · rfl
  split
  · rfl
  split
  · rfl
  · exact setParToBase_object _

theorem inNew_object (r : TWorld × Py (List ℝ)) : (TWorld.inNew r).1.o = r.1.o := by
  unfold TWorld.inNew
  split <;> rfl

theorem tSeriesLoop_object {depth : ℕ} (d : List ℕ) : ∀ (ks : List ℕ) (w : TWorld) (acc : List ℝ),
    (w.seriesLoop depth d ks acc).1.o = w.o
  | [], _, _ => rfl
  | k :: ks, w, acc => by
    unfold TWorld.seriesLoop
    simp only
    split
    · exact dkValue_object w d k
    · exact (tSeriesLoop_object d ks _ _).trans (dkValue_object w d k)

theorem tevent_object {depth : ℕ} {w : TWorld} {e : TEvent} (hr : ¬ e.Resets) : (e.run depth w).o = w.o := by
  cases e with
  | setBase x v hess0 => exact absurd trivial hr
  | setOrder n => exact absurd trivial hr
  | evaluateDk d k => exact (inNew_object _).trans (dkValue_object w d k)
  | evaluateSeries d off m =>
    simp only [TEvent.run, TWorld.evaluateSeries]
    split
    · rfl
    split
    · rfl
    split
    · exact dkValue_object w d 1
    · split
      · exact (tSeriesLoop_object d _ _ _).trans (dkValue_object w d 1)
      · exact (inNew_object _).trans ((tSeriesLoop_object d _ _ _).trans (dkValue_object w d 1))
  | other e => rfl

theorem TReached.wf {depth : ℕ} {w : TWorld} (h : TReached depth w) : w.lin.WF := by
  induction h with
  | start h objFn i j x v n fi fh hess0 hyperFn hx hv ok =>
    exact (tNew_step h.wf objFn i j x v n fi fh hess0 hyperFn).wf (TWorld.blank_wf h.wf _ _ _ _ _ _)
  | step h e ok ih => exact (tevent_step ih e ok).1

/-- What the object keeps while a program runs that does not reset it or change its arrays. -/
theorem runT_keeps {depth : ℕ} : ∀ (es : List TEvent) {w : TWorld} (_ : w.lin.WF) (_ : okT depth w es)
    (_ : ∀ e ∈ es, ¬ e.Resets)
    (_ : ∀ e ∈ es, ∀ k ∈ e.writes, k ∉ w.o.inputVal0 ++ w.o.hyperVal0 ++ w.o.hess0.addr),
    (runT depth w es).lin.WF ∧ (runT depth w es).o = w.o ∧ (runT depth w es).base = w.base
  | [], _, h, _, _, _ => ⟨h, rfl, rfl⟩
  | e :: es, w, h, ok, hr, hw => by
    have h1 := (tevent_step h e ok.1).1
    have ho : (e.run depth w).o = w.o := tevent_object (hr e (by simp))
    obtain ⟨a, b, c⟩ := runT_keeps es (w := e.run depth w) h1 ok.2 (fun e' he' => hr e' (List.mem_cons_of_mem _ he'))
      (by rw [ho]; exact fun e' he' => hw e' (List.mem_cons_of_mem _ he'))
    refine ⟨a, b.trans ho, c.trans ?_⟩
    have hc : ∀ k ∈ w.o.inputVal0 ++ w.o.hyperVal0 ++ w.o.hess0.addr, (e.run depth w).st.mem.cell k = w.st.mem.cell k := by
      intro k hk
      refine tevent_cells h e ok.1 ?_ fun hk' => hw e (by simp) k hk' hk
      simp only [List.mem_append] at hk
      rcases hk with (hk | hk) | hk
      · exact h.input k hk
      · exact h.hyper k hk
      · exact h.hess k hk
    have hv : ∀ x : List ℕ, (∀ k ∈ x, k ∈ w.o.inputVal0 ++ w.o.hyperVal0 ++ w.o.hess0.addr) →
      (e.run depth w).st.mem.vals x = w.st.mem.vals x := fun x hx => List.map_congr_left fun k hk => hc k (hx k hk)
    unfold TWorld.base Mem.read
    rw [ho, hv w.o.inputVal0 (by simp +contextual), hv w.o.hyperVal0 (by simp +contextual),
      hv w.o.hess0.addr (by simp +contextual)]

/-- Two states of the object with parameters of the same structure. -/
theorem sim_fields {depth : ℕ} {w w' : TWorld} {T T' : Taylor} (h : TSim depth w T) (h' : TSim depth w' T')
    (ho : w'.o = w.o) (hp : T'.inputPar.blank = T.inputPar.blank)
    (hq : T'.hyperPar.blank = T.hyperPar.blank) :
    T' = { T with inputPar := T'.inputPar, hyperPar := T'.hyperPar, base := w'.base } := by
  have v := h.lin.value
  have v' := h'.lin.value
  have f1 : T'.inputIsFree = T.inputIsFree := by
    have a : T.inputIsFree = w.o.inputIsFree := congrArg LinApprox.inputIsFree v
    have b : T'.inputIsFree = w'.o.inputIsFree := congrArg LinApprox.inputIsFree v'
    rw [a, b, ho]
  have f2 : T'.hyperIsFree = T.hyperIsFree := by
    have a : T.hyperIsFree = w.o.hyperIsFree := congrArg LinApprox.hyperIsFree v
    have b : T'.hyperIsFree = w'.o.hyperIsFree := congrArg LinApprox.hyperIsFree v'
    rw [a, b, ho]
  have f3 : T'.objFn = T.objFn := by
    have a : T.objFn = w.o.objFn := congrArg LinApprox.objFn v
    have b : T'.objFn = w'.o.objFn := congrArg LinApprox.objFn v'
    rw [a, b, ho]
  have f4 : T'.hyperFn = T.hyperFn := by
    have a : T.hyperFn = w.o.hyperFn := congrArg LinApprox.hyperFn v
    have b : T'.hyperFn = w'.o.hyperFn := congrArg LinApprox.hyperFn v'
    rw [a, b, ho]
  have f5 : T'.chol = T.chol := by
    have a : T.chol = w.o.chol := congrArg LinApprox.chol v
    have b : T'.chol = w'.o.chol := congrArg LinApprox.chol v'
    rw [a, b, ho]
  have f6 : w'.base = T'.base := (base_sim h'.lin).symm
  have f7 : T'.order = T.order := by rw [h.order, h'.order, ho]
  have f8 : T'.termsList = T.termsList := by
    rw [h.terms, h'.terms, ho, gradient_blank hp hq f1 f2 f4]
  have f9 : T'.dkList = T.dkList := by rw [h.dk, h'.dk, f8]
  rw [f6]
  obtain ⟨p, q, fi, fh, a, b, c, d, n, ts, dk⟩ := T'
  simp only at f1 f2 f3 f4 f5 f7 f8 f9
  subst f1 f2 f3 f4 f5 f7 f8 f9
  rfl

/-- ... and the same base values. -/
theorem alike_of {depth : ℕ} {w w' : TWorld} {T T' : Taylor} (h : TSim depth w T) (h' : TSim depth w' T')
    (ho : w'.o = w.o) (hb : w'.base = w.base) (hp : T'.inputPar.blank = T.inputPar.blank)
    (hq : T'.hyperPar.blank = T.hyperPar.blank) : T.Alike T' := by
  refine ⟨T'.inputPar, T'.hyperPar, ?_, hp, hq⟩
  have := sim_fields h h' ho hp hq
  rw [hb, ← base_sim h.lin] at this
  exact this

/-- A later state in which the objects have the same structure. -/
theorem TSim.skel {depth : ℕ} {w w' : TWorld} {T : Taylor} (h : TSim depth w T) (hw : w'.lin.WF)
    (hsk : w.st.Skel w'.st) (ho : w'.o = w.o) :
    ∃ T', TSim depth w' T' ∧ T'.inputPar.blank = T.inputPar.blank ∧ T'.hyperPar.blank = T.hyperPar.blank := by
  have h1 : w.st.tree depth w.o.inputPar = some T.inputPar := h.lin.duo.first
  have h2 : w.st.tree depth w.o.hyperPar = some T.hyperPar := h.lin.duo.second
  obtain ⟨p, hp⟩ := Option.isSome_iff_exists.1 ((hsk.treeSome depth w.o.inputPar).trans (by rw [h1]; rfl))
  obtain ⟨q, hq⟩ := Option.isSome_iff_exists.1 ((hsk.treeSome depth w.o.hyperPar).trans (by rw [h2]; rfl))
  obtain ⟨T', hT'⟩ : ∃ T', w'.view depth = some T' := by
    unfold TWorld.view
    rw [ho, hp, hq]
    exact ⟨_, rfl⟩
  have ha : w.st.Apart depth w.o.inputPar w.o.hyperPar := h.lin.duo.apart
  have hs' := TSim.of_view hw hT' (by rw [ho]; exact apart_skel ha hsk)
  have h3 : w'.st.tree depth w.o.inputPar = some T'.inputPar := by rw [← ho]; exact hs'.lin.duo.first
  have h4 : w'.st.tree depth w.o.hyperPar = some T'.hyperPar := by rw [← ho]; exact hs'.lin.duo.second
  exact ⟨T', hs', hsk.blank h1 h3, hsk.blank h2 h4⟩

/-- After `set_base_values` has returned, the base values are arrays made by that call, and so is the Hessian
unless one was passed. -/
theorem tSetBaseValues_fresh {depth : ℕ} {w : TWorld} (hw : w.lin.WF) {x h : List ℕ} {hess0 : Option Ref}
    (hh : ∀ r, hess0 = some r → r.Alive w.st.mem) (ok : (w.setBaseValues depth x h hess0).2 = .ok ()) :
    (∀ k ∈ (w.setBaseValues depth x h hess0).1.o.inputVal0 ++ (w.setBaseValues depth x h hess0).1.o.hyperVal0,
      w.st.mem.next ≤ k ∧ k < (w.setBaseValues depth x h hess0).1.st.mem.next) ∧
    (∀ r, hess0 = some r → (w.setBaseValues depth x h hess0).1.o.hess0 = r) ∧
    (hess0 = none → ∀ k ∈ (w.setBaseValues depth x h hess0).1.o.hess0.addr,
      w.st.mem.next ≤ k ∧ k < (w.setBaseValues depth x h hess0).1.st.mem.next) ∧
    List.Disjoint (w.setBaseValues depth x h hess0).1.o.inputVal0 (w.setBaseValues depth x h hess0).1.o.hyperVal0 ∧
    (hess0 = none → List.Disjoint (w.setBaseValues depth x h hess0).1.o.hyperVal0
      (w.setBaseValues depth x h hess0).1.o.hess0.addr) := by
  have hwf := (tSetBaseValues_step (depth := depth) hw x h hh).wf hw
  rw [tSetBaseValues_eq] at ok hwf ⊢
  have s0 : w.Step (w.copies x h) := copies_step w.lin x h
  have w0 := s0.wf hw
  simp only at ok hwf ⊢
  unfold LWorld.rest at ok hwf ⊢
  obtain ⟨o1, e1⟩ := thenDo_ok ok
  rw [e1] at ok hwf ⊢
  have s1 := setParToBase_step (depth := depth) w0
  obtain ⟨o2, e2⟩ := thenDo_ok ok
  rw [e2] at ok hwf ⊢
  have k1 : ((w.copies x h).lin.setParToBase depth).1.o = (w.copies x h).lin.o := by
    unfold LWorld.setParToBase; simp only; split <;> rfl
  have g1 := s1.grow
  generalize ((w.copies x h).lin.setParToBase depth).1 = w1 at *
  have k2 : (w1.setHess depth hess0).1.o.inputVal0 = w1.o.inputVal0 ∧
      (w1.setHess depth hess0).1.o.hyperVal0 = w1.o.hyperVal0 ∧
      (∀ r, hess0 = some r → (w1.setHess depth hess0).1.o.hess0 = r) ∧
      (hess0 = none → ∀ k ∈ (w1.setHess depth hess0).1.o.hess0.addr, w1.st.mem.next ≤ k) := by
    unfold LWorld.setHess at o2 ⊢
    cases hess0 with
    | some H => exact ⟨rfl, rfl, fun r hr => by cases hr; rfl, by simp⟩
    | none =>
      simp only at o2 ⊢
      have g := objHessian_grow (depth := depth) (s1.wf w0)
      cases r : (w1.objHessian depth).2 with
      | error e => rw [r] at o2; cases o2
      | ok H =>
        refine ⟨rfl, rfl, by simp, fun _ k hk => ?_⟩
        simp only [Mem.alloc, List.mem_map] at hk
        obtain ⟨i, -, rfl⟩ := hk
        have := g.le.1
        omega
  have k3 : (w1.setHess depth hess0).1.setChol.1.o.inputVal0 = (w1.setHess depth hess0).1.o.inputVal0 ∧
      (w1.setHess depth hess0).1.setChol.1.o.hyperVal0 = (w1.setHess depth hess0).1.o.hyperVal0 ∧
      (w1.setHess depth hess0).1.setChol.1.o.hess0 = (w1.setHess depth hess0).1.o.hess0 := by
    unfold LWorld.setChol
    split <;> exact ⟨rfl, rfl, rfl⟩
  generalize (w1.setHess depth hess0).1.setChol.1 = w3 at *
  generalize (w1.setHess depth hess0).1 = w2 at *
  have hi : w3.o.inputVal0 = (w.copies x h).o.inputVal0 := by rw [k3.1, k2.1, k1]; rfl
  have hv : w3.o.hyperVal0 = (w.copies x h).o.hyperVal0 := by rw [k3.2.1, k2.2.1, k1]; rfl
  have hn1 := s0.grow.le.1
  have hn2 := g1.le.1
  have hn1' : w.st.mem.next ≤ (w.copies x h).st.mem.next := hn1
  have hn2' : (w.copies x h).st.mem.next ≤ w1.st.mem.next := hn2
  have hi' : ∀ k ∈ w3.o.inputVal0, w.st.mem.next ≤ k ∧ k < (w.st.newVec (w.st.mem.vals x)).1.mem.next := by
    intro k hk
    rw [hi] at hk
    refine ⟨?_, newVec_alive _ _ k hk⟩
    simp only [TWorld.copies, Store.newVec, Mem.alloc, List.mem_map] at hk
    obtain ⟨i, -, rfl⟩ := hk
    omega
  have hv' : ∀ k ∈ w3.o.hyperVal0, (w.st.newVec (w.st.mem.vals x)).1.mem.next ≤ k ∧ k < (w.copies x h).st.mem.next := by
    intro k hk
    rw [hv] at hk
    refine ⟨?_, newVec_alive _ _ k hk⟩
    simp only [TWorld.copies, Store.newVec, Mem.alloc, List.mem_map] at hk ⊢
    obtain ⟨i, -, rfl⟩ := hk
    omega
  have hn3 : w.st.mem.next ≤ (w.st.newVec (w.st.mem.vals x)).1.mem.next := (newVec_grow _ _).le.1
  refine ⟨fun k hk => ?_, fun r hr => ?_, fun hr k hk => ?_, fun k hk hk' => ?_, fun hr k hk hk' => ?_⟩
  · rcases List.mem_append.1 hk with hk | hk
    · exact ⟨(hi' k hk).1, hwf.input k hk⟩
    · exact ⟨hn3.trans (hv' k hk).1, hwf.hyper k hk⟩
  · exact k3.2.2.trans (k2.2.2.1 r hr)
  · refine ⟨?_, hwf.hess k hk⟩
    change k ∈ w3.o.hess0.addr at hk
    rw [k3.2.2] at hk
    exact hn1'.trans (hn2'.trans (k2.2.2.2 hr k hk))
  · have a := hi' k hk
    have b := hv' k hk'
    omega
  · have b := hv' k hk
    change k ∈ w3.o.hess0.addr at hk'
    rw [k3.2.2] at hk'
    have := k2.2.2.2 hr k hk'
    omega

end

end LRVB
