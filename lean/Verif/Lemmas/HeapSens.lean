import Verif.Lemmas.HeapTwo
import Verif.Spec.HeapSens

/-!
# Linear approximations that hold references: lemmas
-/

namespace LRVB

open Classical

noncomputable section

theorem outcome_ok' {r : Py Unit} (h : r = .ok ()) : outcome r = none := by rw [h]; rfl

/-- The arrays of the object exist. -/
structure LWorld.WF (w : LWorld) : Prop where
  st : w.st.WF
  input : ∀ k ∈ w.o.inputVal0, k < w.st.mem.next
  hyper : ∀ k ∈ w.o.hyperVal0, k < w.st.mem.next
  hess : w.o.hess0.Alive w.st.mem
  sens : w.o.sens.Alive w.st.mem

/-- What a step of a method does: arrays stay, the structure of objects stays, the parameters and functions of
the object stay. -/
structure LWorld.Step (w w' : LWorld) : Prop where
  grow : Store.Grow w.st w'.st
  wf : w.WF → w'.WF
  inputPar : w'.o.inputPar = w.o.inputPar
  hyperPar : w'.o.hyperPar = w.o.hyperPar

theorem LWorld.Step.refl (w : LWorld) : w.Step w := ⟨.refl _, id, rfl, rfl⟩

theorem LWorld.Step.trans {a b c : LWorld} (h : a.Step b) (h' : b.Step c) : a.Step c :=
  ⟨h.grow.trans h'.grow, fun x => h'.wf (h.wf x), h'.inputPar.trans h.inputPar, h'.hyperPar.trans h.hyperPar⟩

theorem LWorld.WF.grow {w : LWorld} {st : Store} (h : w.WF) (hg : Store.Grow w.st st) : LWorld.WF ⟨st, w.o⟩ :=
  ⟨hg.wf h.st, hg.alive h.input, hg.alive h.hyper, h.hess.mono hg.le, h.sens.mono hg.le⟩

theorem LWorld.Step.store {w : LWorld} {st : Store} (hg : Store.Grow w.st st) : w.Step ⟨st, w.o⟩ :=
  ⟨hg, fun h => h.grow hg, rfl, rfl⟩

theorem thenDo_step {r : LWorld × Py Unit} {k : LWorld → LWorld × Py Unit} {w : LWorld} (hr : w.Step r.1)
    (hk : r.1.Step (k r.1).1) : w.Step (thenDo r k).1 := by
  unfold thenDo
  split
  · exact hr
  · exact hr.trans hk

theorem setParToBase_step {depth : ℕ} {w : LWorld} (h : w.WF) : w.Step (w.setParToBase depth).1 := by
  unfold LWorld.setParToBase
  simp only
  have h1 := setPar_grow (depth := depth) (i := w.o.inputPar) w.o.inputIsFree h.input
  split
  · exact .store h1
  · exact .store (h1.trans (setPar_grow _ (h1.alive h.hyper)))

theorem traceSet_grow {depth : ℕ} {st : Store} {i : ℕ} {x : List ℕ} (free : Bool) (hx : ∀ k ∈ x, k < st.mem.next) :
    Store.Grow st (st.traceSet depth i x free) := by
  unfold Store.traceSet
  simp only
  split
  · exact setPar_grow _ hx
  · exact (setPar_grow _ hx).trans (box_grow _ _ _)

theorem objHessian_grow {depth : ℕ} {w : LWorld} (h : w.WF) : Store.Grow w.st (w.objHessian depth).1 := by
  unfold LWorld.objHessian
  simp only
  have h1 := traceSet_grow (depth := depth) (i := w.o.inputPar) true h.input
  have h2 := h1.trans (setPar_grow (depth := depth) (i := w.o.inputPar) true (h1.alive h.input))
  split
  · exact h1
  · split <;> exact h2

theorem alloc_grow (st : Store) (a : Arr) : Store.Grow st ⟨(st.mem.alloc a).1, st.objs⟩ :=
  ⟨Mem.alloc_le _ _, .refl _, fun h => wf_mem h (Mem.alloc_le _ _)⟩

theorem setHess_step {depth : ℕ} {w : LWorld} (h : w.WF) {hess0 : Option Ref}
    (hh : ∀ r, hess0 = some r → r.Alive w.st.mem) : w.Step (w.setHess depth hess0).1 := by
  unfold LWorld.setHess
  cases hess0 with
  | some H => exact ⟨.refl _, fun h => ⟨h.st, h.input, h.hyper, hh H rfl, h.sens⟩, rfl, rfl⟩
  | none =>
    simp only
    have h1 := objHessian_grow (depth := depth) h
    split
    · exact .store h1
    · rename_i H _
      have h2 := h1.trans (alloc_grow (w.objHessian depth).1 H)
      exact ⟨h2, fun h => ⟨h2.wf h.st, h2.alive h.input, h2.alive h.hyper, Mem.alloc_alive _ _, h.sens.mono h2.le⟩, rfl, rfl⟩

theorem setChol_step (w : LWorld) : w.Step w.setChol.1 := by
  unfold LWorld.setChol
  split
  · exact .refl _
  · exact ⟨.refl _, fun h => ⟨h.st, h.input, h.hyper, h.hess, h.sens⟩, rfl, rfl⟩

theorem setCross_step {depth : ℕ} {w : LWorld} (h : w.WF) : w.Step (w.setCross depth).1 := by
  unfold LWorld.setCross
  simp only
  have h1 : Store.Grow w.st (w.joint.hessian12 depth w.st w.o.inputVal0 w.o.hyperVal0 true false ()).1 :=
    twoCache_grow w.joint _ _ _ _ _ h.input h.hyper
  split
  · exact .store h1
  · exact ⟨h1, fun h => ⟨h1.wf h.st, h1.alive h.input, h1.alive h.hyper, h.hess.mono h1.le, h.sens.mono h1.le⟩, rfl, rfl⟩

theorem setSens_step (w : LWorld) : w.Step w.setSens.1 := by
  unfold LWorld.setSens
  split
  · exact .refl _
  · have h1 := alloc_grow w.st
    exact ⟨h1 _, fun h => ⟨(h1 _).wf h.st, (h1 _).alive h.input, (h1 _).alive h.hyper, h.hess.mono (h1 _).le,
      Mem.alloc_alive _ _⟩, rfl, rfl⟩

/-- The object with copies of the base values. -/
def LWorld.copies (w : LWorld) (x h : List ℕ) : LWorld :=
  let s1 := w.st.newVec (w.st.mem.vals x)
  let s2 := s1.1.newVec (s1.1.mem.vals h)
  ⟨s2.1, { w.o with inputVal0 := s1.2, hyperVal0 := s2.2 }⟩

theorem newVec_grow (st : Store) (y : List ℝ) : Store.Grow st (st.newVec y).1 := alloc_grow st (Arr.vec y)

theorem copies_step (w : LWorld) (x h : List ℕ) : w.Step (w.copies x h) := by
  have h1 := newVec_grow w.st (w.st.mem.vals x)
  have h2' := newVec_grow (w.st.newVec (w.st.mem.vals x)).1 ((w.st.newVec (w.st.mem.vals x)).1.mem.vals h)
  have h2 := h1.trans h2'
  exact ⟨h2, fun hw => ⟨h2.wf hw.st, h2'.alive (newVec_alive _ _), newVec_alive _ _, hw.hess.mono h2.le,
    hw.sens.mono h2.le⟩, rfl, rfl⟩

theorem setBaseValues_eq (depth : ℕ) (w : LWorld) (x h : List ℕ) (hess0 : Option Ref) :
    w.setBaseValues depth x h hess0 =
      thenDo ((w.copies x h).setParToBase depth) fun w => thenDo (w.setHess depth hess0) fun w =>
        thenDo w.setChol fun w => thenDo (w.setCross depth) fun w => w.setSens := rfl

theorem setBaseValues_step {depth : ℕ} {w : LWorld} (hw : w.WF) (x h : List ℕ) {hess0 : Option Ref}
    (hh : ∀ r, hess0 = some r → r.Alive w.st.mem) : w.Step (w.setBaseValues depth x h hess0).1 := by
  rw [setBaseValues_eq]
  have s0 := copies_step w x h
  have s1 := setParToBase_step (depth := depth) (s0.wf hw)
  refine s0.trans (thenDo_step s1 ?_)
  have w1 := s1.wf (s0.wf hw)
  have s2 := setHess_step (depth := depth) w1 (hess0 := hess0)
    fun r hr => ((hh r hr).mono s0.grow.le).mono s1.grow.le
  refine thenDo_step s2 ?_
  have w2 := s2.wf w1
  refine thenDo_step (setChol_step _) ?_
  have w3 := (setChol_step _).wf w2
  exact thenDo_step (setCross_step w3) (setSens_step _)

/-! ### Refinement -/

/-- The value of the object. -/
def LWorld.value (w : LWorld) (p q : Param) : LinApprox :=
  ⟨p, q, w.o.inputIsFree, w.o.hyperIsFree, w.o.objFn, w.o.hyperFn,
    ⟨w.st.mem.read w.o.hess0, w.st.mem.vals w.o.inputVal0, w.st.mem.vals w.o.hyperVal0⟩, w.o.chol, w.o.cross,
    w.st.mem.read w.o.sens⟩

/-- The object with references and the one with values agree. -/
structure LSim (depth : ℕ) (w : LWorld) (T : LinApprox) : Prop where
  wf : w.WF
  duo : Duo depth w.st w.o.inputPar w.o.hyperPar T.inputPar T.hyperPar
  value : T = w.value T.inputPar T.hyperPar

theorem lin_view {depth : ℕ} {w : LWorld} {T : LinApprox} :
    w.view depth = some T ↔ w.st.tree depth w.o.inputPar = some T.inputPar ∧
      w.st.tree depth w.o.hyperPar = some T.hyperPar ∧ T = w.value T.inputPar T.hyperPar := by
  unfold LWorld.view LWorld.value
  cases h1 : w.st.tree depth w.o.inputPar with
  | none => simp
  | some p =>
    cases h2 : w.st.tree depth w.o.hyperPar with
    | none => simp
    | some q =>
      simp only [bind, Option.bind, Option.some.injEq]
      constructor
      · rintro rfl; exact ⟨rfl, rfl, rfl⟩
      · rintro ⟨rfl, rfl, h⟩; exact h.symm

theorem LSim.view {depth : ℕ} {w : LWorld} {T : LinApprox} (h : LSim depth w T) : w.view depth = some T :=
  lin_view.2 ⟨h.duo.first, h.duo.second, h.value⟩

theorem value_grow {w : LWorld} (h : w.WF) {st : Store} (hg : Store.Grow w.st st) (p q p' q' : Param) :
    LWorld.value ⟨st, w.o⟩ p' q' = { w.value p q with inputPar := p', hyperPar := q' } := by
  unfold LWorld.value
  simp only [hg.le.vals h.input, hg.le.vals h.hyper, hg.le.read h.hess, hg.le.read h.sens]

theorem thenDo_sim {depth : ℕ} {r : LWorld × Py Unit} {s : LinApprox × Option PyErr} {k : LWorld → LWorld × Py Unit}
    {l : LinApprox → LinApprox × Option PyErr} (h : LSim depth r.1 s.1) (ho : outcome r.2 = s.2)
    (hk : r.2 = .ok () → s.2 = none → LSim depth (k r.1).1 (l s.1).1 ∧ outcome (k r.1).2 = (l s.1).2) :
    LSim depth (thenDo r k).1 (andThen s l).1 ∧ outcome (thenDo r k).2 = (andThen s l).2 := by
  unfold thenDo andThen
  cases hs : s.2 with
  | some e => rw [hs] at ho; rw [outcome_error ho]; exact ⟨h, rfl⟩
  | none => rw [hs] at ho; rw [outcome_ok ho]; exact hk (outcome_ok ho) hs

theorem setParToBase_sim {depth : ℕ} {w : LWorld} {T : LinApprox} (h : LSim depth w T) :
    LSim depth (w.setParToBase depth).1 T.setParToBase.1 ∧ outcome (w.setParToBase depth).2 = T.setParToBase.2 := by
  obtain ⟨hw, hd, hv⟩ := h
  obtain ⟨p, q, T'⟩ : ∃ p q, T = w.value p q := ⟨_, _, hv⟩
  subst T'
  simp only [LWorld.value] at hd
  obtain ⟨d1, e1, l1⟩ := hd.setPar hw.input w.o.inputIsFree
  have g1 := setPar_grow (depth := depth) (i := w.o.inputPar) w.o.inputIsFree hw.input
  obtain ⟨d2, e2, -⟩ := d1.setPar2 (g1.alive hw.hyper) w.o.hyperIsFree
  have g2 := g1.trans (setPar_grow (depth := depth) (i := w.o.hyperPar) w.o.hyperIsFree (g1.alive hw.hyper))
  rw [g1.le.vals hw.hyper] at d2 e2
  unfold LWorld.setParToBase LinApprox.setParToBase andThen
  simp only [LWorld.value]
  cases r1 : (setPar p (w.st.mem.vals w.o.inputVal0) w.o.inputIsFree).2 with
  | some e =>
    rw [r1] at e1
    rw [outcome_error e1]
    exact ⟨⟨hw.grow g1, d1, (value_grow hw g1 p q _ _).symm⟩, rfl⟩
  | none =>
    rw [r1] at e1
    rw [outcome_ok e1]
    exact ⟨⟨hw.grow g2, d2, (value_grow hw g2 p q _ _).symm⟩, e2⟩

theorem setParToBase_plain {T : LinApprox} (h : T.setParToBase.2 = none) : T.setParToBase.1.hyperPar.Plain := by
  unfold LinApprox.setParToBase andThen at h ⊢
  simp only at h ⊢
  cases r1 : (setPar T.inputPar T.base.inputVal0 T.inputIsFree).2 with
  | some e => rw [r1] at h; cases h
  | none =>
    rw [r1] at h
    exact setPar_plain _ _ _ h

theorem objValue_sim {depth : ℕ} {w : LWorld} {p q : Param} (hw : w.WF)
    (hd : Duo depth w.st w.o.inputPar w.o.hyperPar p q) (hq : q.Plain) :
    w.objValue depth = valueAt (fun p => w.o.objFn p q) p true := by
  funext y
  obtain ⟨d1, e1, -⟩ := (hd.newVec y).setPar (newVec_alive w.st y) true
  rw [newVec_vals] at d1 e1
  unfold LWorld.objValue valueAt
  simp only
  cases r1 : (setPar p y true).2 with
  | some e => rw [r1] at e1; rw [outcome_error e1]
  | none =>
    rw [r1] at e1
    rw [outcome_ok e1]
    unfold HTwo.callFn LWorld.objective
    simp only
    rw [d1.first, d1.second]
    simp only [Param.mark_plain q hq]

theorem objHessian_sim {depth : ℕ} {w : LWorld} {p q : Param} (hw : w.WF)
    (hd : Duo depth w.st w.o.inputPar w.o.hyperPar p q) (hq : q.Plain) :
    Duo depth (w.objHessian depth).1 w.o.inputPar w.o.hyperPar
        ((Objective.new p fun (_ : Unit) p => w.o.objFn p q).funFreeHessian (w.st.mem.vals w.o.inputVal0) ()).1.par q ∧
      (w.objHessian depth).2 =
        ((Objective.new p fun (_ : Unit) p => w.o.objFn p q).funFreeHessian (w.st.mem.vals w.o.inputVal0) ()).2 := by
  have hc := traceSet_change (depth := depth) (i := w.o.inputPar) true hw.input
  have ht := traceSet_refine hd.wf hd.first hd.left hw.input true
  have d1 := hd.change hc ht
  obtain ⟨d2, e2, -⟩ := d1.setPar (hc.grow.alive hw.input) true
  rw [hc.le.vals hw.input] at d2 e2
  unfold LWorld.objHessian Objective.funFreeHessian Objective.deriv cacheAndEval
  simp only [Objective.new]
  rw [objValue_sim hw hd hq]
  cases agHess (valueAt (fun p => w.o.objFn p q) p true) (w.st.mem.vals w.o.inputVal0) with
  | error e => exact ⟨d1, rfl⟩
  | ok H =>
    simp only
    cases r : (setPar (LRVB.traceSet p (w.st.mem.vals w.o.inputVal0) true) (w.st.mem.vals w.o.inputVal0) true).2 with
    | some e => rw [r] at e2; rw [outcome_error e2]; exact ⟨d2, rfl⟩
    | none => rw [r] at e2; rw [outcome_ok e2]; exact ⟨d2, rfl⟩

theorem setHess_sim {depth : ℕ} {w : LWorld} {T : LinApprox} (h : LSim depth w T) (hq : T.hyperPar.Plain)
    {hess0 : Option Ref} (hh : ∀ r, hess0 = some r → r.Alive w.st.mem) :
    LSim depth (w.setHess depth hess0).1 (T.setHess (hess0.map w.st.mem.read)).1 ∧
      outcome (w.setHess depth hess0).2 = (T.setHess (hess0.map w.st.mem.read)).2 := by
  have hstep := (setHess_step (depth := depth) h.wf hh).wf h.wf
  obtain ⟨hw, hd, hv⟩ := h
  obtain ⟨p, q, T'⟩ : ∃ p q, T = w.value p q := ⟨_, _, hv⟩
  subst T'
  simp only [LWorld.value] at hd hq
  cases hess0 with
  | some H => exact ⟨⟨hstep, hd, rfl⟩, rfl⟩
  | none =>
    obtain ⟨d1, e1⟩ := objHessian_sim hw hd hq
    have g1 := objHessian_grow (depth := depth) hw
    unfold LWorld.setHess at hstep ⊢
    unfold LinApprox.setHess LinApprox.objective
    simp only [LWorld.value, Option.map_none] at hstep ⊢
    rw [e1] at hstep ⊢
    cases r : ((Objective.new p fun (_ : Unit) p => w.o.objFn p q).funFreeHessian (w.st.mem.vals w.o.inputVal0) ()).2 with
    | error e =>
      exact ⟨⟨hw.grow g1, d1, (value_grow hw g1 p q _ _).symm⟩, rfl⟩
    | ok H =>
      rw [r] at hstep
      simp only at hstep
      have g2 := g1.trans (alloc_grow (w.objHessian depth).1 H)
      refine ⟨⟨hstep, ?_, ?_⟩, rfl⟩
      · exact d1.same ⟨Mem.alloc_le _ _, .refl _, fun h => wf_mem h (Mem.alloc_le _ _), fun _ _ => rfl⟩
      · have := value_grow hw g2 p q
        simp only [LWorld.value] at this ⊢
        rw [Mem.read_alloc]
        simp only [g2.le.vals hw.input, g2.le.vals hw.hyper, g2.le.read hw.sens]

theorem setChol_sim {depth : ℕ} {w : LWorld} {T : LinApprox} (h : LSim depth w T) :
    LSim depth w.setChol.1 T.setChol.1 ∧ outcome w.setChol.2 = T.setChol.2 := by
  have hstep := (setChol_step w).wf h.wf
  obtain ⟨hw, hd, hv⟩ := h
  obtain ⟨p, q, T'⟩ : ∃ p q, T = w.value p q := ⟨_, _, hv⟩
  subst T'
  unfold LWorld.setChol LinApprox.setChol at *
  simp only [LWorld.value] at *
  cases r : choFactor (w.st.mem.read w.o.hess0) with
  | error e => exact ⟨⟨hw, hd, rfl⟩, rfl⟩
  | ok l =>
    rw [r] at hstep
    exact ⟨⟨hstep, hd, rfl⟩, rfl⟩

theorem setCross_sim {depth : ℕ} {w : LWorld} {T : LinApprox} (h : LSim depth w T) :
    LSim depth (w.setCross depth).1 T.setCross.1 ∧ outcome (w.setCross depth).2 = T.setCross.2 := by
  have hstep := (setCross_step (depth := depth) h.wf).wf h.wf
  obtain ⟨hw, hd, hv⟩ := h
  obtain ⟨p, q, T'⟩ : ∃ p q, T = w.value p q := ⟨_, _, hv⟩
  subst T'
  have g1 : Store.Grow w.st (w.joint.hessian12 depth w.st w.o.inputVal0 w.o.hyperVal0 true false ()).1 :=
    twoCache_grow w.joint _ _ _ _ _ hw.input hw.hyper
  have hr := twoRun_refine (o := w.joint) hd ⟨w.o.inputVal0, w.o.hyperVal0, true, false, ()⟩ .hessian12
    ⟨hw.input, hw.hyper⟩
  obtain ⟨k1, k2⟩ := hr
  obtain ⟨t1, t2, -⟩ := two_view.1 k1
  simp only [HTwo.run, TwoObjective.run] at k1 k2 t1 t2
  have d1 : Duo depth (w.joint.hessian12 depth w.st w.o.inputVal0 w.o.hyperVal0 true false ()).1 w.o.inputPar w.o.hyperPar
      _ _ := ⟨g1.wf hw.st, t1, t2, apart_skel hd.apart g1.skel⟩
  unfold LWorld.setCross at hstep ⊢
  unfold LinApprox.setCross LinApprox.joint TwoObjective.funHessianFree1Vector2
  simp only [LWorld.value] at hstep d1 k2 ⊢
  rw [k2] at hstep ⊢
  have hj : w.joint.fn = fun _ p q => w.o.hyperFn p q := rfl
  rw [hj] at d1 hstep ⊢
  generalize (⟨p, q, fun _ p q => w.o.hyperFn p q⟩ : TwoObjective Unit).hessian12 (w.st.mem.vals w.o.inputVal0)
    (w.st.mem.vals w.o.hyperVal0) true false () = R at *
  cases r : R.2 with
  | error e => exact ⟨⟨hw.grow g1, d1, (value_grow hw g1 p q _ _).symm⟩, rfl⟩
  | ok C =>
    rw [r] at hstep
    refine ⟨⟨hstep, d1, ?_⟩, rfl⟩
    simp only [LWorld.value, g1.le.vals hw.input, g1.le.vals hw.hyper, g1.le.read hw.sens, g1.le.read hw.hess]

theorem setSens_sim {depth : ℕ} {w : LWorld} {T : LinApprox} (h : LSim depth w T) :
    LSim depth w.setSens.1 T.setSens.1 ∧ outcome w.setSens.2 = T.setSens.2 := by
  have hstep := (setSens_step w).wf h.wf
  obtain ⟨hw, hd, hv⟩ := h
  obtain ⟨p, q, T'⟩ : ∃ p q, T = w.value p q := ⟨_, _, hv⟩
  subst T'
  unfold LWorld.setSens LinApprox.setSens at *
  simp only [LWorld.value] at *
  cases r : choSolve w.o.chol w.o.cross with
  | error e => exact ⟨⟨hw, hd, rfl⟩, rfl⟩
  | ok X =>
    rw [r] at hstep
    have g := alloc_grow w.st X.neg
    refine ⟨⟨hstep, hd.same ⟨Mem.alloc_le _ _, .refl _, fun h => wf_mem h (Mem.alloc_le _ _), fun _ _ => rfl⟩, ?_⟩, rfl⟩
    simp only [LWorld.value]
    rw [Mem.read_alloc]
    simp only [g.le.vals hw.input, g.le.vals hw.hyper, g.le.read hw.hess]

theorem copies_sim {depth : ℕ} {w : LWorld} {T : LinApprox} (h : LSim depth w T) {x v : List ℕ}
    (hv : ∀ k ∈ v, k < w.st.mem.next) :
    LSim depth (w.copies x v)
      { T with base := { T.base with inputVal0 := w.st.mem.vals x, hyperVal0 := w.st.mem.vals v } } := by
  have hstep := copies_step w x v
  obtain ⟨hw, hd, he⟩ := h
  obtain ⟨p, q, T'⟩ : ∃ p q, T = w.value p q := ⟨_, _, he⟩
  subst T'
  have g := hstep.grow
  have g1 := newVec_grow w.st (w.st.mem.vals x)
  have g2 := newVec_grow (w.st.newVec (w.st.mem.vals x)).1 ((w.st.newVec (w.st.mem.vals x)).1.mem.vals v)
  refine ⟨hstep.wf hw, ?_, ?_⟩
  · exact (hd.newVec _).newVec _
  · have e1 : (w.copies x v).st.mem.vals (w.copies x v).o.inputVal0 = w.st.mem.vals x := by
      simp only [LWorld.copies]
      rw [g2.le.vals (newVec_alive _ _), newVec_vals]
    have e2 : (w.copies x v).st.mem.vals (w.copies x v).o.hyperVal0 = w.st.mem.vals v := by
      simp only [LWorld.copies]
      rw [newVec_vals, g1.le.vals hv]
    have e3 : (w.copies x v).st.mem.read (w.copies x v).o.hess0 = w.st.mem.read w.o.hess0 := g.le.read hw.hess
    have e4 : (w.copies x v).st.mem.read (w.copies x v).o.sens = w.st.mem.read w.o.sens := g.le.read hw.sens
    simp only [LWorld.value, e1, e2, e3, e4]
    rfl

theorem setBaseValues_sim {depth : ℕ} {w : LWorld} {T : LinApprox} (h : LSim depth w T) {x v : List ℕ}
    (hv : ∀ k ∈ v, k < w.st.mem.next) {hess0 : Option Ref} (hh : ∀ r, hess0 = some r → r.Alive w.st.mem) :
    LSim depth (w.setBaseValues depth x v hess0).1
        (T.setBaseValues (w.st.mem.vals x) (w.st.mem.vals v) (hess0.map w.st.mem.read)).1 ∧
      outcome (w.setBaseValues depth x v hess0).2 =
        (T.setBaseValues (w.st.mem.vals x) (w.st.mem.vals v) (hess0.map w.st.mem.read)).2 := by
  have h0 := copies_sim h (x := x) hv
  have s0 := copies_step w x v
  rw [setBaseValues_eq]
  unfold LinApprox.setBaseValues
  simp only
  obtain ⟨h1, e1⟩ := setParToBase_sim h0
  have s1 := s0.trans (setParToBase_step (depth := depth) h0.wf)
  refine thenDo_sim h1 e1 fun _ hn => ?_
  have hr : hess0.map w.st.mem.read = hess0.map ((w.copies x v).setParToBase depth).1.st.mem.read := by
    cases hess0 with
    | none => rfl
    | some r => simp only [Option.map_some]; rw [s1.grow.le.read (hh r rfl)]
  obtain ⟨h2, e2⟩ := setHess_sim h1 (setParToBase_plain hn) (hess0 := hess0) fun r hr => (hh r hr).mono s1.grow.le
  rw [← hr] at h2 e2
  refine thenDo_sim h2 e2 fun _ _ => ?_
  obtain ⟨h3, e3⟩ := setChol_sim h2
  refine thenDo_sim h3 e3 fun _ _ => ?_
  obtain ⟨h4, e4⟩ := setCross_sim h3
  exact thenDo_sim h4 e4 fun _ _ => setSens_sim h4

/-! ### The arrays of the object -/

theorem thenDo_ok {σ : Type} {r : σ × Py Unit} {k : σ → σ × Py Unit} (h : (thenDo r k).2 = .ok ()) :
    r.2 = .ok () ∧ thenDo r k = k r.1 := by
  unfold thenDo at h ⊢
  cases hr : r.2 with
  | error e => rw [hr] at h; cases h
  | ok u => exact ⟨rfl, rfl⟩

/-- After `set_base_values` has returned, the base values and the sensitivity are arrays made by that call. -/
theorem setBaseValues_cells {depth : ℕ} {w : LWorld} (hw : w.WF) {x h : List ℕ} {hess0 : Option Ref}
    (hh : ∀ r, hess0 = some r → r.Alive w.st.mem) (ok : (w.setBaseValues depth x h hess0).2 = .ok ()) :
    (w.setBaseValues depth x h hess0).1.o.inputVal0 = (w.copies x h).o.inputVal0 ∧
    (w.setBaseValues depth x h hess0).1.o.hyperVal0 = (w.copies x h).o.hyperVal0 ∧
    ∀ k ∈ (w.setBaseValues depth x h hess0).1.o.sens.addr, (w.copies x h).st.mem.next ≤ k := by
  rw [setBaseValues_eq] at ok ⊢
  have s0 := copies_step w x h
  have w0 := s0.wf hw
  obtain ⟨o1, e1⟩ := thenDo_ok ok
  rw [e1] at ok ⊢
  have s1 := setParToBase_step (depth := depth) w0
  obtain ⟨o2, e2⟩ := thenDo_ok ok
  rw [e2] at ok ⊢
  have s2 := setHess_step (depth := depth) (s1.wf w0) (hess0 := hess0) fun r hr => ((hh r hr).mono s0.grow.le).mono s1.grow.le
  obtain ⟨o3, e3⟩ := thenDo_ok ok
  rw [e3] at ok ⊢
  have s3 := setChol_step (((w.copies x h).setParToBase depth).1.setHess depth hess0).1
  obtain ⟨o4, e4⟩ := thenDo_ok ok
  rw [e4] at ok ⊢
  have s4 := setCross_step (depth := depth) (s3.wf (s2.wf (s1.wf w0)))
  have k1 : ((w.copies x h).setParToBase depth).1.o = (w.copies x h).o := by
    unfold LWorld.setParToBase; simp only; split <;> rfl
  generalize ((w.copies x h).setParToBase depth).1 = w1 at *
  have k2 : (w1.setHess depth hess0).1.o.inputVal0 = w1.o.inputVal0 ∧ (w1.setHess depth hess0).1.o.hyperVal0 = w1.o.hyperVal0 := by
    unfold LWorld.setHess
    cases hess0 with
    | some H => exact ⟨rfl, rfl⟩
    | none => simp only; split <;> exact ⟨rfl, rfl⟩
  generalize (w1.setHess depth hess0).1 = w2 at *
  have k3 : w2.setChol.1.o.inputVal0 = w2.o.inputVal0 ∧ w2.setChol.1.o.hyperVal0 = w2.o.hyperVal0 := by
    unfold LWorld.setChol
    split <;> exact ⟨rfl, rfl⟩
  generalize w2.setChol.1 = w3 at *
  have k4 : (w3.setCross depth).1.o.inputVal0 = w3.o.inputVal0 ∧ (w3.setCross depth).1.o.hyperVal0 = w3.o.hyperVal0 := by
    unfold LWorld.setCross
    simp only
    split <;> exact ⟨rfl, rfl⟩
  generalize (w3.setCross depth).1 = w4 at *
  have g := (s1.trans (s2.trans (s3.trans s4))).grow.le.1
  have hi : w4.o.inputVal0 = (w.copies x h).o.inputVal0 := by rw [k4.1, k3.1, k2.1, k1]
  have hv : w4.o.hyperVal0 = (w.copies x h).o.hyperVal0 := by rw [k4.2, k3.2, k2.2, k1]
  unfold LWorld.setSens at ok ⊢
  cases r : choSolve w4.o.chol w4.o.cross with
  | error e => rw [r] at ok; cases ok
  | ok X =>
    refine ⟨hi, hv, fun k hk => ?_⟩
    simp only [Mem.alloc, List.mem_map] at hk
    obtain ⟨i, -, rfl⟩ := hk
    omega

theorem setBaseValues_fresh {depth : ℕ} {w : LWorld} (hw : w.WF) {x h : List ℕ} {hess0 : Option Ref}
    (hh : ∀ r, hess0 = some r → r.Alive w.st.mem) (ok : (w.setBaseValues depth x h hess0).2 = .ok ()) :
    ∀ k ∈ (w.setBaseValues depth x h hess0).1.o.inputVal0 ++ (w.setBaseValues depth x h hess0).1.o.hyperVal0 ++
        (w.setBaseValues depth x h hess0).1.o.sens.addr,
      w.st.mem.next ≤ k ∧ k < (w.setBaseValues depth x h hess0).1.st.mem.next := by
  intro k hk
  have hwf := (setBaseValues_step (depth := depth) hw x h hh).wf hw
  obtain ⟨h1, h2, h3⟩ := setBaseValues_cells hw hh ok
  have hn : w.st.mem.next ≤ (w.st.newVec (w.st.mem.vals x)).1.mem.next := (newVec_grow _ _).le.1
  have hn2 := (copies_step w x h).grow.le.1
  simp only [List.mem_append] at hk
  rcases hk with (hk | hk) | hk
  · refine ⟨?_, hwf.input k hk⟩
    rw [h1] at hk
    simp only [LWorld.copies, Store.newVec, Mem.alloc, List.mem_map] at hk
    obtain ⟨i, -, rfl⟩ := hk
    omega
  · refine ⟨?_, hwf.hyper k hk⟩
    rw [h2] at hk
    simp only [LWorld.copies, Store.newVec, Mem.alloc, List.mem_map] at hk
    obtain ⟨i, -, rfl⟩ := hk
    omega
  · exact ⟨hn2.trans (h3 k hk), hwf.sens k hk⟩

/-- The base values and the sensitivity are three different arrays. -/
theorem setBaseValues_apart {depth : ℕ} {w : LWorld} (hw : w.WF) {x h : List ℕ} {hess0 : Option Ref}
    (hh : ∀ r, hess0 = some r → r.Alive w.st.mem) (ok : (w.setBaseValues depth x h hess0).2 = .ok ()) :
    List.Disjoint (w.setBaseValues depth x h hess0).1.o.inputVal0 (w.setBaseValues depth x h hess0).1.o.hyperVal0 ∧
    List.Disjoint (w.setBaseValues depth x h hess0).1.o.inputVal0 (w.setBaseValues depth x h hess0).1.o.sens.addr ∧
    List.Disjoint (w.setBaseValues depth x h hess0).1.o.hyperVal0 (w.setBaseValues depth x h hess0).1.o.sens.addr := by
  obtain ⟨h1, h2, h3⟩ := setBaseValues_cells hw hh ok
  have w0 := (copies_step w x h).wf hw
  rw [h1, h2]
  refine ⟨fun k hk hk' => ?_, fun k hk hk' => ?_, fun k hk hk' => ?_⟩
  · have := newVec_alive w.st (w.st.mem.vals x) k hk
    simp only [LWorld.copies, Store.newVec, Mem.alloc, List.mem_map] at hk' this
    obtain ⟨i, -, rfl⟩ := hk'
    omega
  · exact absurd (w0.input k hk) (not_lt.2 (h3 k hk'))
  · exact absurd (w0.hyper k hk) (not_lt.2 (h3 k hk'))

/-- After a successful `set_vector`, a `VectorParam` holds the argument itself. -/
theorem setPar_vector_ref {d : ℕ} {st : Store} {i : ℕ} {x : List ℕ} {l : HLeaf} {n : ℕ} {lb ub : Flt}
    (hl : st.objs[i]? = some (.leaf l)) (hk : l.kind = .vector n lb ub) (ok : (st.setPar (d + 1) i x false).2 = .ok ()) :
    (st.setPar (d + 1) i x false).1.get i = .ok (Ref.vec x) := by
  have hlt := (List.getElem?_eq_some_iff.1 hl).1
  unfold Store.setPar Store.setVector at *
  simp only [Bool.false_eq_true, if_false, Store.visit, hl, Store.vecVisit, HLeaf.setVector, hk, HLeaf.set] at ok ⊢
  cases r : (l.view st.mem).set (st.mem.read (Ref.vec x)) with
  | error e => rw [r] at ok; cases ok
  | ok v => simp [py_ok_bind, Store.get, hlt, HLeaf.get]

/-- An event other than an assignment to an entry of an array leaves the arrays that exist unchanged. -/
theorem event_cells {depth : ℕ} {st : Store} (h : st.WF) (e : Event) (ok : e.Ok st) {k : ℕ} (hk : k < st.mem.next)
    (hw : ∀ w, e = .assign w → k ∉ w.r.addr) : (e.run depth st).mem.cell k = st.mem.cell k := by
  cases e with
  | newArray a => exact (Mem.alloc_le _ _).2 k hk
  | assign w =>
    have := hw w rfl
    simp only [Event.run, Store.assign, List.foldl_cons, List.foldl_nil, Mem.write]
    split
    · rename_i j hj
      simp only
      rw [Function.update_of_ne]
      rintro rfl
      exact this (List.mem_of_getElem? hj)
    · rfl
  | call c => exact (call_run c ok h).1.2 k hk

theorem pevent_cells {depth : ℕ} {st : Store} (h : st.WF) (e : PEvent Unit) (ok : e.Ok depth st) {k : ℕ}
    (hk : k < st.mem.next) (hw : ∀ w, e = .other (.assign w) → k ∉ w.r.addr) :
    (e.run depth st).mem.cell k = st.mem.cell k := by
  cases e with
  | two o m c => exact (twoRun_grow o c m ok).le.2 k hk
  | convert c fi fo x => exact (convert_grow ok.1 h fi fo ok.2).le.2 k hk
  | jacobian c fi fo x => exact (convJac_grow ok.1 h fi fo ok.2).le.2 k hk
  | other e => exact event_cells h e ok hk fun w hw' => hw w (by rw [hw'])

theorem pevent_next {A : Type} {depth : ℕ} {st : Store} (h : st.WF) (e : PEvent A) (ok : e.Ok depth st) :
    st.mem.next ≤ (e.run depth st).mem.next := by
  cases e with
  | two o m c => exact (twoRun_grow o c m ok).le.1
  | convert c fi fo x => exact (convert_grow ok.1 h fi fo ok.2).le.1
  | jacobian c fi fo x => exact (convJac_grow ok.1 h fi fo ok.2).le.1
  | other e => exact (event_le h e ok).1

theorem predict_step (w : LWorld) (n : List ℕ) : w.Step (w.predict n).1 := by
  unfold LWorld.predict
  split
  · exact .refl _
  · exact .store (newVec_grow _ _)

theorem levent_wf {depth : ℕ} {w : LWorld} (h : w.WF) (e : LEvent) (ok : e.Ok depth w) :
    (e.run depth w).WF ∧ w.st.mem.next ≤ (e.run depth w).st.mem.next := by
  cases e with
  | setBase x v hess0 =>
    have := setBaseValues_step (depth := depth) h x v ok.2.2
    exact ⟨this.wf h, this.grow.le.1⟩
  | predict n => exact ⟨(predict_step w n).wf h, (predict_step w n).grow.le.1⟩
  | other e =>
    have hn := pevent_next h.st e ok
    refine ⟨⟨pevent_wf h.st e ok, fun k hk => ?_, fun k hk => ?_, fun k hk => ?_, fun k hk => ?_⟩, hn⟩
    · exact lt_of_lt_of_le (h.input k hk) hn
    · exact lt_of_lt_of_le (h.hyper k hk) hn
    · exact lt_of_lt_of_le (h.hess k hk) hn
    · exact lt_of_lt_of_le (h.sens k hk) hn

theorem levent_cells {depth : ℕ} {w : LWorld} (h : w.WF) (e : LEvent) (ok : e.Ok depth w) {k : ℕ}
    (hk : k < w.st.mem.next) (hw : k ∉ e.writes) : (e.run depth w).st.mem.cell k = w.st.mem.cell k := by
  cases e with
  | setBase x v hess0 => exact (setBaseValues_step (depth := depth) h x v ok.2.2).grow.le.2 k hk
  | predict n => exact (predict_step w n).grow.le.2 k hk
  | other e => exact pevent_cells h.st e ok hk fun a ha => by subst ha; exact hw

theorem levent_object {depth : ℕ} {w : LWorld} {e : LEvent} (hr : ¬ e.Resets) : (e.run depth w).o = w.o := by
  cases e with
  | setBase x v hess0 => exact absurd trivial hr
  | predict n =>
    simp only [LEvent.run, LWorld.predict]
    split <;> rfl
  | other e => rfl

theorem LWorld.blank_wf {st : Store} (h : st.WF) (objFn hyperFn : Param → Param → Py Arr) (i j : ℕ) (fi fh : Bool) :
    LWorld.WF ⟨st, i, j, fi, fh, objFn, hyperFn, [], [], ⟨[0, 0], []⟩, ⟨[0, 0], []⟩, ⟨[0, 0], []⟩, ⟨[0, 0], []⟩⟩ :=
  ⟨h, by simp, by simp, by simp [Ref.Alive], by simp [Ref.Alive]⟩

theorem LReached.wf {depth : ℕ} {w : LWorld} (h : LReached depth w) : w.WF := by
  induction h with
  | start h objFn i j x v fi fh hess0 hyperFn hx hv ok =>
    exact (setBaseValues_step (LWorld.blank_wf h.wf _ _ _ _ _ _) x v (by simp)).wf (LWorld.blank_wf h.wf _ _ _ _ _ _)
  | step h e ok ih => exact (levent_wf ih e ok).1

theorem predictAt_eq {w : LWorld} (h : w.WF) (y : List ℝ) :
    w.predictAt y = (do
      let d ← vsub y (w.st.mem.vals w.o.hyperVal0)
      vadd (w.st.mem.vals w.o.inputVal0) (← (w.st.mem.read w.o.sens).mulVec d)) := by
  have g := newVec_grow w.st y
  unfold LWorld.predictAt LWorld.predict
  simp only [newVec_vals, g.le.vals h.hyper, g.le.vals h.input, g.le.read h.sens]
  cases (do
      let d ← vsub y (w.st.mem.vals w.o.hyperVal0)
      vadd (w.st.mem.vals w.o.inputVal0) (← (w.st.mem.read w.o.sens).mulVec d)) with
  | error e => rfl
  | ok v => exact congrArg Except.ok (newVec_vals _ _)

/-- What the object predicts depends only on its base values and its sensitivity. -/
theorem predictAt_congr {w w' : LWorld} (h : w.WF) (h' : w'.WF) (ho : w'.o = w.o)
    (hc : ∀ k ∈ w.o.inputVal0 ++ w.o.hyperVal0 ++ w.o.sens.addr, w'.st.mem.cell k = w.st.mem.cell k) (y : List ℝ) :
    w'.predictAt y = w.predictAt y := by
  have hv : ∀ x : List ℕ, (∀ k ∈ x, k ∈ w.o.inputVal0 ++ w.o.hyperVal0 ++ w.o.sens.addr) →
      w'.st.mem.vals x = w.st.mem.vals x := fun x hx => List.map_congr_left fun k hk => hc k (hx k hk)
  rw [predictAt_eq h, predictAt_eq h', ho, hv w.o.inputVal0 (by simp +contextual), hv w.o.hyperVal0 (by simp +contextual)]
  unfold Mem.read
  rw [hv w.o.sens.addr (by simp +contextual)]

theorem runL_predictAt {depth : ℕ} {y : List ℝ} : ∀ (es : List LEvent) {w : LWorld} (_ : w.WF) (_ : okL depth w es)
    (_ : ∀ e ∈ es, ¬ e.Resets)
    (_ : ∀ e ∈ es, ∀ k ∈ e.writes, k ∉ w.o.inputVal0 ++ w.o.hyperVal0 ++ w.o.sens.addr),
    (runL depth w es).predictAt y = w.predictAt y
  | [], _, _, _, _, _ => rfl
  | e :: es, w, h, ok, hr, hw => by
    have h1 := (levent_wf h e ok.1).1
    have ho : (e.run depth w).o = w.o := levent_object (hr e (by simp))
    have ih := runL_predictAt es (w := e.run depth w) (y := y) h1 ok.2 (fun e' he' => hr e' (List.mem_cons_of_mem _ he'))
      (by rw [ho]; exact fun e' he' => hw e' (List.mem_cons_of_mem _ he'))
    rw [runL, ih]
    refine predictAt_congr h h1 ho (fun k hk => ?_) y
    refine levent_cells h e ok.1 ?_ fun hk' => hw e (by simp) k hk' hk
    simp only [List.mem_append] at hk
    rcases hk with (hk | hk) | hk
    · exact h.input k hk
    · exact h.hyper k hk
    · exact h.sens k hk

theorem setCross_last {depth : ℕ} {w : LWorld} (hw : w.WF) (ok : (w.setCross depth).2 = .ok ()) :
    ∃ st : Store, Store.Grow w.st st ∧ (w.setCross depth).1.st = (st.setPar depth w.o.hyperPar w.o.hyperVal0 false).1 ∧
      (st.setPar depth w.o.hyperPar w.o.hyperVal0 false).2 = .ok () ∧ (w.setCross depth).1.o.hyperVal0 = w.o.hyperVal0 := by
  unfold LWorld.setCross HTwo.hessian12 HTwo.cacheAndEval at ok ⊢
  simp only at ok ⊢
  have g1 := twoTrace_grow (depth := depth) w.joint true false true true hw.input hw.hyper
  generalize w.joint.trace depth w.st w.o.inputVal0 w.o.hyperVal0 true false true true = st1 at *
  generalize TwoObjective.agHessian12 _ _ _ = ag at *
  cases ag with
  | error e => cases ok
  | ok C =>
    simp only at ok ⊢
    have g2 := g1.trans (setPar_grow (depth := depth) (i := w.joint.par1) true (g1.alive hw.input))
    cases r1 : (st1.setPar depth w.joint.par1 w.o.inputVal0 true).2 with
    | error e => rw [r1] at ok; cases ok
    | ok u =>
      rw [r1] at ok
      simp only at ok ⊢
      refine ⟨_, g2, ?_⟩
      change _ ∧ ((st1.setPar depth w.joint.par1 w.o.inputVal0 true).1.setPar depth w.joint.par2 w.o.hyperVal0 false).2 = _ ∧ _
      cases r2 : ((st1.setPar depth w.joint.par1 w.o.inputVal0 true).1.setPar depth w.joint.par2 w.o.hyperVal0 false).2 with
      | error e => rw [r2] at ok; cases ok
      | ok u2 => exact ⟨rfl, rfl, rfl⟩

/-- After `set_base_values` has returned, a hyperparameter that is a `VectorParam` holds the base value itself. -/
theorem setBaseValues_alias {d : ℕ} {w : LWorld} (hw : w.WF) {x h : List ℕ} {hess0 : Option Ref}
    (hh : ∀ r, hess0 = some r → r.Alive w.st.mem) (ok : (w.setBaseValues (d + 1) x h hess0).2 = .ok ())
    {l : HLeaf} {n : ℕ} {lb ub : Flt} (hl : w.st.objs[w.o.hyperPar]? = some (.leaf l)) (hk : l.kind = .vector n lb ub) :
    (w.setBaseValues (d + 1) x h hess0).1.st.get w.o.hyperPar =
      .ok (Ref.vec (w.setBaseValues (d + 1) x h hess0).1.o.hyperVal0) := by
  rw [setBaseValues_eq] at ok ⊢
  have s0 := copies_step w x h
  have w0 := s0.wf hw
  obtain ⟨o1, e1⟩ := thenDo_ok ok
  rw [e1] at ok ⊢
  have s1 := s0.trans (setParToBase_step (depth := d + 1) w0)
  obtain ⟨o2, e2⟩ := thenDo_ok ok
  rw [e2] at ok ⊢
  have s2 := s1.trans (setHess_step (depth := d + 1) (s1.wf hw) (hess0 := hess0) fun r hr => ((hh r hr).mono s1.grow.le))
  obtain ⟨o3, e3⟩ := thenDo_ok ok
  rw [e3] at ok ⊢
  have s3 := s2.trans (setChol_step (((w.copies x h).setParToBase (d + 1)).1.setHess (d + 1) hess0).1)
  obtain ⟨o4, e4⟩ := thenDo_ok ok
  rw [e4] at ok ⊢
  generalize (((w.copies x h).setParToBase (d + 1)).1.setHess (d + 1) hess0).1.setChol.1 = w3 at *
  obtain ⟨st, g, p1, p2, p3⟩ := setCross_last (s3.wf hw) o4
  rw [s3.hyperPar] at p1 p2
  have hskel := (s3.grow.trans g).skel
  have hsk := hskel w.o.hyperPar
  rw [hl] at hsk
  obtain ⟨l', hl', hk'⟩ : ∃ l', st.objs[w.o.hyperPar]? = some (.leaf l') ∧ l'.kind = l.kind := by
    cases ho : st.objs[w.o.hyperPar]? with
    | none => rw [ho] at hsk; simp at hsk
    | some o =>
      rw [ho] at hsk
      cases o with
      | leaf l' => simp [Obj.skel] at hsk; exact ⟨l', rfl, by first | exact hsk.2 | exact hsk.2.symm⟩
      | dict _ _ => simp [Obj.skel] at hsk
  have := setPar_vector_ref hl' (hk'.trans hk) p2
  generalize (w3.setCross (d + 1)).1 = w4 at *
  unfold LWorld.setSens at ok ⊢
  cases r : choSolve w4.o.chol w4.o.cross with
  | error e => rw [r] at ok; cases ok
  | ok X =>
    simp only [p3]
    rw [← this, ← p1]
    rfl

end

end LRVB
