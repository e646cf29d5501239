import Verif.Lemmas.HeapPSens

/-!
# `ParametricSensitivity` with references: what it does when nothing is shared
-/

namespace LRVB

open Classical

noncomputable section

variable {conv : Param → Param → Param × Option PyErr}

/-- The value of the object. -/
def SWorld.value (conv : Param → Param → Param × Option PyErr) (w : SWorld) (p q r : Param) : Sens :=
  ⟨p, q, r, conv, w.o.objFn, w.o.hyperFn, w.st.mem.vals w.o.optInput, w.st.mem.vals w.o.optHyper,
    w.st.mem.vals w.o.optOutput, w.st.mem.read w.o.hess, w.o.chol, w.o.doutDin, w.o.cross, w.st.mem.read w.o.sens⟩

/-- The three parameters and what they contain. -/
structure Trio (depth : ℕ) (st : Store) (i j k : ℕ) (p q r : Param) : Prop where
  wf : st.WF
  first : st.tree depth i = some p
  second : st.tree depth j = some q
  third : st.tree depth k = some r
  apart : st.Apart3 depth i j k

section
variable {depth : ℕ} {st st' : Store} {i j k : ℕ} {p q r p' q' r' : Param}

theorem Trio.ij (h : Trio depth st i j k p q r) : Duo depth st i j p q := ⟨h.wf, h.first, h.second, h.apart.1⟩

theorem Trio.ik (h : Trio depth st i j k p q r) : Duo depth st i k p r := ⟨h.wf, h.first, h.third, h.apart.2.1⟩

theorem Trio.jk (h : Trio depth st i j k p q r) : Duo depth st j k q r := ⟨h.wf, h.second, h.third, h.apart.2.2⟩

theorem apart3_skel (h : st.Apart3 depth i j k) (hs : st.Skel st') : st'.Apart3 depth i j k :=
  ⟨apart_skel h.1 hs, apart_skel h.2.1 hs, apart_skel h.2.2 hs⟩

theorem Trio.same (h : Trio depth st i j k p q r) (hc : Store.Change [] st st') : Trio depth st' i j k p q r :=
  ⟨hc.wf h.wf, (hc.tree h.wf depth i (by simp)).trans h.first, (hc.tree h.wf depth j (by simp)).trans h.second,
    (hc.tree h.wf depth k (by simp)).trans h.third, apart3_skel h.apart hc.skel⟩

/-- A call that changes the first and the second parameter. -/
theorem Trio.change12 (h : Trio depth st i j k p q r) (hc : Store.Change (st.foot depth i ++ st.foot depth j) st st')
    (hp : st'.tree depth i = some p') (hq : st'.tree depth j = some q') : Trio depth st' i j k p' q' r := by
  refine ⟨hc.wf h.wf, hp, hq, (hc.tree h.wf depth k fun l hl hl' => ?_).trans h.third, apart3_skel h.apart hc.skel⟩
  rcases List.mem_append.1 hl' with hl' | hl'
  · exact h.ik.disjoint l hl hl'
  · exact h.jk.disjoint l hl hl'

/-- A call that changes the first and the third parameter. -/
theorem Trio.change13 (h : Trio depth st i j k p q r) (hc : Store.Change (st.foot depth i ++ st.foot depth k) st st')
    (hp : st'.tree depth i = some p') (hr : st'.tree depth k = some r') : Trio depth st' i j k p' q r' := by
  refine ⟨hc.wf h.wf, hp, (hc.tree h.wf depth j fun l hl hl' => ?_).trans h.second, hr, apart3_skel h.apart hc.skel⟩
  rcases List.mem_append.1 hl' with hl' | hl'
  · exact h.ij.disjoint l hl hl'
  · exact h.jk.disjoint l hl' hl
end

/-- The object with references and the one with values agree. -/
structure SSim (depth : ℕ) (conv : Param → Param → Param × Option PyErr) (w : SWorld) (S : Sens) : Prop where
  wf : w.WF
  trio : Trio depth w.st w.o.inputPar w.o.outputPar w.o.hyperPar S.inputPar S.outputPar S.hyperPar
  value : S = w.value conv S.inputPar S.outputPar S.hyperPar

theorem sens_view {depth : ℕ} {w : SWorld} {S : Sens} :
    w.view depth conv = some S ↔ w.st.tree depth w.o.inputPar = some S.inputPar ∧
      w.st.tree depth w.o.outputPar = some S.outputPar ∧
      w.st.tree depth w.o.hyperPar = some S.hyperPar ∧ S = w.value conv S.inputPar S.outputPar S.hyperPar := by
  unfold SWorld.view SWorld.value
  cases h1 : w.st.tree depth w.o.inputPar with
  | none => simp
  | some p =>
    cases h2 : w.st.tree depth w.o.outputPar with
    | none => simp
    | some q =>
      cases h3 : w.st.tree depth w.o.hyperPar with
      | none => simp
      | some r =>
        simp only [bind, Option.bind, Option.some.injEq]
        constructor
        · rintro rfl; exact ⟨rfl, rfl, rfl, rfl⟩
        · rintro ⟨rfl, rfl, rfl, h⟩; exact h.symm

theorem SSim.view {depth : ℕ} {w : SWorld} {S : Sens} (h : SSim depth conv w S) : w.view depth conv = some S :=
  sens_view.2 ⟨h.trio.first, h.trio.second, h.trio.third, h.value⟩

theorem svalue_grow {w : SWorld} (h : w.WF) {st : Store} (hg : Store.Grow w.st st) (p q r p' q' r' : Param) :
    SWorld.value conv ⟨st, w.o⟩ p' q' r' =
      { w.value conv p q r with inputPar := p', outputPar := q', hyperPar := r' } := by
  unfold SWorld.value
  simp only [hg.le.vals h.input, hg.le.vals h.hyper, hg.le.vals h.output, hg.le.read h.hess, hg.le.read h.sens]

theorem thenDo_ssim {depth : ℕ} {r : SWorld × Py Unit} {s : Sens × Option PyErr} {k : SWorld → SWorld × Py Unit}
    {l : Sens → Sens × Option PyErr} (h : SSim depth conv r.1 s.1) (ho : outcome r.2 = s.2)
    (hk : r.2 = .ok () → s.2 = none → SSim depth conv (k r.1).1 (l s.1).1 ∧ outcome (k r.1).2 = (l s.1).2) :
    SSim depth conv (thenDo r k).1 (andThen s l).1 ∧ outcome (thenDo r k).2 = (andThen s l).2 := by
  unfold thenDo andThen
  cases hs : s.2 with
  | some e => rw [hs] at ho; rw [outcome_error ho]; exact ⟨h, rfl⟩
  | none => rw [hs] at ho; rw [outcome_ok ho]; exact hk (outcome_ok ho) hs

theorem sens_setInput_sim {depth : ℕ} {w : SWorld} {S : Sens} (h : SSim depth conv w S) (x : Option (List ℕ)) :
    SSim depth conv (w.setInput depth x).1 (S.setInput (x.map w.st.mem.vals)).1 ∧
      outcome (w.setInput depth x).2 = (S.setInput (x.map w.st.mem.vals)).2 := by
  have hstep := (sens_setInput_step (depth := depth) h.wf x).wf h.wf
  obtain ⟨hw, ht, hv⟩ := h
  obtain ⟨p, q, r, T'⟩ : ∃ p q r, S = w.value conv p q r := ⟨_, _, _, hv⟩
  subst T'
  simp only [SWorld.value] at ht
  cases x with
  | some x =>
    have g := newVec_grow w.st (w.st.mem.vals x)
    refine ⟨⟨hstep, ht.same (newVec_change _ _), ?_⟩, rfl⟩
    simp only [SWorld.setInput, Sens.setInput, SWorld.value, Option.map_some, newVec_vals, g.le.vals hw.hyper,
      g.le.vals hw.output, g.le.read hw.hess, g.le.read hw.sens]
  | none =>
    have hc := getFree_change (depth := depth) hw.st w.o.inputPar
    have g := hc.grow
    have hg := gather_free ht.first
    unfold SWorld.setInput at hstep ⊢
    unfold Sens.setInput
    simp only [SWorld.value, Option.map_none] at hstep ⊢
    cases hr : (w.st.getFree depth w.o.inputPar).2 with
    | error e =>
      rw [(store_getFree_error hr).1] at hg
      rw [← hg]
      rw [hr] at hstep
      exact ⟨⟨hstep, ht.same hc, (svalue_grow hw g p q r _ _ _).symm⟩, rfl⟩
    | ok y =>
      obtain ⟨v, k1, k2, k3⟩ := store_getFree_new hr
      rw [k1] at hg
      rw [← hg]
      rw [hr] at hstep
      refine ⟨⟨hstep, ht.same hc, ?_⟩, rfl⟩
      have hy : (w.st.getFree depth w.o.inputPar).1.mem.vals y = v := by
        rw [k2, k3]; exact Mem.alloc_vals _ _
      simp only [SWorld.value, hy, g.le.vals hw.hyper, g.le.vals hw.output, g.le.read hw.hess, g.le.read hw.sens]

theorem sens_setHess_sim {depth : ℕ} {w : SWorld} {S : Sens} (h : SSim depth conv w S) {hess : Option Ref}
    (hq : hess = none → S.hyperPar.Plain) (hh : ∀ r, hess = some r → r.Alive w.st.mem) :
    SSim depth conv (w.setHess depth hess).1 (S.setHess (hess.map w.st.mem.read)).1 ∧
      outcome (w.setHess depth hess).2 = (S.setHess (hess.map w.st.mem.read)).2 := by
  have hstep := (sens_setHess_step (depth := depth) h.wf hh).wf h.wf
  obtain ⟨hw, ht, hv⟩ := h
  obtain ⟨p, q, r, T'⟩ : ∃ p q r, S = w.value conv p q r := ⟨_, _, _, hv⟩
  subst T'
  simp only [SWorld.value] at ht hq
  cases hess with
  | some H => exact ⟨⟨hstep, ht, rfl⟩, rfl⟩
  | none =>
    obtain ⟨d1, e1⟩ := objHessian_sim (depth := depth) (w := w.lin) hw.lin ht.ik (hq rfl)
    have hc := objHessian_change (depth := depth) hw.lin
    have ht1 := ht.change13 (st' := (w.lin.objHessian depth).1) hc.left d1.first d1.second
    have g1 : Store.Grow w.st (w.lin.objHessian depth).1 := hc.grow
    unfold SWorld.setHess at hstep ⊢
    unfold Sens.setHess Sens.objective
    simp only [SWorld.value, Option.map_none] at hstep ⊢
    have e1' : (w.lin.objHessian depth).2 = ((Objective.new p fun (_ : Unit) p => w.o.objFn p r).funFreeHessian
      (w.st.mem.vals w.o.optInput) ()).2 := e1
    rw [e1'] at hstep ⊢
    cases rr : ((Objective.new p fun (_ : Unit) p => w.o.objFn p r).funFreeHessian (w.st.mem.vals w.o.optInput) ()).2 with
    | error e =>
      exact ⟨⟨hw.grow g1, ht1, (svalue_grow hw g1 p q r _ _ _).symm⟩, rfl⟩
    | ok H =>
      rw [rr] at hstep
      simp only at hstep
      have g2 := g1.trans (alloc_grow (w.lin.objHessian depth).1 H)
      refine ⟨⟨hstep, ?_, ?_⟩, rfl⟩
      · exact ht1.same ⟨Mem.alloc_le _ _, .refl _, fun h => wf_mem h (Mem.alloc_le _ _), fun _ _ => rfl⟩
      · simp only [SWorld.value]
        rw [Mem.read_alloc]
        simp only [g2.le.vals hw.input, g2.le.vals hw.hyper, g2.le.vals hw.output, g2.le.read hw.sens]

theorem sens_setChol_sim {depth : ℕ} {w : SWorld} {S : Sens} (h : SSim depth conv w S) :
    SSim depth conv w.setChol.1 S.setChol.1 ∧ outcome w.setChol.2 = S.setChol.2 := by
  have hstep := (sens_setChol_step w).wf h.wf
  obtain ⟨hw, ht, hv⟩ := h
  obtain ⟨p, q, r, T'⟩ : ∃ p q r, S = w.value conv p q r := ⟨_, _, _, hv⟩
  subst T'
  unfold SWorld.setChol Sens.setChol at *
  simp only [SWorld.value] at *
  cases rr : choFactor (w.st.mem.read w.o.hess) with
  | error e => exact ⟨⟨hw, ht, rfl⟩, rfl⟩
  | ok l =>
    rw [rr] at hstep
    exact ⟨⟨hstep, ht, rfl⟩, rfl⟩

theorem sens_setDout_sim {depth : ℕ} {w : SWorld} {S : Sens} (h : SSim depth conv w S) (ha : w.converter.Assigns depth)
    (hd : w.converter.Describes depth conv) :
    SSim depth conv (w.setDout depth).1 S.setDout.1 ∧ outcome (w.setDout depth).2 = S.setDout.2 := by
  have hstep := (sens_setDout_step h.wf ha).wf h.wf
  obtain ⟨hw, ht, hv⟩ := h
  obtain ⟨p, q, r, T'⟩ : ∃ p q r, S = w.value conv p q r := ⟨_, _, _, hv⟩
  subst T'
  simp only [SWorld.value] at ht
  have hc := convJac_change ha hw.st true false hw.input
  obtain ⟨k1, k2⟩ := convJac_refine (c := w.converter) ha hd ht.ij true false hw.input
  obtain ⟨t1, t2, -⟩ := conv_view.1 k1
  have ht1 := ht.change12 (st' := (w.converter.jacobian depth w.st true false w.o.optInput).1) hc t1 t2
  have g1 := hc.grow
  unfold SWorld.setDout at hstep ⊢
  unfold Sens.setDout Sens.converter
  simp only [SWorld.value] at hstep ⊢
  rw [k2] at hstep ⊢
  generalize (⟨p, q, conv⟩ : Converter).jacobian true false (w.st.mem.vals w.o.optInput) = R at *
  cases rr : R.2 with
  | error e => exact ⟨⟨hw.grow g1, ht1, (svalue_grow hw g1 p q r _ _ _).symm⟩, rfl⟩
  | ok J =>
    rw [rr] at hstep
    refine ⟨⟨hstep, ht1, ?_⟩, rfl⟩
    simp only [SWorld.value, g1.le.vals hw.input, g1.le.vals hw.hyper, g1.le.vals hw.output, g1.le.read hw.sens,
      g1.le.read hw.hess]

theorem sens_setHyper_sim {depth : ℕ} {w : SWorld} {S : Sens} (h : SSim depth conv w S) :
    SSim depth conv (w.setHyper depth).1 S.setHyper.1 ∧ outcome (w.setHyper depth).2 = S.setHyper.2 := by
  have hstep := (sens_setHyper_step (depth := depth) h.wf).wf h.wf
  obtain ⟨hw, ht, hv⟩ := h
  obtain ⟨p, q, r, T'⟩ : ∃ p q r, S = w.value conv p q r := ⟨_, _, _, hv⟩
  subst T'
  simp only [SWorld.value] at ht
  have hc := getVector_change (depth := depth) hw.st w.o.hyperPar
  have g := hc.grow
  have hg := gather_vector ht.third
  unfold SWorld.setHyper at hstep ⊢
  unfold Sens.setHyper
  simp only [SWorld.value] at hstep ⊢
  rcases store_getVector (depth := depth) (i := w.o.hyperPar) hw.st with ⟨y, v, k1, k2, -, -, k5, -⟩ | ⟨e, k1, k2, -⟩
  · rw [k1] at hg
    rw [← hg]
    rw [k2] at hstep ⊢
    refine ⟨⟨hstep, ht.same hc, ?_⟩, rfl⟩
    simp only [SWorld.value, k5, g.le.vals hw.input, g.le.vals hw.output, g.le.read hw.hess, g.le.read hw.sens]
  · rw [k1] at hg
    rw [← hg]
    rw [k2] at hstep ⊢
    exact ⟨⟨hstep, ht.same hc, (svalue_grow hw g p q r _ _ _).symm⟩, rfl⟩

theorem sens_setOutput_sim {depth : ℕ} {w : SWorld} {S : Sens} (h : SSim depth conv w S) :
    SSim depth conv (w.setOutput depth).1 S.setOutput.1 ∧ outcome (w.setOutput depth).2 = S.setOutput.2 := by
  have hstep := (sens_setOutput_step (depth := depth) h.wf).wf h.wf
  obtain ⟨hw, ht, hv⟩ := h
  obtain ⟨p, q, r, T'⟩ : ∃ p q r, S = w.value conv p q r := ⟨_, _, _, hv⟩
  subst T'
  simp only [SWorld.value] at ht
  have hc := getVector_change (depth := depth) hw.st w.o.outputPar
  have g := hc.grow
  have hg := gather_vector ht.second
  unfold SWorld.setOutput at hstep ⊢
  unfold Sens.setOutput
  simp only [SWorld.value] at hstep ⊢
  rcases store_getVector (depth := depth) (i := w.o.outputPar) hw.st with ⟨y, v, k1, k2, -, -, k5, -⟩ | ⟨e, k1, k2, -⟩
  · rw [k1] at hg
    rw [← hg]
    rw [k2] at hstep ⊢
    refine ⟨⟨hstep, ht.same hc, ?_⟩, rfl⟩
    simp only [SWorld.value, k5, g.le.vals hw.input, g.le.vals hw.hyper, g.le.read hw.hess, g.le.read hw.sens]
  · rw [k1] at hg
    rw [← hg]
    rw [k2] at hstep ⊢
    exact ⟨⟨hstep, ht.same hc, (svalue_grow hw g p q r _ _ _).symm⟩, rfl⟩

theorem sens_setCross_sim {depth : ℕ} {w : SWorld} {S : Sens} (h : SSim depth conv w S) :
    SSim depth conv (w.setCross depth).1 S.setCross.1 ∧ outcome (w.setCross depth).2 = S.setCross.2 := by
  have hstep := (sens_setCross_step (depth := depth) h.wf).wf h.wf
  obtain ⟨hw, ht, hv⟩ := h
  obtain ⟨p, q, r, T'⟩ : ∃ p q r, S = w.value conv p q r := ⟨_, _, _, hv⟩
  subst T'
  simp only [SWorld.value] at ht
  have hc : Store.Change (w.st.foot depth w.o.inputPar ++ w.st.foot depth w.o.hyperPar) w.st
      (w.joint.hessian12 depth w.st w.o.optInput w.o.optHyper true false ()).1 :=
    twoCache_change w.joint _ _ _ _ _ hw.input hw.hyper
  obtain ⟨k1, k2⟩ := twoRun_refine (o := w.joint) ht.ik ⟨w.o.optInput, w.o.optHyper, true, false, ()⟩ .hessian12
    ⟨hw.input, hw.hyper⟩
  obtain ⟨t1, t2, -⟩ := two_view.1 k1
  simp only [HTwo.run, TwoObjective.run] at k1 k2 t1 t2
  have ht1 := ht.change13 (st' := (w.joint.hessian12 depth w.st w.o.optInput w.o.optHyper true false ()).1) hc t1 t2
  have g1 := hc.grow
  unfold SWorld.setCross at hstep ⊢
  unfold Sens.setCross Sens.joint TwoObjective.funHessianFree1Vector2
  simp only [SWorld.value] at hstep ht1 k2 ⊢
  rw [k2] at hstep ⊢
  have hj : w.joint.fn = fun _ p q => w.o.hyperFn p q := rfl
  rw [hj] at ht1 hstep ⊢
  generalize (⟨p, r, fun _ p q => w.o.hyperFn p q⟩ : TwoObjective Unit).hessian12 (w.st.mem.vals w.o.optInput)
    (w.st.mem.vals w.o.optHyper) true false () = R at *
  cases rr : R.2 with
  | error e => exact ⟨⟨hw.grow g1, ht1, (svalue_grow hw g1 p q r _ _ _).symm⟩, rfl⟩
  | ok C =>
    rw [rr] at hstep
    refine ⟨⟨hstep, ht1, ?_⟩, rfl⟩
    simp only [SWorld.value, g1.le.vals hw.input, g1.le.vals hw.hyper, g1.le.vals hw.output, g1.le.read hw.sens,
      g1.le.read hw.hess]

theorem sens_setSens_sim {depth : ℕ} {w : SWorld} {S : Sens} (h : SSim depth conv w S) :
    SSim depth conv w.setSens.1 S.setSens.1 ∧ outcome w.setSens.2 = S.setSens.2 := by
  have hstep := (sens_setSens_step w).wf h.wf
  obtain ⟨hw, ht, hv⟩ := h
  obtain ⟨p, q, r, T'⟩ : ∃ p q r, S = w.value conv p q r := ⟨_, _, _, hv⟩
  subst T'
  unfold SWorld.setSens Sens.setSens at *
  simp only [SWorld.value] at *
  cases rr : choSolve w.o.chol w.o.cross with
  | error e => exact ⟨⟨hw, ht, rfl⟩, rfl⟩
  | ok X =>
    rw [rr] at hstep
    have g := alloc_grow w.st X.neg
    refine ⟨⟨hstep, ht.same ⟨Mem.alloc_le _ _, .refl _, fun h => wf_mem h (Mem.alloc_le _ _), fun _ _ => rfl⟩, ?_⟩, rfl⟩
    simp only [SWorld.value]
    rw [Mem.read_alloc]
    simp only [g.le.vals hw.input, g.le.vals hw.hyper, g.le.vals hw.output, g.le.read hw.hess]

theorem SWorld.Step.describes {depth : ℕ} {w w' : SWorld} (h : w.Step w') (hd : w.converter.Describes depth conv) :
    w'.converter.Describes depth conv := by
  unfold SWorld.converter at *
  rw [h.inputPar, h.outputPar, h.conv]
  exact hd

theorem sens_setInput_plain {S : Sens} (x : Option (List ℝ)) : (S.setInput x).1.hyperPar = S.hyperPar := by
  unfold Sens.setInput
  cases x with
  | some x => rfl
  | none =>
    simp only
    split <;> rfl

theorem setOptimal_sim {depth : ℕ} {w : SWorld} {S : Sens} (h : SSim depth conv w S) (ha : w.converter.Assigns depth)
    (hd : w.converter.Describes depth conv) (x : Option (List ℕ)) {hess : Option Ref}
    (hq : hess = none → S.hyperPar.Plain) (hh : ∀ r, hess = some r → r.Alive w.st.mem) :
    SSim depth conv (w.setOptimal depth x hess).1 (S.setOptimal (x.map w.st.mem.vals) (hess.map w.st.mem.read)).1 ∧
      outcome (w.setOptimal depth x hess).2 = (S.setOptimal (x.map w.st.mem.vals) (hess.map w.st.mem.read)).2 := by
  unfold SWorld.setOptimal Sens.setOptimal
  obtain ⟨h1, e1⟩ := sens_setInput_sim h x
  have s1 := sens_setInput_step (depth := depth) h.wf x
  refine thenDo_ssim h1 e1 fun _ hn => ?_
  have hr : hess.map w.st.mem.read = hess.map (w.setInput depth x).1.st.mem.read := by
    cases hess with
    | none => rfl
    | some r => simp only [Option.map_some]; rw [s1.grow.le.read (hh r rfl)]
  obtain ⟨h2, e2⟩ := sens_setHess_sim h1 (hess := hess) (fun hn => by rw [sens_setInput_plain]; exact hq hn)
    fun r hr => (hh r hr).mono s1.grow.le
  rw [← hr] at h2 e2
  have s2 := s1.trans (sens_setHess_step (depth := depth) h1.wf (hess := hess) fun r hr => (hh r hr).mono s1.grow.le)
  refine thenDo_ssim h2 e2 fun _ _ => ?_
  obtain ⟨h3, e3⟩ := sens_setChol_sim h2
  have s3 := s2.trans (sens_setChol_step _)
  refine thenDo_ssim h3 e3 fun _ _ => ?_
  obtain ⟨h4, e4⟩ := sens_setDout_sim h3 (s3.assigns ha) (s3.describes hd)
  refine thenDo_ssim h4 e4 fun _ _ => ?_
  obtain ⟨h5, e5⟩ := sens_setHyper_sim h4
  refine thenDo_ssim h5 e5 fun _ _ => ?_
  obtain ⟨h6, e6⟩ := sens_setCross_sim h5
  refine thenDo_ssim h6 e6 fun _ _ => ?_
  obtain ⟨h7, e7⟩ := sens_setOutput_sim h6
  exact thenDo_ssim h7 e7 fun _ _ => sens_setSens_sim h7

theorem sens_predictInput_sim {depth : ℕ} {w : SWorld} {S : Sens} (h : SSim depth conv w S) (n : List ℕ) :
    SSim depth conv (w.predictInput n).1 S ∧
      (w.predictInput n).1.st.mem.vals <$> (w.predictInput n).2 = S.predictInput (w.st.mem.vals n) ∧
      ∀ y, (w.predictInput n).2 = .ok y → ∀ k ∈ y, w.st.mem.next ≤ k := by
  have hstep := (sens_predictInput_step w n).wf h.wf
  obtain ⟨hw, ht, hv⟩ := h
  have hpred : S.predictInput (w.st.mem.vals n) = (do
      let d ← vsub (w.st.mem.vals n) (w.st.mem.vals w.o.optHyper)
      vadd (w.st.mem.vals w.o.optInput) (← (w.st.mem.read w.o.sens).mulVec d)) := by
    rw [hv]; rfl
  rw [hpred]
  unfold SWorld.predictInput at hstep ⊢
  cases hr : (do
      let d ← vsub (w.st.mem.vals n) (w.st.mem.vals w.o.optHyper)
      vadd (w.st.mem.vals w.o.optInput) (← (w.st.mem.read w.o.sens).mulVec d)) with
  | error e => exact ⟨⟨hw, ht, hv⟩, rfl, by simp⟩
  | ok v =>
    rw [hr] at hstep
    refine ⟨⟨hstep, ht.same (newVec_change _ _), ?_⟩, congrArg Except.ok (newVec_vals _ _), ?_⟩
    · rw [svalue_grow hw (newVec_grow _ _) S.inputPar S.outputPar S.hyperPar, ← hv]
    · intro y hy k hk
      cases hy
      exact Mem.alloc_new _ _ k hk

theorem sens_predictOutput_sim {depth : ℕ} {w : SWorld} {S : Sens} (h : SSim depth conv w S)
    (ha : w.converter.Assigns depth) (hd : w.converter.Describes depth conv) (n : List ℕ) (linear : Bool) :
    SSim depth conv (w.predictOutput depth n linear).1 (S.predictOutput (w.st.mem.vals n) linear).1 ∧
      (w.predictOutput depth n linear).1.st.mem.vals <$> (w.predictOutput depth n linear).2 =
        (S.predictOutput (w.st.mem.vals n) linear).2 := by
  have hstep := (sens_predictOutput_step h.wf ha n linear).wf h.wf
  cases linear with
  | true =>
    obtain ⟨hw, ht, hv⟩ := h
    have hpred : S.predictOutput (w.st.mem.vals n) true = (S, do
        let d ← vsub (w.st.mem.vals n) (w.st.mem.vals w.o.optHyper)
        vadd (w.st.mem.vals w.o.optOutput) (← (← w.o.doutDin.matmul (w.st.mem.read w.o.sens)).mulVec d)) := by
      rw [hv]; rfl
    rw [hpred]
    unfold SWorld.predictOutput at hstep ⊢
    simp only [if_true] at hstep ⊢
    cases hr : (do
        let d ← vsub (w.st.mem.vals n) (w.st.mem.vals w.o.optHyper)
        vadd (w.st.mem.vals w.o.optOutput) (← (← w.o.doutDin.matmul (w.st.mem.read w.o.sens)).mulVec d)) with
    | error e => exact ⟨⟨hw, ht, hv⟩, rfl⟩
    | ok v =>
      rw [hr] at hstep
      refine ⟨⟨hstep, ht.same (newVec_change _ _), ?_⟩, congrArg Except.ok (newVec_vals _ _)⟩
      rw [svalue_grow hw (newVec_grow _ _) S.inputPar S.outputPar S.hyperPar, ← hv]
  | false =>
    obtain ⟨h1, e1, -⟩ := sens_predictInput_sim h n
    have hal := fun y => sens_predictInput_alive (w := w) (n := n) (y := y)
    have ho := sens_predictInput_object w n
    unfold SWorld.predictOutput at hstep ⊢
    unfold Sens.predictOutput
    simp only [Bool.false_eq_true, if_false] at hstep ⊢
    rw [← e1]
    generalize w.predictInput n = R at *
    cases hr : R.2 with
    | error e => exact ⟨h1, rfl⟩
    | ok y =>
      rw [hr] at hstep
      have hf : R.1.st.mem.vals <$> (Except.ok y : Py (List ℕ)) = .ok (R.1.st.mem.vals y) := rfl
      rw [hf]
      simp only at hstep ⊢
      have hcv : R.1.converter = w.converter := by unfold SWorld.converter; rw [ho]
      have hc := convert_change (c := w.converter) ha h1.wf.st true false (hal y hr)
      have ht : Trio depth R.1.st w.o.inputPar w.o.outputPar w.o.hyperPar S.inputPar S.outputPar S.hyperPar := by
        have := h1.trio; rw [ho] at this; exact this
      obtain ⟨d1, e2⟩ := convert_refine (c := w.converter) ha hd ht.ij true false (hal y hr)
      have ht1 := ht.change12 (st' := (w.converter.convert depth R.1.st true false y).1) hc d1.first d1.second
      have hconv : S.conv = conv := by rw [h1.value]; rfl
      have hS : S.converter = ⟨S.inputPar, S.outputPar, conv⟩ := by unfold Sens.converter; rw [hconv]
      rw [hS]
      refine ⟨⟨hstep, ht1, ?_⟩, e2⟩
      have := svalue_grow (conv := conv) h1.wf hc.grow S.inputPar S.outputPar S.hyperPar
        ((⟨S.inputPar, S.outputPar, conv⟩ : Converter).convert true false (R.1.st.mem.vals y)).1.parIn
        ((⟨S.inputPar, S.outputPar, conv⟩ : Converter).convert true false (R.1.st.mem.vals y)).1.parOut S.hyperPar
      rw [← h1.value, ho] at this
      exact this.symm

/-! ### Arrays that the object shares with the parameters -/

theorem sens_setInput_objs {depth : ℕ} {w : SWorld} (hw : w.WF) (x : Option (List ℕ)) (j : ℕ) :
    (w.setInput depth x).1.st.objs[j]? = w.st.objs[j]? := by
  unfold SWorld.setInput
  cases x with
  | some x => exact (newVec_change _ _).other j (by simp)
  | none =>
    simp only
    split <;> exact (getFree_change hw.st _).other j (by simp)

theorem sens_setHess_objs {depth : ℕ} {w : SWorld} (hw : w.WF) (hess : Option Ref) (j : ℕ)
    (hj : j ∉ w.st.foot depth w.o.inputPar) : (w.setHess depth hess).1.st.objs[j]? = w.st.objs[j]? := by
  unfold SWorld.setHess
  cases hess with
  | some x => rfl
  | none =>
    have := (objHessian_change (depth := depth) hw.lin).other j hj
    simp only
    split <;> exact this

theorem sens_setChol_objs (w : SWorld) : w.setChol.1.st = w.st := by
  unfold SWorld.setChol
  split <;> rfl

theorem box_get (b : Bool) (F : List ℕ) (st : Store) (i : ℕ) : (st.box b F).get i = st.get i := by
  unfold Store.get
  rw [box_getElem]
  cases st.objs[i]? with
  | none => rfl
  | some o =>
    by_cases h : i ∈ F <;> cases o <;> simp [h, Obj.box, HLeaf.get]

/-- After a Jacobian that returned, an output parameter that is a `VectorParam` holds the array it held. -/
theorem convJac_array {d : ℕ} {c : HConverter} (ha : c.Assigns (d + 1)) {st : Store} (hwf : st.WF) (fi fo : Bool)
    {x : List ℕ} (hx : ∀ k ∈ x, k < st.mem.next) {l : HLeaf} {n : ℕ} {lb ub : Flt}
    (hl : st.objs[c.parOut]? = some (.leaf l)) (hk : l.kind = .vector n lb ub) {J : Arr}
    (hJ : (c.jacobian (d + 1) st fi fo x).2 = .ok J) :
    (c.jacobian (d + 1) st fi fo x).1.get c.parOut = .ok (Ref.vec l.ref.addr) := by
  have g0 := (getVector_change (depth := d + 1) hwf c.parOut).grow
  have g1 := g0.trans (convTrace_grow ha (g0.wf hwf) fi fo (g0.alive hx))
  have g2 := g1.trans (setPar_grow (depth := d + 1) (i := c.parIn) fi (g1.alive hx))
  unfold HConverter.jacobian at hJ ⊢
  simp only at hJ ⊢
  cases hy : (st.getVector (d + 1) c.parOut).2 with
  | error e => rw [hy] at hJ; cases hJ
  | ok y =>
    obtain ⟨rfl, -⟩ := getVector_leaf hl hk hy
    rw [hy] at hJ
    simp only at hJ ⊢
    generalize c.trace (d + 1) (st.getVector (d + 1) c.parOut).1 fi fo x = st1 at *
    cases hj : agJac (c.valueAt (d + 1) (st.getVector (d + 1) c.parOut).1 fi fo) (st.mem.vals x) with
    | error e => rw [hj] at hJ; cases hJ
    | ok J' =>
      rw [hj] at hJ
      simp only at hJ ⊢
      cases r1 : (st1.setPar (d + 1) c.parIn x fi).2 with
      | error e => rw [r1] at hJ; cases hJ
      | ok u =>
        rw [r1] at hJ
        simp only at hJ ⊢
        obtain ⟨l', hl', hk'⟩ := g2.skel.vector hl hk
        have hs : ∀ s : Store, Store.setVector (d + 1) s c.parOut l.ref.addr = s.setPar (d + 1) c.parOut l.ref.addr false :=
          fun s => rfl
        rw [hs] at hJ ⊢
        cases r2 : ((st1.setPar (d + 1) c.parIn x fi).1.setPar (d + 1) c.parOut l.ref.addr false).2 with
        | error e => rw [r2] at hJ; cases hJ
        | ok u2 =>
          have := setPar_vector_ref hl' hk' r2
          simp only
          split
          · rw [box_get]; exact this
          · exact this

theorem foot_self {d : ℕ} {st : Store} {i : ℕ} {o : Obj} (h : st.objs[i]? = some o) : i ∈ st.foot (d + 1) i := by
  unfold Store.foot
  cases o <;> simp [h]

theorem sens_setDout_array {d : ℕ} {w : SWorld} (hw : w.WF) (ha : w.converter.Assigns (d + 1))
    (ok : (w.setDout (d + 1)).2 = .ok ()) :
    (∀ j, j ∉ w.st.foot (d + 1) w.o.inputPar ++ w.st.foot (d + 1) w.o.outputPar →
      (w.setDout (d + 1)).1.st.objs[j]? = w.st.objs[j]?) ∧
    ∀ l n lb ub, w.st.objs[w.o.outputPar]? = some (.leaf l) → l.kind = .vector n lb ub →
      (w.setDout (d + 1)).1.st.get w.o.outputPar = .ok (Ref.vec l.ref.addr) := by
  have hc := convJac_change ha hw.st true false hw.input
  have hv := fun l n lb ub J => convJac_array (l := l) (n := n) (lb := lb) (ub := ub) (J := J) ha hw.st true false hw.input
  unfold SWorld.setDout at ok ⊢
  simp only at ok ⊢
  cases r : (w.converter.jacobian (d + 1) w.st true false w.o.optInput).2 with
  | error e => rw [r] at ok; cases ok
  | ok J => exact ⟨fun j hj => hc.other j hj, fun l n lb ub hl hk => hv l n lb ub J hl hk r⟩

/-- If nothing is shared, the base values are the arrays that the hyperparameter and the output parameter held
before the call. -/
theorem setOptimal_shares {d : ℕ} {w : SWorld} (hw : w.WF) (ha : w.converter.Assigns (d + 1))
    (h3 : w.st.Apart3 (d + 1) w.o.inputPar w.o.outputPar w.o.hyperPar) {x : Option (List ℕ)}
    {hess : Option Ref} (hh : ∀ r, hess = some r → r.Alive w.st.mem) (ok : (w.setOptimal (d + 1) x hess).2 = .ok ()) :
    let w' := (w.setOptimal (d + 1) x hess).1
    (∀ l n lb ub, w.st.objs[w.o.hyperPar]? = some (.leaf l) → l.kind = .vector n lb ub → w'.o.optHyper = l.ref.addr) ∧
    (∀ l n lb ub, w.st.objs[w.o.outputPar]? = some (.leaf l) → l.kind = .vector n lb ub →
      w'.o.optOutput = l.ref.addr) := by
  intro w'
  have hw' : w' = (w.setOptimal (d + 1) x hess).1 := rfl
  clear_value w'
  unfold SWorld.setOptimal at ok hw'
  have s1 := sens_setInput_step (depth := d + 1) hw x
  obtain ⟨o1, e1⟩ := thenDo_ok ok
  rw [e1] at ok hw'
  have b1 := sens_setInput_objs (depth := d + 1) hw x
  have s2 := s1.trans (sens_setHess_step (depth := d + 1) (s1.wf hw) (hess := hess) fun r hr => (hh r hr).mono s1.grow.le)
  obtain ⟨o2, e2⟩ := thenDo_ok ok
  rw [e2] at ok hw'
  have b2 := sens_setHess_objs (depth := d + 1) (s1.wf hw) hess
  rw [s1.grow.skel.foot, s1.inputPar] at b2
  have s3 := s2.trans (sens_setChol_step _)
  obtain ⟨o3, e3⟩ := thenDo_ok ok
  rw [e3] at ok hw'
  have b3 := sens_setChol_objs ((w.setInput (d + 1) x).1.setHess (d + 1) hess).1
  have b13 : ∀ j, j ∉ w.st.foot (d + 1) w.o.inputPar →
      ((w.setInput (d + 1) x).1.setHess (d + 1) hess).1.setChol.1.st.objs[j]? = w.st.objs[j]? := by
    intro j hj
    rw [b3, b2 j hj, b1 j]
  generalize ((w.setInput (d + 1) x).1.setHess (d + 1) hess).1.setChol.1 = w3 at *
  have s4 := s3.trans (sens_setDout_step (s3.wf hw) (s3.assigns ha))
  obtain ⟨o4, e4⟩ := thenDo_ok ok
  rw [e4] at ok hw'
  obtain ⟨b4, v4⟩ := sens_setDout_array (s3.wf hw) (s3.assigns ha) o4
  rw [s3.grow.skel.foot, s3.grow.skel.foot, s3.inputPar, s3.outputPar] at b4
  rw [s3.outputPar] at v4
  generalize (w3.setDout (d + 1)).1 = w4 at *
  have s5 := s4.trans (sens_setHyper_step (depth := d + 1) (s4.wf hw))
  obtain ⟨o5, e5⟩ := thenDo_ok ok
  rw [e5] at ok hw'
  obtain ⟨-, g5, p5⟩ := sens_setHyper_ok o5
  have c5 := getVector_change (depth := d + 1) (s4.wf hw).st w4.o.hyperPar
  generalize (w4.setHyper (d + 1)).1 = w5 at *
  have s6 := s5.trans (sens_setCross_step (depth := d + 1) (s5.wf hw))
  obtain ⟨o6, e6⟩ := thenDo_ok ok
  rw [e6] at ok hw'
  obtain ⟨-, h6, -⟩ := sens_setCross_ok (s5.wf hw) o6
  have c6 : Store.Change (w5.st.foot (d + 1) w5.o.inputPar ++ w5.st.foot (d + 1) w5.o.hyperPar) w5.st
      (w5.setCross (d + 1)).1.st := by
    have : Store.Change (w5.st.foot (d + 1) w5.o.inputPar ++ w5.st.foot (d + 1) w5.o.hyperPar) w5.st
      (w5.joint.hessian12 (d + 1) w5.st w5.o.optInput w5.o.optHyper true false ()).1 :=
      twoCache_change w5.joint _ _ _ _ _ (s5.wf hw).input (s5.wf hw).hyper
    unfold SWorld.setCross
    simp only
    split <;> exact this
  rw [s5.grow.skel.foot, s5.grow.skel.foot, s5.inputPar, s5.hyperPar] at c6
  generalize (w5.setCross (d + 1)).1 = w6 at *
  have s7 := s6.trans (sens_setOutput_step (depth := d + 1) (s6.wf hw))
  obtain ⟨o7, e7⟩ := thenDo_ok ok
  rw [e7] at ok hw'
  obtain ⟨-, h7, g7, -⟩ := sens_setOutput_ok o7
  generalize (w6.setOutput (d + 1)).1 = w7 at *
  obtain ⟨-, h8, q8, -, -⟩ := sens_setSens_ok ok
  rw [← hw'] at h8 q8
  obtain ⟨a1, a2, a3⟩ := h3
  have dis : ∀ {i j k : ℕ}, w.st.Apart (d + 1) i j → k ∈ w.st.foot (d + 1) i → k ∈ w.st.foot (d + 1) j → False :=
    fun h hi hj => (List.nodup_append.1 h).2.2 _ hi _ hj rfl
  refine ⟨fun l n lb ub hl hk => ?_, fun l n lb ub hl hk => ?_⟩
  · have hf := foot_self (d := d) hl
    have n1 : w.o.hyperPar ∉ w.st.foot (d + 1) w.o.inputPar := fun h => dis a2 h hf
    have n2 : w.o.hyperPar ∉ w.st.foot (d + 1) w.o.outputPar := fun h => dis a3 h hf
    rw [h8, h7, h6]
    rw [s4.hyperPar] at g5
    refine (getVector_leaf (l := l) ?_ hk g5).1
    rw [b4 _ (by simp [n1, n2]), b13 _ n1, hl]
  · have hf := foot_self (d := d) hl
    have n1 : w.o.outputPar ∉ w.st.foot (d + 1) w.o.inputPar := fun h => dis a1 h hf
    have n2 : w.o.outputPar ∉ w.st.foot (d + 1) w.o.hyperPar := fun h => dis a3 hf h
    rw [q8]
    rw [s6.outputPar] at g7
    have t := v4 l n lb ub (by rw [b13 _ n1, hl]) hk
    have t6 : w6.st.objs[w.o.outputPar]? = w4.st.objs[w.o.outputPar]? := by
      rw [c6.other _ (by simp [n1, n2]), p5, c5.other _ (by simp)]
    obtain ⟨l', hl', hk'⟩ := s6.grow.skel.vector hl hk
    rw [t6] at hl'
    simp only [Store.get, hl', HLeaf.get] at t
    rw [(getVector_leaf (by rw [t6]; exact hl') hk' g7).1]
    have := congrArg Ref.addr (Except.ok.inj t)
    exact this

/-- `get_vector` gives the array that the parameter holds, or a new one. -/
theorem getVector_cells {depth : ℕ} {st : Store} {i : ℕ} {y : List ℕ} (h : (st.getVector depth i).2 = .ok y) :
    ∀ k ∈ y, k ∈ st.holds i ∨ st.mem.next ≤ k := by
  intro k hk
  unfold Store.getVector at h
  unfold Store.holds
  cases depth with
  | zero => cases h
  | succ d =>
    cases ho : st.objs[i]? with
    | none => rw [ho] at h; cases h
    | some o =>
      rw [ho] at h
      cases o with
      | leaf l =>
        simp only at h ⊢
        cases hv : l.getVector st.mem with
        | error e => rw [hv] at h; cases h
        | ok r =>
          rw [hv] at h
          cases h
          rcases getVector_new hv with ⟨-, h⟩ | ⟨v, h⟩
          · rw [h] at hk; exact Or.inl hk
          · rw [h] at hk; exact Or.inr (Mem.alloc_new _ _ k hk)
      | dict hd es =>
        simp only at h
        cases hv : st.gather Leaf.getVector (d + 1) i with
        | error e => rw [hv] at h; cases h
        | ok v => rw [hv] at h; cases h; exact Or.inr (Mem.alloc_new _ _ k hk)

/-- After a `set_vector` that returned, a parameter holds cells of the argument, or new ones. -/
theorem setPar_holds {d : ℕ} {st : Store} {i : ℕ} {x : List ℕ} (hx : ∀ k ∈ x, k < st.mem.next)
    (ok : (st.setPar (d + 1) i x false).2 = .ok ()) :
    ∀ k ∈ (st.setPar (d + 1) i x false).1.holds i, k ∈ x ∨ st.mem.next ≤ k := by
  intro k hk
  have hs : st.setPar (d + 1) i x false = Store.visit Store.vecVisit (d + 1) st i x := rfl
  cases ho : st.objs[i]? with
  | none => rw [hs] at ok; simp only [Store.visit, ho] at ok; cases ok
  | some o =>
    have hlt := (List.getElem?_eq_some_iff.1 ho).1
    cases o with
    | dict hd es =>
      exfalso
      rw [hs, Store.holds, (visit_change vecVisit_sim.tame (d + 1) st i x hx).skel.dict ho] at hk
      cases hk
    | leaf l =>
      rw [hs] at ok hk
      simp only [Store.visit, ho] at ok hk
      cases hv : Store.vecVisit.leaf st.mem l x with
      | error e => rw [hv] at ok; cases ok
      | ok r =>
        obtain ⟨m', l', b⟩ := r
        rw [hv] at hk
        simp only [Store.holds, List.getElem?_set_self hlt] at hk
        by_cases hl : l'.kind.IsMatrix
        · exact Or.inr (vecVisit_fresh _ l x m' l' b hv hl k hk)
        · rw [(vecVisit_sim.tame _ _ _ _ _ _ hv).2.2.1] at hl
          unfold Store.vecVisit at hv
          simp only at hv
          rw [setVector_view _ _ _ hl] at hv
          cases hv' : (l.view st.mem).setVector (st.mem.vals x) with
          | error e => rw [hv'] at hv; cases hv
          | ok v => rw [hv'] at hv; cases hv; exact Or.inl hk

theorem box_holds (b : Bool) (F : List ℕ) (st : Store) (i : ℕ) : (st.box b F).holds i = st.holds i := by
  unfold Store.holds
  rw [box_getElem]
  cases st.objs[i]? with
  | none => rfl
  | some o =>
    by_cases h : i ∈ F <;> cases o <;> simp [h, Obj.box]

/-- After a Jacobian that returned, the output parameter holds cells of the array it held, or new ones. -/
theorem convJac_holds {d : ℕ} {c : HConverter} (ha : c.Assigns (d + 1)) {st : Store} (hwf : st.WF) (fi fo : Bool)
    {x : List ℕ} (hx : ∀ k ∈ x, k < st.mem.next) {J : Arr} (hJ : (c.jacobian (d + 1) st fi fo x).2 = .ok J) :
    ∀ k ∈ (c.jacobian (d + 1) st fi fo x).1.holds c.parOut, k ∈ st.holds c.parOut ∨ st.mem.next ≤ k := by
  have g0 := (getVector_change (depth := d + 1) hwf c.parOut).grow
  have g1 := g0.trans (convTrace_grow ha (g0.wf hwf) fi fo (g0.alive hx))
  have g2 := g1.trans (setPar_grow (depth := d + 1) (i := c.parIn) fi (g1.alive hx))
  have w0 := fun y (h : (st.getVector (d + 1) c.parOut).2 = .ok y) => getVector_alive hwf h
  unfold HConverter.jacobian at hJ ⊢
  simp only at hJ ⊢
  cases hy : (st.getVector (d + 1) c.parOut).2 with
  | error e => rw [hy] at hJ; cases hJ
  | ok y =>
    have hc := getVector_cells hy
    have hal : ∀ k ∈ y, k < (c.trace (d + 1) (st.getVector (d + 1) c.parOut).1 fi fo x).mem.next := fun k hk =>
      lt_of_lt_of_le (w0 y hy k hk) (convTrace_grow ha (g0.wf hwf) fi fo (g0.alive hx)).le.1
    rw [hy] at hJ
    simp only at hJ ⊢
    generalize c.trace (d + 1) (st.getVector (d + 1) c.parOut).1 fi fo x = st1 at *
    cases hj : agJac (c.valueAt (d + 1) (st.getVector (d + 1) c.parOut).1 fi fo) (st.mem.vals x) with
    | error e => rw [hj] at hJ; cases hJ
    | ok J' =>
      rw [hj] at hJ
      simp only at hJ ⊢
      cases r1 : (st1.setPar (d + 1) c.parIn x fi).2 with
      | error e => rw [r1] at hJ; cases hJ
      | ok u =>
        rw [r1] at hJ
        simp only at hJ ⊢
        have hs : ∀ s : Store, Store.setVector (d + 1) s c.parOut y = s.setPar (d + 1) c.parOut y false :=
          fun s => rfl
        rw [hs] at hJ ⊢
        cases r2 : ((st1.setPar (d + 1) c.parIn x fi).1.setPar (d + 1) c.parOut y false).2 with
        | error e => rw [r2] at hJ; cases hJ
        | ok u2 =>
          intro k hk
          replace hk : k ∈ ((st1.setPar (d + 1) c.parIn x fi).1.setPar (d + 1) c.parOut y false).1.holds c.parOut := by
            simp only at hk
            split at hk
            · rwa [box_holds] at hk
            · exact hk
          have hle := (setPar_grow (st := st1) (depth := d + 1) (i := c.parIn) fi (g1.alive hx)).le.1
          rcases setPar_holds (fun k hk => lt_of_lt_of_le (hal k hk) hle) r2 k hk with h | h
          · exact hc k h
          · exact Or.inr (g2.le.1.trans h)

theorem holds_other {st st' : Store} {i : ℕ} (h : st'.objs[i]? = st.objs[i]?) : st'.holds i = st.holds i := by
  unfold Store.holds; rw [h]

theorem holds_foot {d : ℕ} {st : Store} {i k : ℕ} (h : k ∈ st.holds i) : i ∈ st.foot (d + 1) i := by
  unfold Store.holds at h
  cases ho : st.objs[i]? with
  | none => rw [ho] at h; cases h
  | some o => exact foot_self ho

theorem get_foot {d : ℕ} {st : Store} {i : ℕ} {y : List ℕ} (h : (st.getVector (d + 1) i).2 = .ok y) :
    i ∈ st.foot (d + 1) i := by
  unfold Store.getVector at h
  cases ho : st.objs[i]? with
  | none => rw [ho] at h; cases h
  | some o => exact foot_self ho

theorem sens_setDout_holds {d : ℕ} {w : SWorld} (hw : w.WF) (ha : w.converter.Assigns (d + 1))
    (ok : (w.setDout (d + 1)).2 = .ok ()) :
    ∀ k ∈ (w.setDout (d + 1)).1.st.holds w.o.outputPar, k ∈ w.st.holds w.o.outputPar ∨ w.st.mem.next ≤ k := by
  have hv := fun J => convJac_holds (J := J) ha hw.st true false hw.input
  unfold SWorld.setDout at ok ⊢
  simp only at ok ⊢
  cases r : (w.converter.jacobian (d + 1) w.st true false w.o.optInput).2 with
  | error e => rw [r] at ok; cases ok
  | ok J => exact hv J r

/-- The arrays that predictions are computed from are new, or those that the hyperparameter and the output
parameter held before the call. -/
theorem setOptimal_cells {d : ℕ} {w : SWorld} (hw : w.WF) (ha : w.converter.Assigns (d + 1))
    (h3 : w.st.Apart3 (d + 1) w.o.inputPar w.o.outputPar w.o.hyperPar) {x : Option (List ℕ)}
    {hess : Option Ref} (hh : ∀ r, hess = some r → r.Alive w.st.mem) (ok : (w.setOptimal (d + 1) x hess).2 = .ok ()) :
    ∀ k ∈ (w.setOptimal (d + 1) x hess).1.cells,
      w.st.mem.next ≤ k ∨ k ∈ w.st.holds w.o.hyperPar ∨ k ∈ w.st.holds w.o.outputPar := by
  have hnew := (setOptimal_arrays hw ha hh ok).1
  generalize hw' : (w.setOptimal (d + 1) x hess).1 = w' at *
  replace hw' := hw'.symm
  unfold SWorld.setOptimal at ok hw'
  have s1 := sens_setInput_step (depth := d + 1) hw x
  obtain ⟨o1, e1⟩ := thenDo_ok ok
  rw [e1] at ok hw'
  have b1 := sens_setInput_objs (depth := d + 1) hw x
  have s2 := s1.trans (sens_setHess_step (depth := d + 1) (s1.wf hw) (hess := hess) fun r hr => (hh r hr).mono s1.grow.le)
  obtain ⟨o2, e2⟩ := thenDo_ok ok
  rw [e2] at ok hw'
  have b2 := sens_setHess_objs (depth := d + 1) (s1.wf hw) hess
  rw [s1.grow.skel.foot, s1.inputPar] at b2
  have s3 := s2.trans (sens_setChol_step _)
  obtain ⟨o3, e3⟩ := thenDo_ok ok
  rw [e3] at ok hw'
  have b3 := sens_setChol_objs ((w.setInput (d + 1) x).1.setHess (d + 1) hess).1
  have b13 : ∀ j, j ∉ w.st.foot (d + 1) w.o.inputPar →
      ((w.setInput (d + 1) x).1.setHess (d + 1) hess).1.setChol.1.st.objs[j]? = w.st.objs[j]? := by
    intro j hj
    rw [b3, b2 j hj, b1 j]
  generalize ((w.setInput (d + 1) x).1.setHess (d + 1) hess).1.setChol.1 = w3 at *
  have s4 := s3.trans (sens_setDout_step (s3.wf hw) (s3.assigns ha))
  obtain ⟨o4, e4⟩ := thenDo_ok ok
  rw [e4] at ok hw'
  obtain ⟨b4, -⟩ := sens_setDout_array (s3.wf hw) (s3.assigns ha) o4
  have v4 := sens_setDout_holds (s3.wf hw) (s3.assigns ha) o4
  rw [s3.grow.skel.foot, s3.grow.skel.foot, s3.inputPar, s3.outputPar] at b4
  rw [s3.outputPar] at v4
  generalize (w3.setDout (d + 1)).1 = w4 at *
  have s5 := s4.trans (sens_setHyper_step (depth := d + 1) (s4.wf hw))
  obtain ⟨o5, e5⟩ := thenDo_ok ok
  rw [e5] at ok hw'
  obtain ⟨-, g5, p5⟩ := sens_setHyper_ok o5
  have c5 := getVector_change (depth := d + 1) (s4.wf hw).st w4.o.hyperPar
  generalize (w4.setHyper (d + 1)).1 = w5 at *
  have s6 := s5.trans (sens_setCross_step (depth := d + 1) (s5.wf hw))
  obtain ⟨o6, e6⟩ := thenDo_ok ok
  rw [e6] at ok hw'
  obtain ⟨-, h6, -⟩ := sens_setCross_ok (s5.wf hw) o6
  have c6 : Store.Change (w5.st.foot (d + 1) w5.o.inputPar ++ w5.st.foot (d + 1) w5.o.hyperPar) w5.st
      (w5.setCross (d + 1)).1.st := by
    have : Store.Change (w5.st.foot (d + 1) w5.o.inputPar ++ w5.st.foot (d + 1) w5.o.hyperPar) w5.st
      (w5.joint.hessian12 (d + 1) w5.st w5.o.optInput w5.o.optHyper true false ()).1 :=
      twoCache_change w5.joint _ _ _ _ _ (s5.wf hw).input (s5.wf hw).hyper
    unfold SWorld.setCross
    simp only
    split <;> exact this
  rw [s5.grow.skel.foot, s5.grow.skel.foot, s5.inputPar, s5.hyperPar] at c6
  generalize (w5.setCross (d + 1)).1 = w6 at *
  have s7 := s6.trans (sens_setOutput_step (depth := d + 1) (s6.wf hw))
  obtain ⟨o7, e7⟩ := thenDo_ok ok
  rw [e7] at ok hw'
  obtain ⟨-, h7, g7, -⟩ := sens_setOutput_ok o7
  generalize (w6.setOutput (d + 1)).1 = w7 at *
  obtain ⟨-, h8, q8, -, -⟩ := sens_setSens_ok ok
  rw [← hw'] at h8 q8
  obtain ⟨a1, a2, a3⟩ := h3
  have dis : ∀ {i j k : ℕ}, w.st.Apart (d + 1) i j → k ∈ w.st.foot (d + 1) i → k ∈ w.st.foot (d + 1) j → False :=
    fun h hi hj => (List.nodup_append.1 h).2.2 _ hi _ hj rfl
  intro k hk
  simp only [SWorld.cells, List.mem_append] at hk
  rcases hk with ((hk | hk) | hk) | hk
  · exact Or.inl (hnew k (by simp [hk]))
  · rw [h8, h7, h6] at hk
    rw [s4.hyperPar] at g5
    have hf := get_foot g5
    rw [s4.grow.skel.foot] at hf
    have n1 : w.o.hyperPar ∉ w.st.foot (d + 1) w.o.inputPar := fun h => dis a2 h hf
    have n2 : w.o.hyperPar ∉ w.st.foot (d + 1) w.o.outputPar := fun h => dis a3 h hf
    rcases getVector_cells g5 k hk with h | h
    · rw [holds_other ((b4 _ (by simp [n1, n2])).trans (b13 _ n1))] at h
      exact Or.inr (Or.inl h)
    · exact Or.inl (s4.grow.le.1.trans h)
  · rw [q8] at hk
    rw [s6.outputPar] at g7
    have hf := get_foot g7
    rw [s6.grow.skel.foot] at hf
    have n1 : w.o.outputPar ∉ w.st.foot (d + 1) w.o.inputPar := fun h => dis a1 h hf
    have n2 : w.o.outputPar ∉ w.st.foot (d + 1) w.o.hyperPar := fun h => dis a3 hf h
    rcases getVector_cells g7 k hk with h | h
    · have t6 : w6.st.objs[w.o.outputPar]? = w4.st.objs[w.o.outputPar]? := by
        rw [c6.other _ (by simp [n1, n2]), p5, c5.other _ (by simp)]
      rw [holds_other t6] at h
      rcases v4 k h with h | h
      · rw [holds_other (b13 _ n1)] at h
        exact Or.inr (Or.inr h)
      · exact Or.inl (s3.grow.le.1.trans h)
    · exact Or.inl (s6.grow.le.1.trans h)
  · exact Or.inl (hnew k (by simp [hk]))

end

end LRVB
