import Verif.Lemmas.HeapSens
import Verif.Spec.HeapPSens

/-!
# `ParametricSensitivity` with references: lemmas
-/

namespace LRVB

open Classical

noncomputable section

/-! ### Which objects the calls touch -/

theorem Store.Change.left {F G : List ℕ} {a b : Store} (h : Store.Change F a b) : Store.Change (F ++ G) a b :=
  h.mono fun _ hj => List.mem_append_left _ hj

theorem Store.Change.right {F G : List ℕ} {a b : Store} (h : Store.Change G a b) : Store.Change (F ++ G) a b :=
  h.mono fun _ hj => List.mem_append_right _ hj

/-- `set_free` or `set_vector` later in a call. -/
theorem Store.Change.thenSet {depth : ℕ} {F : List ℕ} {a b : Store} (h : Store.Change F a b) {i : ℕ}
    (hi : ∀ j ∈ a.foot depth i, j ∈ F) {x : List ℕ} (free : Bool) (hx : ∀ k ∈ x, k < a.mem.next) :
    Store.Change F a (b.setPar depth i x free).1 := by
  have h2 := setPar_change (depth := depth) (i := i) free (h.grow.alive hx)
  rw [h.skel.foot] at h2
  exact h.trans (h2.mono hi)

theorem Store.Change.thenBox {F G : List ℕ} {a b : Store} (h : Store.Change F a b) (hG : ∀ j ∈ G, j ∈ F) (t : Bool) :
    Store.Change F a (if t then b.box true G else b) := by
  cases t
  · exact h
  · exact h.trans (box_change true hG b)

theorem objHessian_change {depth : ℕ} {w : LWorld} (h : w.WF) :
    Store.Change (w.st.foot depth w.o.inputPar) w.st (w.objHessian depth).1 := by
  unfold LWorld.objHessian
  simp only
  have h1 := traceSet_change (depth := depth) (i := w.o.inputPar) true h.input
  have h2 := h1.thenSet (i := w.o.inputPar) (fun _ h => h) true h.input
  split
  · exact h1
  · split <;> exact h2

theorem twoCache_change {A β : Type} {depth : ℕ} (o : HTwo A) {st : Store} {x1 x2 : List ℕ} (f1 f2 t1 t2 : Bool)
    (ag : Py β) (hx1 : ∀ k ∈ x1, k < st.mem.next) (hx2 : ∀ k ∈ x2, k < st.mem.next) :
    Store.Change (st.foot depth o.par1 ++ st.foot depth o.par2) st (o.cacheAndEval depth st x1 x2 f1 f2 t1 t2 ag).1 := by
  have i1 : ∀ j ∈ st.foot depth o.par1, j ∈ st.foot depth o.par1 ++ st.foot depth o.par2 := fun _ h =>
    List.mem_append_left _ h
  have i2 : ∀ j ∈ st.foot depth o.par2, j ∈ st.foot depth o.par1 ++ st.foot depth o.par2 := fun _ h =>
    List.mem_append_right _ h
  have h0 : Store.Change (st.foot depth o.par1 ++ st.foot depth o.par2) st (o.trace depth st x1 x2 f1 f2 t1 t2) := by
    have k1 := (Store.Change.refl (st.foot depth o.par1 ++ st.foot depth o.par2) st).thenSet i1 f1 hx1
    have k2 := k1.thenBox i1 t1
    have k3 := k2.thenSet i2 f2 hx2
    unfold HTwo.trace
    simp only
    split
    · exact k1
    · split
      · exact k3
      · exact k3.thenBox i2 t2
  have h1 := h0.thenSet i1 f1 hx1
  have h2 := h1.thenSet i2 f2 hx2
  unfold HTwo.cacheAndEval
  simp only
  split
  · exact h0
  · split
    · exact h1
    · split <;> exact h2

theorem convert_change {depth : ℕ} {c : HConverter} (ha : c.Assigns depth) {st : Store} (hwf : st.WF) (fi fo : Bool)
    {x : List ℕ} (hx : ∀ k ∈ x, k < st.mem.next) :
    Store.Change (st.foot depth c.parIn ++ st.foot depth c.parOut) st (c.convert depth st fi fo x).1 := by
  have h1 := setPar_change (depth := depth) (i := c.parIn) fi hx
  have h2 : Store.Change (st.foot depth c.parIn ++ st.foot depth c.parOut) st
      (c.conv (st.setPar depth c.parIn x fi).1).1 := by
    have := ha.change (h1.wf hwf)
    rw [h1.skel.foot] at this
    exact h1.left.trans this.right
  have h3 := h2.trans ((readOut_change (depth := depth) (c := c) (h2.wf hwf) fo).mono (by simp))
  unfold HConverter.convert
  simp only
  split
  · exact h1.left
  · split
    · exact h2
    · exact h3

theorem convTrace_change {depth : ℕ} {c : HConverter} (ha : c.Assigns depth) {st : Store} (hwf : st.WF) (fi fo : Bool)
    {x : List ℕ} (hx : ∀ k ∈ x, k < st.mem.next) :
    Store.Change (st.foot depth c.parIn ++ st.foot depth c.parOut) st (c.trace depth st fi fo x) := by
  have h1 := setPar_change (depth := depth) (i := c.parIn) fi hx
  have h2 := (convert_change ha hwf fi fo hx).trans (box_change true (fun _ h => h) _)
  unfold HConverter.trace
  simp only
  split
  · exact h1.left
  · exact h2

theorem convJac_change {depth : ℕ} {c : HConverter} (ha : c.Assigns depth) {st : Store} (hwf : st.WF) (fi fo : Bool)
    {x : List ℕ} (hx : ∀ k ∈ x, k < st.mem.next) :
    Store.Change (st.foot depth c.parIn ++ st.foot depth c.parOut) st (c.jacobian depth st fi fo x).1 := by
  have g0 := getVector_change (depth := depth) hwf c.parOut
  have hy := fun y => getVector_alive (depth := depth) hwf (i := c.parOut) (y := y)
  have g1' := convTrace_change ha (g0.wf hwf) fi fo (g0.grow.alive hx)
  rw [g0.skel.foot, g0.skel.foot] at g1'
  have g2' := g1'.thenSet (i := c.parIn) (by rw [g0.skel.foot]; exact fun _ h => List.mem_append_left _ h) fi
    (g0.grow.alive hx)
  have k0 : Store.Change (st.foot depth c.parIn ++ st.foot depth c.parOut) st (st.getVector depth c.parOut).1 :=
    g0.mono (by simp)
  unfold HConverter.jacobian
  simp only
  split
  · exact k0
  · rename_i y hg
    have g3 := g2'.thenSet (i := c.parOut) (by rw [g0.skel.foot]; exact fun _ h => List.mem_append_right _ h) false (hy y hg)
    split
    · exact k0.trans g1'
    · split
      · exact k0.trans g2'
      · split <;> split <;>
          first | exact k0.trans g3 | exact (k0.trans g3).trans (box_change true (fun _ h => List.mem_append_right _ h) _)

/-! ### The arrays exist -/

/-- The arrays of the object exist. -/
structure SWorld.WF (w : SWorld) : Prop where
  st : w.st.WF
  input : ∀ k ∈ w.o.optInput, k < w.st.mem.next
  hyper : ∀ k ∈ w.o.optHyper, k < w.st.mem.next
  output : ∀ k ∈ w.o.optOutput, k < w.st.mem.next
  hess : w.o.hess.Alive w.st.mem
  sens : w.o.sens.Alive w.st.mem

/-- What a step of a method does: arrays stay, the structure of objects stays, the parameters and functions of
the object stay. -/
structure SWorld.Step (w w' : SWorld) : Prop where
  grow : Store.Grow w.st w'.st
  wf : w.WF → w'.WF
  inputPar : w'.o.inputPar = w.o.inputPar
  outputPar : w'.o.outputPar = w.o.outputPar
  hyperPar : w'.o.hyperPar = w.o.hyperPar
  conv : w'.o.conv = w.o.conv

theorem SWorld.Step.refl (w : SWorld) : w.Step w := ⟨.refl _, id, rfl, rfl, rfl, rfl⟩

theorem SWorld.Step.trans {a b c : SWorld} (h : a.Step b) (h' : b.Step c) : a.Step c :=
  ⟨h.grow.trans h'.grow, fun x => h'.wf (h.wf x), h'.inputPar.trans h.inputPar, h'.outputPar.trans h.outputPar,
    h'.hyperPar.trans h.hyperPar, h'.conv.trans h.conv⟩

theorem SWorld.WF.grow {w : SWorld} {st : Store} (h : w.WF) (hg : Store.Grow w.st st) : SWorld.WF ⟨st, w.o⟩ :=
  ⟨hg.wf h.st, hg.alive h.input, hg.alive h.hyper, hg.alive h.output, h.hess.mono hg.le, h.sens.mono hg.le⟩

theorem SWorld.Step.store {w : SWorld} {st : Store} (hg : Store.Grow w.st st) : w.Step ⟨st, w.o⟩ :=
  ⟨hg, fun h => h.grow hg, rfl, rfl, rfl, rfl⟩

theorem SWorld.WF.lin {w : SWorld} (h : w.WF) : w.lin.WF := ⟨h.st, h.input, h.hyper, h.hess, h.sens⟩

theorem SWorld.Step.assigns {depth : ℕ} {w w' : SWorld} (h : w.Step w') (ha : w.converter.Assigns depth) :
    w'.converter.Assigns depth := by
  unfold SWorld.converter at *
  rw [h.inputPar, h.outputPar, h.conv]
  exact ha

theorem thenDo_sstep {r : SWorld × Py Unit} {k : SWorld → SWorld × Py Unit} {w : SWorld} (hr : w.Step r.1)
    (hk : r.1.Step (k r.1).1) : w.Step (thenDo r k).1 := by
  unfold thenDo
  split
  · exact hr
  · exact hr.trans hk

theorem getFree_alive {depth : ℕ} {st : Store} {i : ℕ} {y : List ℕ} (h : (st.getFree depth i).2 = .ok y) :
    ∀ k ∈ y, k < (st.getFree depth i).1.mem.next := by
  obtain ⟨v, -, h2, rfl⟩ := store_getFree_new h
  rw [h2]
  exact Mem.alloc_alive _ _

theorem sens_setInput_step {depth : ℕ} {w : SWorld} (h : w.WF) (x : Option (List ℕ)) :
    w.Step (w.setInput depth x).1 := by
  unfold SWorld.setInput
  cases x with
  | some x =>
    have g := newVec_grow w.st (w.st.mem.vals x)
    exact ⟨g, fun h => ⟨g.wf h.st, newVec_alive _ _, g.alive h.hyper, g.alive h.output, h.hess.mono g.le,
      h.sens.mono g.le⟩, rfl, rfl, rfl, rfl⟩
  | none =>
    have g := (getFree_change (depth := depth) h.st w.o.inputPar).grow
    simp only
    split
    · exact .store g
    · rename_i y hy
      exact ⟨g, fun h => ⟨g.wf h.st, getFree_alive hy, g.alive h.hyper, g.alive h.output, h.hess.mono g.le,
        h.sens.mono g.le⟩, rfl, rfl, rfl, rfl⟩

theorem sens_setHess_step {depth : ℕ} {w : SWorld} (h : w.WF) {hess : Option Ref}
    (hh : ∀ r, hess = some r → r.Alive w.st.mem) : w.Step (w.setHess depth hess).1 := by
  unfold SWorld.setHess
  cases hess with
  | some H =>
    exact ⟨.refl _, fun h => ⟨h.st, h.input, h.hyper, h.output, hh H rfl, h.sens⟩, rfl, rfl, rfl, rfl⟩
  | none =>
    simp only
    have h1 : Store.Grow w.st (w.lin.objHessian depth).1 := objHessian_grow (depth := depth) h.lin
    split
    · exact .store h1
    · rename_i H _
      have h2 := h1.trans (alloc_grow (w.lin.objHessian depth).1 H)
      exact ⟨h2, fun h => ⟨h2.wf h.st, h2.alive h.input, h2.alive h.hyper, h2.alive h.output, Mem.alloc_alive _ _,
        h.sens.mono h2.le⟩, rfl, rfl, rfl, rfl⟩

theorem sens_setChol_step (w : SWorld) : w.Step w.setChol.1 := by
  unfold SWorld.setChol
  split
  · exact .refl _
  · exact ⟨.refl _, fun h => ⟨h.st, h.input, h.hyper, h.output, h.hess, h.sens⟩, rfl, rfl, rfl, rfl⟩

theorem sens_setDout_step {depth : ℕ} {w : SWorld} (h : w.WF) (ha : w.converter.Assigns depth) :
    w.Step (w.setDout depth).1 := by
  unfold SWorld.setDout
  simp only
  have g := convJac_grow ha h.st true false h.input
  split
  · exact .store g
  · exact ⟨g, fun h => ⟨g.wf h.st, g.alive h.input, g.alive h.hyper, g.alive h.output, h.hess.mono g.le,
      h.sens.mono g.le⟩, rfl, rfl, rfl, rfl⟩

theorem sens_setHyper_step {depth : ℕ} {w : SWorld} (h : w.WF) : w.Step (w.setHyper depth).1 := by
  unfold SWorld.setHyper
  simp only
  have g := (getVector_change (depth := depth) h.st w.o.hyperPar).grow
  split
  · exact .store g
  · rename_i y hy
    exact ⟨g, fun h => ⟨g.wf h.st, g.alive h.input, getVector_alive h.st hy, g.alive h.output, h.hess.mono g.le,
      h.sens.mono g.le⟩, rfl, rfl, rfl, rfl⟩

theorem sens_setCross_step {depth : ℕ} {w : SWorld} (h : w.WF) : w.Step (w.setCross depth).1 := by
  unfold SWorld.setCross
  simp only
  have g : Store.Grow w.st (w.joint.hessian12 depth w.st w.o.optInput w.o.optHyper true false ()).1 :=
    twoCache_grow w.joint _ _ _ _ _ h.input h.hyper
  split
  · exact .store g
  · exact ⟨g, fun h => ⟨g.wf h.st, g.alive h.input, g.alive h.hyper, g.alive h.output, h.hess.mono g.le,
      h.sens.mono g.le⟩, rfl, rfl, rfl, rfl⟩

theorem sens_setOutput_step {depth : ℕ} {w : SWorld} (h : w.WF) : w.Step (w.setOutput depth).1 := by
  unfold SWorld.setOutput
  simp only
  have g := (getVector_change (depth := depth) h.st w.o.outputPar).grow
  split
  · exact .store g
  · rename_i y hy
    exact ⟨g, fun h => ⟨g.wf h.st, g.alive h.input, g.alive h.hyper, getVector_alive h.st hy, h.hess.mono g.le,
      h.sens.mono g.le⟩, rfl, rfl, rfl, rfl⟩

theorem sens_setSens_step (w : SWorld) : w.Step w.setSens.1 := by
  unfold SWorld.setSens
  split
  · exact .refl _
  · have g := alloc_grow w.st
    exact ⟨g _, fun h => ⟨(g _).wf h.st, (g _).alive h.input, (g _).alive h.hyper, (g _).alive h.output,
      h.hess.mono (g _).le, Mem.alloc_alive _ _⟩, rfl, rfl, rfl, rfl⟩

theorem setOptimal_step {depth : ℕ} {w : SWorld} (hw : w.WF) (ha : w.converter.Assigns depth) (x : Option (List ℕ))
    {hess : Option Ref} (hh : ∀ r, hess = some r → r.Alive w.st.mem) : w.Step (w.setOptimal depth x hess).1 := by
  unfold SWorld.setOptimal
  have s1 := sens_setInput_step (depth := depth) hw x
  refine thenDo_sstep s1 ?_
  have w1 := s1.wf hw
  have s2 := sens_setHess_step (depth := depth) w1 (hess := hess) fun r hr => (hh r hr).mono s1.grow.le
  refine thenDo_sstep s2 ?_
  have s12 := s1.trans s2
  have s3 := sens_setChol_step ((w.setInput depth x).1.setHess depth hess).1
  refine thenDo_sstep s3 ?_
  have s13 := s12.trans s3
  have s4 := sens_setDout_step (s13.wf hw) (s13.assigns ha)
  refine thenDo_sstep s4 ?_
  have s14 := s13.trans s4
  have s5 := sens_setHyper_step (depth := depth) (s14.wf hw)
  refine thenDo_sstep s5 ?_
  have s15 := s14.trans s5
  have s6 := sens_setCross_step (depth := depth) (s15.wf hw)
  refine thenDo_sstep s6 ?_
  have s16 := s15.trans s6
  exact thenDo_sstep (sens_setOutput_step (s16.wf hw)) (sens_setSens_step _)

theorem sens_predictInput_step (w : SWorld) (n : List ℕ) : w.Step (w.predictInput n).1 := by
  unfold SWorld.predictInput
  split
  · exact .refl _
  · exact .store (newVec_grow _ _)

theorem sens_predictInput_object (w : SWorld) (n : List ℕ) : (w.predictInput n).1.o = w.o := by
  unfold SWorld.predictInput
  split <;> rfl

theorem sens_predictInput_alive {w : SWorld} {n : List ℕ} {y : List ℕ} (h : (w.predictInput n).2 = .ok y) :
    ∀ k ∈ y, k < (w.predictInput n).1.st.mem.next := by
  unfold SWorld.predictInput at h ⊢
  split at h
  · cases h
  · cases h; exact newVec_alive _ _

theorem sens_predictOutput_step {depth : ℕ} {w : SWorld} (h : w.WF) (ha : w.converter.Assigns depth) (n : List ℕ)
    (linear : Bool) : w.Step (w.predictOutput depth n linear).1 := by
  unfold SWorld.predictOutput
  cases linear with
  | true =>
    simp only [if_true]
    split
    · exact .refl _
    · exact .store (newVec_grow _ _)
  | false =>
    simp only [Bool.false_eq_true, if_false]
    have s := sens_predictInput_step w n
    split
    · exact s
    · rename_i y hy
      exact .store (s.grow.trans (convert_grow ha (s.grow.wf h.st) true false (sens_predictInput_alive hy)))

theorem sens_predictOutput_object (depth : ℕ) (w : SWorld) (n : List ℕ) (linear : Bool) :
    (w.predictOutput depth n linear).1.o = w.o := by
  unfold SWorld.predictOutput
  split
  · split <;> rfl
  · simp only
    split
    · exact sens_predictInput_object w n
    · rfl

/-! ### Programs -/

theorem sevent_step {depth : ℕ} {w : SWorld} (h : w.WF) (ha : w.converter.Assigns depth) (e : SEvent) (ok : e.Ok depth w) :
    (e.run depth w).WF ∧ (e.run depth w).converter.Assigns depth ∧ w.st.mem.next ≤ (e.run depth w).st.mem.next := by
  cases e with
  | setOptimal x hess =>
    have := setOptimal_step h ha x ok.2
    exact ⟨this.wf h, this.assigns ha, this.grow.le.1⟩
  | predictInput n =>
    have := sens_predictInput_step w n
    exact ⟨this.wf h, this.assigns ha, this.grow.le.1⟩
  | predictOutput n linear =>
    have := sens_predictOutput_step h ha n linear
    exact ⟨this.wf h, this.assigns ha, this.grow.le.1⟩
  | other e =>
    have hn := pevent_next h.st e ok
    exact ⟨⟨pevent_wf h.st e ok, fun k hk => lt_of_lt_of_le (h.input k hk) hn, fun k hk => lt_of_lt_of_le (h.hyper k hk) hn,
      fun k hk => lt_of_lt_of_le (h.output k hk) hn, fun k hk => lt_of_lt_of_le (h.hess k hk) hn,
      fun k hk => lt_of_lt_of_le (h.sens k hk) hn⟩, ha, hn⟩

theorem sevent_cells {depth : ℕ} {w : SWorld} (h : w.WF) (ha : w.converter.Assigns depth) (e : SEvent)
    (ok : e.Ok depth w) {k : ℕ} (hk : k < w.st.mem.next) (hw : k ∉ e.writes) :
    (e.run depth w).st.mem.cell k = w.st.mem.cell k := by
  cases e with
  | setOptimal x hess => exact (setOptimal_step h ha x ok.2).grow.le.2 k hk
  | predictInput n => exact (sens_predictInput_step w n).grow.le.2 k hk
  | predictOutput n linear => exact (sens_predictOutput_step h ha n linear).grow.le.2 k hk
  | other e => exact pevent_cells h.st e ok hk fun a ha => by subst ha; exact hw

theorem sevent_object {depth : ℕ} {w : SWorld} {e : SEvent} (hr : ¬ e.Resets) : (e.run depth w).o = w.o := by
  cases e with
  | setOptimal x hess => exact absurd trivial hr
  | predictInput n => exact sens_predictInput_object w n
  | predictOutput n linear => exact sens_predictOutput_object depth w n linear
  | other e => rfl

theorem SWorld.blank_wf {st : Store} (h : st.WF) (objFn hyperFn : Param → Param → Py Arr) (i j k : ℕ)
    (conv : Store → Store × Py Unit) : SWorld.WF ⟨st, i, j, k, conv, objFn, hyperFn, [], [], [], ⟨[0, 0], []⟩,
      ⟨[0, 0], []⟩, ⟨[0, 0], []⟩, ⟨[0, 0], []⟩, ⟨[0, 0], []⟩⟩ :=
  ⟨h, by simp, by simp, by simp, by simp [Ref.Alive], by simp [Ref.Alive]⟩

theorem SReached.wf {depth : ℕ} {w : SWorld} (h : SReached depth w) : w.WF ∧ w.converter.Assigns depth := by
  induction h with
  | start h objFn i j k conv x hess hyperFn hc hx hh ok =>
    have hb := SWorld.blank_wf h.wf objFn (hyperFn.getD objFn) i j k conv
    have := setOptimal_step (depth := depth) hb hc x hh
    exact ⟨this.wf hb, this.assigns hc⟩
  | step h e ok ih =>
    have := sevent_step ih.1 ih.2 e ok
    exact ⟨this.1, this.2.1⟩

/-! ### Predictions -/

theorem inputAt_eq {w : SWorld} (h : w.WF) (y : List ℝ) :
    w.inputAt y = (do
      let d ← vsub y (w.st.mem.vals w.o.optHyper)
      vadd (w.st.mem.vals w.o.optInput) (← (w.st.mem.read w.o.sens).mulVec d)) := by
  have g := newVec_grow w.st y
  unfold SWorld.inputAt SWorld.predictInput
  simp only [newVec_vals, g.le.vals h.hyper, g.le.vals h.input, g.le.read h.sens]
  cases (do
      let d ← vsub y (w.st.mem.vals w.o.optHyper)
      vadd (w.st.mem.vals w.o.optInput) (← (w.st.mem.read w.o.sens).mulVec d)) with
  | error e => rfl
  | ok v => exact congrArg Except.ok (newVec_vals _ _)

theorem outputAt_eq {depth : ℕ} {w : SWorld} (h : w.WF) (y : List ℝ) :
    w.outputAt depth y = (do
      let d ← vsub y (w.st.mem.vals w.o.optHyper)
      vadd (w.st.mem.vals w.o.optOutput) (← (← w.o.doutDin.matmul (w.st.mem.read w.o.sens)).mulVec d)) := by
  have g := newVec_grow w.st y
  unfold SWorld.outputAt SWorld.predictOutput
  simp only [if_true, newVec_vals, g.le.vals h.hyper, g.le.vals h.output, g.le.read h.sens]
  cases (do
      let d ← vsub y (w.st.mem.vals w.o.optHyper)
      vadd (w.st.mem.vals w.o.optOutput) (← (← w.o.doutDin.matmul (w.st.mem.read w.o.sens)).mulVec d)) with
  | error e => rfl
  | ok v => exact congrArg Except.ok (newVec_vals _ _)

theorem sens_predict_congr {depth : ℕ} {w w' : SWorld} (h : w.WF) (h' : w'.WF) (ho : w'.o = w.o)
    (hc : ∀ k ∈ w.cells, w'.st.mem.cell k = w.st.mem.cell k) (y : List ℝ) :
    w'.inputAt y = w.inputAt y ∧ w'.outputAt depth y = w.outputAt depth y := by
  have hv : ∀ x : List ℕ, (∀ k ∈ x, k ∈ w.cells) →
      w'.st.mem.vals x = w.st.mem.vals x := fun x hx => List.map_congr_left fun k hk => hc k (hx k hk)
  have h1 := hv w.o.optInput (by simp +contextual [SWorld.cells])
  have h2 := hv w.o.optHyper (by simp +contextual [SWorld.cells])
  have h3 := hv w.o.optOutput (by simp +contextual [SWorld.cells])
  have h4 : w'.st.mem.read w.o.sens = w.st.mem.read w.o.sens := by
    unfold Mem.read
    rw [hv w.o.sens.addr (by simp +contextual [SWorld.cells])]
  rw [inputAt_eq h, inputAt_eq h', outputAt_eq h, outputAt_eq h', ho, h1, h2, h3, h4]
  exact ⟨rfl, rfl⟩

theorem runS_predict {depth : ℕ} {y : List ℝ} : ∀ (es : List SEvent) {w : SWorld} (_ : w.WF)
    (_ : w.converter.Assigns depth) (_ : okS depth w es) (_ : ∀ e ∈ es, ¬ e.Resets)
    (_ : ∀ e ∈ es, ∀ k ∈ e.writes, k ∉ w.cells),
    (runS depth w es).inputAt y = w.inputAt y ∧ (runS depth w es).outputAt depth y = w.outputAt depth y
  | [], _, _, _, _, _, _ => ⟨rfl, rfl⟩
  | e :: es, w, h, ha, ok, hr, hw => by
    obtain ⟨h1, ha1, -⟩ := sevent_step h ha e ok.1
    have ho : (e.run depth w).o = w.o := sevent_object (hr e (by simp))
    have hcells : (e.run depth w).cells = w.cells := by unfold SWorld.cells; rw [ho]
    have ih := runS_predict es (w := e.run depth w) (y := y) h1 ha1 ok.2 (fun e' he' => hr e' (List.mem_cons_of_mem _ he'))
      (by rw [hcells]; exact fun e' he' => hw e' (List.mem_cons_of_mem _ he'))
    rw [runS, ih.1, ih.2]
    refine sens_predict_congr h h1 ho (fun k hk => ?_) y
    refine sevent_cells h ha e ok.1 ?_ fun hk' => hw e (by simp) k hk' hk
    simp only [SWorld.cells, List.mem_append] at hk
    rcases hk with ((hk | hk) | hk) | hk
    · exact h.input k hk
    · exact h.hyper k hk
    · exact h.output k hk
    · exact h.sens k hk

/-! ### Which arrays the object has -/

theorem getFree_cells {depth : ℕ} {st : Store} {i : ℕ} {y : List ℕ} (h : (st.getFree depth i).2 = .ok y) :
    ∀ k ∈ y, st.mem.next ≤ k := by
  obtain ⟨v, -, -, rfl⟩ := store_getFree_new h
  exact Mem.alloc_new _ _

/-- `get_vector` of a dictionary makes a new array. -/
theorem getVector_dict {depth : ℕ} {st : Store} {i : ℕ} {y : List ℕ} {hd : Hdr} {es : List (String × ℕ)}
    (hi : st.objs[i]? = some (.dict hd es)) (h : (st.getVector depth i).2 = .ok y) : ∀ k ∈ y, st.mem.next ≤ k := by
  unfold Store.getVector at h
  cases depth with
  | zero => cases h
  | succ d =>
    rw [hi] at h
    simp only at h
    split at h
    · cases h; exact Mem.alloc_new _ _
    · cases h

/-- `get_vector` of a `VectorParam` is the array it holds. -/
theorem getVector_leaf {depth : ℕ} {st : Store} {i : ℕ} {y : List ℕ} {l : HLeaf} {n : ℕ} {lb ub : Flt}
    (hl : st.objs[i]? = some (.leaf l)) (hk : l.kind = .vector n lb ub) (h : (st.getVector depth i).2 = .ok y) :
    y = l.ref.addr ∧ (st.getVector depth i).1 = st := by
  unfold Store.getVector at h ⊢
  cases depth with
  | zero => cases h
  | succ d =>
    rw [hl] at h ⊢
    simp only [HLeaf.getVector, hk] at h ⊢
    cases hv : (l.view st.mem).getVector with
    | error e => rw [hv] at h; cases h
    | ok v => rw [hv] at h; cases h; exact ⟨rfl, rfl⟩

theorem sens_setInput_ok {depth : ℕ} {w : SWorld} {x : Option (List ℕ)} (ok : (w.setInput depth x).2 = .ok ()) :
    ∀ k ∈ (w.setInput depth x).1.o.optInput, w.st.mem.next ≤ k := by
  unfold SWorld.setInput at ok ⊢
  cases x with
  | some x => exact Mem.alloc_new _ _
  | none =>
    simp only at ok ⊢
    cases hr : (w.st.getFree depth w.o.inputPar).2 with
    | error e => rw [hr] at ok; cases ok
    | ok y => exact getFree_cells hr

theorem sens_setHess_keeps (depth : ℕ) (w : SWorld) (hess : Option Ref) :
    (w.setHess depth hess).1.o.optInput = w.o.optInput := by
  unfold SWorld.setHess
  cases hess with
  | some H => rfl
  | none => simp only; split <;> rfl

theorem sens_setChol_keeps (w : SWorld) : w.setChol.1.o.optInput = w.o.optInput := by
  unfold SWorld.setChol
  split <;> rfl

theorem sens_setDout_keeps (depth : ℕ) (w : SWorld) : (w.setDout depth).1.o.optInput = w.o.optInput := by
  unfold SWorld.setDout
  simp only
  split <;> rfl

theorem sens_setHyper_ok {depth : ℕ} {w : SWorld} (ok : (w.setHyper depth).2 = .ok ()) :
    (w.setHyper depth).1.o.optInput = w.o.optInput ∧
      (w.st.getVector depth w.o.hyperPar).2 = .ok (w.setHyper depth).1.o.optHyper ∧
      (w.setHyper depth).1.st = (w.st.getVector depth w.o.hyperPar).1 := by
  unfold SWorld.setHyper at ok ⊢
  simp only at ok ⊢
  cases hr : (w.st.getVector depth w.o.hyperPar).2 with
  | error e => rw [hr] at ok; cases ok
  | ok y => exact ⟨rfl, rfl, rfl⟩

theorem sens_setOutput_ok {depth : ℕ} {w : SWorld} (ok : (w.setOutput depth).2 = .ok ()) :
    (w.setOutput depth).1.o.optInput = w.o.optInput ∧ (w.setOutput depth).1.o.optHyper = w.o.optHyper ∧
      (w.st.getVector depth w.o.outputPar).2 = .ok (w.setOutput depth).1.o.optOutput ∧
      (w.setOutput depth).1.st = (w.st.getVector depth w.o.outputPar).1 := by
  unfold SWorld.setOutput at ok ⊢
  simp only at ok ⊢
  cases hr : (w.st.getVector depth w.o.outputPar).2 with
  | error e => rw [hr] at ok; cases ok
  | ok y => exact ⟨rfl, rfl, rfl, rfl⟩

theorem sens_setCross_ok {depth : ℕ} {w : SWorld} (hw : w.WF) (ok : (w.setCross depth).2 = .ok ()) :
    (w.setCross depth).1.o.optInput = w.o.optInput ∧ (w.setCross depth).1.o.optHyper = w.o.optHyper ∧
    ∃ st : Store, Store.Grow w.st st ∧ (w.setCross depth).1.st = (st.setPar depth w.o.hyperPar w.o.optHyper false).1 ∧
      (st.setPar depth w.o.hyperPar w.o.optHyper false).2 = .ok () := by
  have hq : (w.lin.setCross depth).2 = (w.setCross depth).2 ∧ (w.lin.setCross depth).1.st = (w.setCross depth).1.st ∧
      (w.setCross depth).1.o.optInput = w.o.optInput ∧ (w.setCross depth).1.o.optHyper = w.o.optHyper := by
    unfold LWorld.setCross SWorld.setCross
    change (match (w.joint.hessian12 depth w.st w.o.optInput w.o.optHyper true false ()).2 with
      | .error e => _ | .ok C => _ : LWorld × Py Unit).2 = _ ∧ (match (w.joint.hessian12 depth w.st w.o.optInput w.o.optHyper true false ()).2 with
      | .error e => _ | .ok C => _ : LWorld × Py Unit).1.st = _ ∧ _
    simp only
    cases (w.joint.hessian12 depth w.st w.o.optInput w.o.optHyper true false ()).2 <;> exact ⟨rfl, rfl, rfl, rfl⟩
  obtain ⟨st, h1, h2, h3, -⟩ := setCross_last (depth := depth) hw.lin (by rw [hq.1]; exact ok)
  rw [hq.2.1] at h2
  exact ⟨hq.2.2.1, hq.2.2.2, st, h1, h2, h3⟩

theorem sens_setSens_ok {w : SWorld} (ok : w.setSens.2 = .ok ()) :
    w.setSens.1.o.optInput = w.o.optInput ∧ w.setSens.1.o.optHyper = w.o.optHyper ∧
      w.setSens.1.o.optOutput = w.o.optOutput ∧ (∀ k ∈ w.setSens.1.o.sens.addr, w.st.mem.next ≤ k) ∧
      w.setSens.1.st.objs = w.st.objs := by
  unfold SWorld.setSens at ok ⊢
  cases r : choSolve w.o.chol w.o.cross with
  | error e => rw [r] at ok; cases ok
  | ok X => exact ⟨rfl, rfl, rfl, Mem.alloc_new _ _, rfl⟩

theorem Store.Skel.vector {st st' : Store} (h : st.Skel st') {i : ℕ} {l : HLeaf} {n : ℕ} {lb ub : Flt}
    (hl : st.objs[i]? = some (.leaf l)) (hk : l.kind = .vector n lb ub) :
    ∃ l', st'.objs[i]? = some (.leaf l') ∧ l'.kind = .vector n lb ub := by
  obtain ⟨l', h1, -, h3⟩ := h.leaf hl
  exact ⟨l', h1, h3.trans hk⟩

theorem get_objs {st st' : Store} (h : st'.objs = st.objs) (i : ℕ) : st'.get i = st.get i := by
  unfold Store.get; rw [h]

/-- What the arrays of the object are after `set_optimal_input_par` has returned. -/
theorem setOptimal_arrays {d : ℕ} {w : SWorld} (hw : w.WF) (ha : w.converter.Assigns (d + 1)) {x : Option (List ℕ)}
    {hess : Option Ref} (hh : ∀ r, hess = some r → r.Alive w.st.mem) (ok : (w.setOptimal (d + 1) x hess).2 = .ok ()) :
    let w' := (w.setOptimal (d + 1) x hess).1
    (∀ k ∈ w'.o.optInput ++ w'.o.sens.addr, w.st.mem.next ≤ k) ∧
    (∀ hd es, w.st.objs[w.o.hyperPar]? = some (.dict hd es) → ∀ k ∈ w'.o.optHyper, w.st.mem.next ≤ k) ∧
    (∀ hd es, w.st.objs[w.o.outputPar]? = some (.dict hd es) → ∀ k ∈ w'.o.optOutput, w.st.mem.next ≤ k) ∧
    (∀ l n lb ub, w.st.objs[w.o.hyperPar]? = some (.leaf l) → l.kind = .vector n lb ub →
      w'.st.get w.o.hyperPar = .ok (Ref.vec w'.o.optHyper)) ∧
    (∀ l n lb ub, w.st.objs[w.o.outputPar]? = some (.leaf l) → l.kind = .vector n lb ub →
      ∃ r, w'.st.get w.o.outputPar = .ok r ∧ r.addr = w'.o.optOutput) := by
  intro w'
  have hw' : w' = (w.setOptimal (d + 1) x hess).1 := rfl
  clear_value w'
  unfold SWorld.setOptimal at ok hw'
  have s1 := sens_setInput_step (depth := d + 1) hw x
  obtain ⟨o1, e1⟩ := thenDo_ok ok
  rw [e1] at ok hw'
  have i1 := sens_setInput_ok o1
  have s2 := s1.trans (sens_setHess_step (depth := d + 1) (s1.wf hw) (hess := hess) fun r hr => (hh r hr).mono s1.grow.le)
  obtain ⟨o2, e2⟩ := thenDo_ok ok
  rw [e2] at ok hw'
  have i2 := sens_setHess_keeps (d + 1) (w.setInput (d + 1) x).1 hess
  have s3 := s2.trans (sens_setChol_step _)
  obtain ⟨o3, e3⟩ := thenDo_ok ok
  rw [e3] at ok hw'
  have i3 := sens_setChol_keeps ((w.setInput (d + 1) x).1.setHess (d + 1) hess).1
  generalize ((w.setInput (d + 1) x).1.setHess (d + 1) hess).1.setChol.1 = w3 at *
  have s4 := s3.trans (sens_setDout_step (s3.wf hw) (s3.assigns ha))
  obtain ⟨o4, e4⟩ := thenDo_ok ok
  rw [e4] at ok hw'
  have i4 := sens_setDout_keeps (d + 1) w3
  generalize (w3.setDout (d + 1)).1 = w4 at *
  have s5 := s4.trans (sens_setHyper_step (depth := d + 1) (s4.wf hw))
  obtain ⟨o5, e5⟩ := thenDo_ok ok
  rw [e5] at ok hw'
  obtain ⟨i5, g5, -⟩ := sens_setHyper_ok o5
  generalize (w4.setHyper (d + 1)).1 = w5 at *
  have s6 := s5.trans (sens_setCross_step (depth := d + 1) (s5.wf hw))
  obtain ⟨o6, e6⟩ := thenDo_ok ok
  rw [e6] at ok hw'
  obtain ⟨i6, h6, st, g6, p6, q6⟩ := sens_setCross_ok (s5.wf hw) o6
  generalize (w5.setCross (d + 1)).1 = w6 at *
  have s7 := s6.trans (sens_setOutput_step (depth := d + 1) (s6.wf hw))
  obtain ⟨o7, e7⟩ := thenDo_ok ok
  rw [e7] at ok hw'
  obtain ⟨i7, h7, g7, p7⟩ := sens_setOutput_ok o7
  have c7 := getVector_change (depth := d + 1) (s6.wf hw).st w6.o.outputPar
  generalize (w6.setOutput (d + 1)).1 = w7 at *
  obtain ⟨i8, h8, q8, n8, p8⟩ := sens_setSens_ok ok
  rw [← hw'] at i8 h8 q8 n8 p8
  refine ⟨fun k hk => ?_, fun hd es hi => ?_, fun hd es hi => ?_, fun l n lb ub hl hk => ?_, fun l n lb ub hl hk => ?_⟩
  · rcases List.mem_append.1 hk with hk | hk
    · rw [i8, i7, i6, i5, i4, i3, i2] at hk
      exact i1 k hk
    · exact s7.grow.le.1.trans (n8 k hk)
  · rw [h8, h7, h6]
    rw [s4.hyperPar] at g5
    exact fun k hk => s4.grow.le.1.trans (getVector_dict (s4.grow.skel.dict hi) g5 k hk)
  · rw [q8]
    rw [s6.outputPar] at g7
    exact fun k hk => s6.grow.le.1.trans (getVector_dict (s6.grow.skel.dict hi) g7 k hk)
  · rw [h8, h7, h6]
    obtain ⟨l', hl', hk'⟩ := (s5.grow.trans g6).skel.vector hl hk
    rw [s5.hyperPar] at p6 q6
    have := setPar_vector_ref hl' hk' q6
    rw [get_objs p8, p7]
    unfold Store.get at this ⊢
    rw [c7.other _ (by simp), p6]
    exact this
  · rw [q8]
    obtain ⟨l', hl', hk'⟩ := s6.grow.skel.vector hl hk
    rw [s6.outputPar] at g7 p7
    obtain ⟨k1, k2⟩ := getVector_leaf hl' hk' g7
    refine ⟨l'.ref, ?_, k1.symm⟩
    rw [get_objs p8, p7, k2]
    simp [Store.get, hl', HLeaf.get]

end

end LRVB
