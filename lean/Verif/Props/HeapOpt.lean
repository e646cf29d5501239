import Verif.Lemmas.HeapOpt
import Verif.Props.HeapObj
import Verif.Props.Repeated

/-!
# C132-C133: optimization with references
-/

namespace LRVB

open Classical Flt

noncomputable section

/-! ### Specification -/

/-- Both raise the same exception, or both return, and the results are related. -/
inductive Agree {α β : Type} (P : α → β → Prop) : Py α → Py β → Prop
  | error (e : PyErr) : Agree P (.error e) (.error e)
  | ok {a : α} {b : β} : P a b → Agree P (.ok a) (.ok b)

/-- An optimization result and its value. -/
def HOptResult.Shows (m : Mem) (r : HOptResult) (r' : OptResult) : Prop :=
  (∀ k ∈ r.x, k < m.next) ∧ m.vals r.x = r'.x ∧ r.value = r'.value ∧ r.jac = r'.jac

/-! ### C132 -/

private theorem startMin_gets {depth : ℕ} {w : World Unit} {v : Objective Unit} (h : Stands depth w v)
    (printEvery : Option ℕ) (initLogger : Bool) :
    Gets depth w (w.startMin printEvery initLogger) (startObj v printEvery initLogger) := by
  have h1 : Gets depth w (if initLogger then w.initLogger else w)
      (if initLogger then { v with logger := v.logger.reset } else v) := by
    cases initLogger with
    | false => exact h.refl
    | true => exact gets_call h .initLogger (by simp [OCall.args])
  unfold World.startMin startObj
  simp only
  cases printEvery with
  | none => exact h1
  | some k =>
    simp only
    generalize (if initLogger then w.initLogger else w) = w1 at h1
    generalize (if initLogger then { v with logger := v.logger.reset } else v) = v1 at h1
    have h2 := h1.view
    obtain ⟨p, hp, rfl⟩ := world_view h2
    refine ⟨⟨h1.step.le, h1.step.skel, ⟨h1.step.wf.st, h1.step.wf.lastX, h1.step.wf.x, h1.step.wf.xArray,
      h1.step.wf.precond⟩, h1.step.par, h1.step.fn, h1.step.precond⟩, ?_⟩
    unfold World.view
    simp only [hp, Option.map_some]
    rfl

/-- What a minimization does, with references and without. -/
theorem minimize_sim {depth : ℕ} {w : World Unit} {v : Objective Unit} (h : Stands depth w v) (useHvp : Bool)
    (opt : List ℝ → Optimizer) {initX : List ℕ} (hx : ∀ k ∈ initX, k < w.st.mem.next)
    (precondition disp : Bool) (printEvery : Option ℕ) (initLogger : Bool) :
    Gets depth w (w.minimize depth useHvp opt initX precondition disp printEvery initLogger).1
        (minimizeObjective useHvp opt v (w.st.mem.vals initX) precondition disp printEvery initLogger).1 ∧
      Agree (fun a b =>
          (∀ k ∈ a.1, w.st.mem.next ≤ k ∧
            k < (w.minimize depth useHvp opt initX precondition disp printEvery initLogger).1.st.mem.next) ∧
          (w.minimize depth useHvp opt initX precondition disp printEvery initLogger).1.st.mem.vals a.1 = b.1 ∧
          a.2.Shows (w.minimize depth useHvp opt initX precondition disp printEvery initLogger).1.st.mem b.2)
        (w.minimize depth useHvp opt initX precondition disp printEvery initLogger).2
        (minimizeObjective useHvp opt v (w.st.mem.vals initX) precondition disp printEvery initLogger).2 := by
  have g0 := startMin_gets h printEvery initLogger
  have s0 := h.gets g0
  have hx0 : (w.startMin printEvery initLogger).st.mem.vals initX = w.st.mem.vals initX := g0.step.le.vals hx
  cases precondition with
  | false =>
    rw [minimize_plain]
    simp only [World.minimize, Bool.false_eq_true, if_false, hx0]
    obtain ⟨g1, g2⟩ := runHeap_sim (depth := depth) (fn := fun w x => w.funFree depth x () disp)
      (jac := fun w x => w.grad depth true x ())
      (hessp := if useHvp then some fun w x v => w.hvp depth true x () v else none)
      (fnV := fun o x => o.funFree x () disp) (jacV := fun o x => o.funFreeGrad x ())
      (hesspV := if useHvp then some fun o x v => o.funFreeHvp x () v else none)
      (fun w v x hs hx => gets_funFree hs hx disp) (fun w v x hs hx => gets_grad hs hx)
      (by
        cases useHvp with
        | false => exact Or.inl ⟨rfl, rfl⟩
        | true => exact Or.inr ⟨_, _, rfl, rfl, fun w v x y hs hx hy => gets_hvp hs hx hy⟩)
      (opt (w.st.mem.vals initX)) s0
    rw [g2]
    generalize (opt (w.st.mem.vals initX)).run _ _ _ _ = q at g1 g2 ⊢
    generalize (opt (w.st.mem.vals initX)).runHeap _ _ _ _ = r at g1 g2 ⊢
    obtain ⟨q1, q2⟩ := q
    cases q2 with
    | error e => exact ⟨g0.trans g1, .error e⟩
    | ok res =>
      simp only
      have s1 := s0.gets g1
      have g3 := s1.newVec res.x
      have hv : (r.1.st.newVec res.x).1.mem.vals (r.1.st.newVec res.x).2 = res.x := newVec_vals _ _
      have hal := newVec_alive r.1.st res.x
      refine ⟨(g0.trans g1).trans g3, .ok ⟨fun k hk => ⟨?_, hal k hk⟩, hv, hal, hv, rfl, rfl⟩⟩
      exact (g0.trans g1).step.le.1.trans (Mem.alloc_new _ _ k hk)
  | true =>
    rw [minimize_cond]
    simp only [World.minimize, if_true, hx0]
    cases hp : (w.startMin printEvery initLogger).o.precond with
    | none =>
      rw [precond_none s0.view hp]
      exact ⟨g0, .error _⟩
    | some P =>
      rw [precond_some s0.view hp]
      simp only
      cases hsol : npSolve ((w.startMin printEvery initLogger).st.mem.read P) (w.st.mem.vals initX) with
      | error e => exact ⟨g0, .error _⟩
      | ok x0 =>
        simp only
        obtain ⟨g1, g2⟩ := runHeap_sim (depth := depth) (fn := fun w x => w.funFreeCond depth x () disp)
          (jac := fun w x => w.gradCond depth x ())
          (hessp := if useHvp then some fun w x v => w.hvpCond depth x () v else none)
          (fnV := fun o x => o.funFreeCond x () disp) (jacV := fun o x => o.funFreeGradCond x ())
          (hesspV := if useHvp then some fun o x v => o.funFreeHvpCond x () v else none)
          (fun w v x hs hx => gets_funFreeCond hs hx disp) (fun w v x hs hx => gets_gradCond hs hx)
          (by
            cases useHvp with
            | false => exact Or.inl ⟨rfl, rfl⟩
            | true => exact Or.inr ⟨_, _, rfl, rfl, fun w v x y hs hx hy => gets_hvpCond hs hx hy⟩)
          (opt x0) s0
        rw [g2]
        generalize (opt x0).run _ _ _ _ = q at g1 g2 ⊢
        generalize (opt x0).runHeap _ _ _ _ = r at g1 g2 ⊢
        obtain ⟨q1, q2⟩ := q
        cases q2 with
        | error e => exact ⟨g0.trans g1, .error e⟩
        | ok res =>
          simp only at g1 ⊢
          have s1 := s0.gets g1
          have g3 := s1.newVec res.x
          have s3 := s1.gets g3
          have hv : (r.1.st.newVec res.x).1.mem.vals (r.1.st.newVec res.x).2 = res.x := newVec_vals _ _
          have hP : r.1.o.precond = some P := g1.step.precond.trans hp
          unfold Objective.unconditionX
          rw [hP, precond_some s3.view hP, hv]
          simp only
          cases hm : ((r.1.st.newVec res.x).1.mem.read P).mulVec res.x with
          | error e => exact ⟨(g0.trans g1).trans g3, .error e⟩
          | ok y =>
            simp only
            have g4 := s3.newVec y
            have hal := newVec_alive r.1.st res.x
            have hal2 := newVec_alive (r.1.st.newVec res.x).1 y
            refine ⟨((g0.trans g1).trans g3).trans g4, .ok ⟨fun k hk => ⟨?_, hal2 k hk⟩, newVec_vals _ _,
              fun k hk => lt_of_lt_of_le (hal k hk) g4.step.le.1, (g4.step.le.vals hal).trans hv, rfl, rfl⟩⟩
            exact ((g0.trans g1).trans g3).step.le.1.trans (Mem.alloc_new _ _ k hk)

private theorem OReached.stands {depth : ℕ} {w : World Unit} (h : OReached depth w) {v : Objective Unit}
    (hv : w.view depth = some v) (hn : (w.st.foot depth w.o.par).Nodup) : Stands depth w v := ⟨h.wf, hv, hn⟩

/-- **C132** (nothing is written) A minimization, whether it returns or raises, changes no array that
existed before: neither the starting point nor the preconditioner nor any other. -/
theorem C132_arrays_unchanged {depth : ℕ} {w : World Unit} (h : OReached depth w) {v : Objective Unit}
    (hv : w.view depth = some v) (hn : (w.st.foot depth w.o.par).Nodup) (useHvp : Bool)
    (opt : List ℝ → Optimizer) {initX : List ℕ} (hx : (Ref.vec initX).Alive w.st.mem)
    (precondition disp : Bool) (printEvery : Option ℕ) (initLogger : Bool) (r : Ref) (hr : r.Alive w.st.mem) :
    (w.minimize depth useHvp opt initX precondition disp printEvery initLogger).1.st.mem.read r =
      w.st.mem.read r :=
  (minimize_sim (h.stands hv hn) useHvp opt hx precondition disp printEvery initLogger).1.step.le.read hr

/-- **C132** (the same as without references) A minimization from an array raises the same exception, or
returns the same point and the same result, as one from the numbers in the array, and it leaves the
objective with the same parameter value and the same logger.  So C66, C89 and C127 hold for it. -/
theorem C132_minimize {depth : ℕ} {w : World Unit} (h : OReached depth w) {v : Objective Unit}
    (hv : w.view depth = some v) (hn : (w.st.foot depth w.o.par).Nodup) (useHvp : Bool)
    (opt : List ℝ → Optimizer) {initX : List ℕ} (hx : (Ref.vec initX).Alive w.st.mem)
    (precondition disp : Bool) (printEvery : Option ℕ) (initLogger : Bool) :
    let r := w.minimize depth useHvp opt initX precondition disp printEvery initLogger
    let q := minimizeObjective useHvp opt v (w.st.mem.vals initX) precondition disp printEvery initLogger
    r.1.view depth = some q.1 ∧
      Agree (fun a b => r.1.st.mem.vals a.1 = b.1 ∧ a.2.Shows r.1.st.mem b.2) r.2 q.2 := by
  obtain ⟨h1, h2⟩ := minimize_sim (h.stands hv hn) useHvp opt (initX := initX) hx precondition disp printEvery initLogger
  refine ⟨h1.view, ?_⟩
  generalize (minimizeObjective useHvp opt v (w.st.mem.vals initX) precondition disp printEvery initLogger).2 = b at h2 ⊢
  revert h2
  generalize (w.minimize depth useHvp opt initX precondition disp printEvery initLogger) = a
  obtain ⟨w', a⟩ := a
  intro h2
  cases h2 with
  | error e => exact .error e
  | ok h => exact .ok ⟨h.2.1, h.2.2⟩

/-- **C132** (a new array) The returned point is a new array: it has no cell in common with the starting
point, or with any other array that existed before. -/
theorem C132_new_array {depth : ℕ} {w : World Unit} (h : OReached depth w) {v : Objective Unit}
    (hv : w.view depth = some v) (hn : (w.st.foot depth w.o.par).Nodup) (useHvp : Bool)
    (opt : List ℝ → Optimizer) {initX : List ℕ} (hx : (Ref.vec initX).Alive w.st.mem)
    (precondition disp : Bool) (printEvery : Option ℕ) (initLogger : Bool) {w' : World Unit} {x : List ℕ}
    {res : HOptResult}
    (hm : w.minimize depth useHvp opt initX precondition disp printEvery initLogger = (w', .ok (x, res)))
    (r : Ref) (hr : r.Alive w.st.mem) : ∀ k ∈ r.addr, k ∉ x := by
  obtain ⟨-, h2⟩ := minimize_sim (h.stands hv hn) useHvp opt (initX := initX) hx precondition disp printEvery initLogger
  rw [hm] at h2
  simp only at h2
  generalize (minimizeObjective useHvp opt v (w.st.mem.vals initX) precondition disp printEvery initLogger).2 = b at h2
  cases h2 with
  | ok h =>
    intro k hk hkx
    have := (h.1 k hkx).1
    have := hr k hk
    omega

/-! ### C133 -/

/-- `f` does to arrays what `F` does to their contents: it changes no array that existed before, the
array it returns exists and has the contents `F` returns, and the results are related. -/
def ActsLike {σ R R' : Type} (depth : ℕ) (rel : Mem → R → R' → Prop) (f : HOptFun σ R) (F : OptFun σ R') : Prop :=
  ∀ s w v x, Stands depth w v → (∀ k ∈ x, k < w.st.mem.next) →
    Gets depth w (f s w x).2.1 (F s v (w.st.mem.vals x)).2.1 ∧
    (f s w x).1 = (F s v (w.st.mem.vals x)).1 ∧
    Agree (fun a b => (∀ k ∈ a.1, k < (f s w x).2.1.st.mem.next) ∧
      (f s w x).2.1.st.mem.vals a.1 = b.1 ∧ rel (f s w x).2.1.st.mem a.2 b.2)
      (f s w x).2.2 (F s v (w.st.mem.vals x)).2.2

/-- What related variables of the two loops hold. -/
private structure RepRel {σ R R' : Type} (depth : ℕ) (rel : Mem → R → R' → Prop) (s : HRepState σ R)
    (t : RepState σ R') : Prop where
  env : s.env = t.env
  stands : Stands depth s.w t.obj
  alive : ∀ k ∈ s.x, k < s.w.st.mem.next
  x : s.w.st.mem.vals s.x = t.x
  fVal : s.fVal = t.fVal
  converged : s.converged = t.converged
  last : Option.Rel (fun a b => a.1 = b.1 ∧ a.2.1 = b.2.1 ∧ a.2.2.1 = b.2.2.1 ∧ rel s.w.st.mem a.2.2.2 b.2.2.2)
    s.last t.last
  results : List.Forall₂ (rel s.w.st.mem) s.optResults t.optResults

private theorem repStep_sim {σ R R' : Type} {depth : ℕ} {rel : Mem → R → R' → Prop}
    (mono : ∀ m m' r r', m.Le m' → rel m r r' → rel m' r r') {f : HOptFun σ R} {F : OptFun σ R'}
    (hf : ActsLike depth rel f F) (gtol ftol xtol : ℝ) (keep : Bool) {s : HRepState σ R} {t : RepState σ R'}
    (h : RepRel depth rel s t) :
    Gets depth s.w (hRepStep depth f gtol ftol xtol keep s).2.1 (repStep F gtol ftol xtol keep t).2.1 ∧
      (hRepStep depth f gtol ftol xtol keep s).1 = (repStep F gtol ftol xtol keep t).1 ∧
      Agree (fun a b => RepRel depth rel a b ∧ a.w = (hRepStep depth f gtol ftol xtol keep s).2.1)
        (hRepStep depth f gtol ftol xtol keep s).2.2 (repStep F gtol ftol xtol keep t).2.2 := by
  obtain ⟨g1, g2, g3⟩ := hf s.env s.w t.obj s.x h.stands h.alive
  rw [h.x] at g1 g2 g3
  rw [h.env] at g1 g2 g3
  unfold hRepStep repStep
  rw [h.env]
  revert g1 g2 g3
  generalize f t.env s.w s.x = a
  generalize F t.env t.obj t.x = b
  obtain ⟨e1, w1, a⟩ := a
  obtain ⟨e2, o1, b⟩ := b
  intro g1 g2 g3
  simp only at g1 g2 g3
  subst g2
  cases g3 with
  | error e => exact ⟨g1, rfl, .error e⟩
  | @ok a b hab =>
    obtain ⟨y, r⟩ := a
    obtain ⟨y', r'⟩ := b
    obtain ⟨hal, hvy, hr⟩ := hab
    simp only at hal hvy hr ⊢
    have s1 := h.stands.gets g1
    obtain ⟨g4, e4⟩ := gets_funFree s1 hal false
    rw [hvy] at g4 e4
    rw [e4]
    cases (do scalarOf (← (o1.funFree y' () false).2)) with
    | error e => exact ⟨g1.trans g4, rfl, .error e⟩
    | ok newF =>
      simp only
      have s2 := s1.gets g4
      have hal2 : ∀ k ∈ y, k < (w1.funFree depth y () false).1.st.mem.next :=
        fun k hk => lt_of_lt_of_le (hal k hk) g4.step.le.1
      have hvy2 := (g4.step.le.vals hal).trans hvy
      obtain ⟨g5, e5⟩ := gets_grad s2 hal2
      rw [hvy2] at g5 e5
      rw [e5]
      cases ((o1.funFree y' () false).1.funFreeGrad y' ()).2 with
      | error e => exact ⟨(g1.trans g4).trans g5, rfl, .error e⟩
      | ok g =>
        simp only
        have g6 := (g1.trans g4).trans g5
        have hvy3 := (g5.step.le.vals hal2).trans hvy2
        have hvx := (g6.step.le.vals h.alive).trans h.x
        rw [hvy3, hvx]
        cases vsub y' t.x with
        | error e => exact ⟨g6, rfl, .error e⟩
        | ok dx =>
          simp only
          have hr2 := mono _ _ _ _ (g4.step.le.trans g5.step.le) hr
          refine ⟨g6, trivial, .ok ⟨⟨rfl, h.stands.gets g6, fun k hk => lt_of_lt_of_le (hal2 k hk) g5.step.le.1, hvy3,
            rfl, ?_, .some ⟨rfl, ?_, rfl, hr2⟩, ?_⟩, rfl⟩⟩
          · simp only [h.fVal]
          · simp only [h.fVal]
          · have hres := h.results.imp fun a b hab => mono _ _ _ _ g6.step.le hab
            cases keep with
            | false => exact hres
            | true => exact List.rel_append hres (.cons hr2 .nil)

private theorem repLoop_sim {σ R R' : Type} {depth : ℕ} {rel : Mem → R → R' → Prop}
    (mono : ∀ m m' r r', m.Le m' → rel m r r' → rel m' r r') {f : HOptFun σ R} {F : OptFun σ R'}
    (hf : ActsLike depth rel f F) (gtol ftol xtol : ℝ) (keep : Bool) :
    ∀ (n : ℕ) {s : HRepState σ R} {t : RepState σ R'}, RepRel depth rel s t →
    Gets depth s.w (hRepLoop depth f gtol ftol xtol keep n s).2.1 (repLoop F gtol ftol xtol keep n t).2.1 ∧
      (hRepLoop depth f gtol ftol xtol keep n s).1 = (repLoop F gtol ftol xtol keep n t).1 ∧
      Agree (fun a b => RepRel depth rel a b ∧ a.w = (hRepLoop depth f gtol ftol xtol keep n s).2.1)
        (hRepLoop depth f gtol ftol xtol keep n s).2.2 (repLoop F gtol ftol xtol keep n t).2.2
  | 0, s, t, h => ⟨h.stands.refl, h.env, .ok ⟨h, rfl⟩⟩
  | n + 1, s, t, h => by
    unfold hRepLoop repLoop
    rw [h.converged]
    cases t.converged with
    | true => exact ⟨h.stands.refl, h.env, .ok ⟨h, rfl⟩⟩
    | false =>
      simp only [Bool.false_eq_true, if_false]
      obtain ⟨g1, g2, g3⟩ := repStep_sim mono hf gtol ftol xtol keep h
      revert g1 g2 g3
      generalize hRepStep depth f gtol ftol xtol keep s = a
      generalize repStep F gtol ftol xtol keep t = b
      obtain ⟨e1, w1, a⟩ := a
      obtain ⟨e2, o1, b⟩ := b
      intro g1 g2 g3
      simp only at g1 g2 g3
      cases g3 with
      | error e => exact ⟨g1, g2, .error e⟩
      | ok hab =>
        obtain ⟨hab, rfl⟩ := hab
        simp only
        obtain ⟨k1, k2, k3⟩ := repLoop_sim mono hf gtol ftol xtol keep n hab
        have : Gets depth s.w _ _ := g1.trans k1
        exact ⟨this, k2, k3⟩

/-- The result of a repeated optimization and its value. -/
structure HRepResult.Shows {R R' : Type} (rel : Mem → R → R' → Prop) (m : Mem) (a : HRepResult R)
    (b : RepResult R') : Prop where
  x : m.vals a.x = b.x
  converged : a.converged = b.converged
  xConv : a.xConv = b.xConv
  fConv : a.fConv = b.fConv
  gradConv : a.gradConv = b.gradConv
  objOpt : rel m a.objOpt b.objOpt
  optResults : List.Forall₂ (rel m) a.optResults b.optResults

/-- **C133**, the part that holds: if the optimization functions work on arrays of their own, repeated
optimization raises the same exception, or returns the same point, flags and results, as without
references, and changes no array that existed before.  So C67, C125 and C126 hold for it.  Missing:
optimization functions that change arrays, for which the counterexample shows the opposite. -/
theorem C133_new_arrays_partial {σ R R' : Type} {depth : ℕ} {w : World Unit} (h : OReached depth w)
    {v : Objective Unit} (hv : w.view depth = some v) (hn : (w.st.foot depth w.o.par).Nodup)
    (rel : Mem → R → R' → Prop) (mono : ∀ m m' r r', m.Le m' → rel m r r' → rel m' r r')
    (env : σ) {f : HOptFun σ R} {F : OptFun σ R'} (hf : ActsLike depth rel f F)
    {initX : List ℕ} (hx : (Ref.vec initX).Alive w.st.mem)
    {initFun : Option (HOptFun σ R)} {initFun' : Option (OptFun σ R')}
    (hi : Option.Rel (ActsLike depth rel) initFun initFun') (maxIter : ℤ) (gtol ftol xtol : ℝ) (keep : Bool) :
    let r := w.repeatedlyOptimize depth env f initX initFun maxIter gtol ftol xtol keep
    let q := repeatedlyOptimize env v F (w.st.mem.vals initX) initFun' maxIter gtol ftol xtol keep
    r.1 = q.1 ∧ r.2.1.view depth = some q.2.1 ∧
      Agree (HRepResult.Shows rel r.2.1.st.mem) r.2.2 q.2.2 ∧
      ∀ a : Ref, a.Alive w.st.mem → r.2.1.st.mem.read a = w.st.mem.read a := by
  have hst := h.stands hv hn
  -- the part after the initial optimization
  have main : ∀ (e1 : σ) (w1 : World Unit) (o1 : Objective Unit) (x1 : List ℕ) (y1 : List ℝ) (rs : List R)
      (rs' : List R'), Gets depth w w1 o1 → (∀ k ∈ x1, k < w1.st.mem.next) → w1.st.mem.vals x1 = y1 →
      List.Forall₂ (rel w1.st.mem) rs rs' →
      let r : σ × World Unit × Py (HRepResult R) :=
        match (do scalarOf (← (w1.funFree depth x1 () false).2)) with
        | .error e => (e1, (w1.funFree depth x1 () false).1, .error e)
        | .ok f1 =>
          match hRepLoop depth f gtol ftol xtol keep maxIter.toNat
              ⟨e1, (w1.funFree depth x1 () false).1, x1, f1, false, none, rs⟩ with
          | (e2, w2, .error e) => (e2, w2, .error e)
          | (e2, w2, .ok s) =>
            match s.last with
            | none => (e2, w2, .error .unboundLocal)
            | some (xConv, fConv, gradConv, objOpt) =>
              (e2, w2, .ok ⟨s.x, s.converged, xConv, fConv, gradConv, objOpt, s.optResults⟩)
      let q : σ × Objective Unit × Py (RepResult R') :=
        match (do scalarOf (← (o1.funFree y1 () false).2)) with
        | .error e => (e1, (o1.funFree y1 () false).1, .error e)
        | .ok f1 =>
          match repLoop F gtol ftol xtol keep maxIter.toNat
              ⟨e1, (o1.funFree y1 () false).1, y1, f1, false, none, rs'⟩ with
          | (e2, o2, .error e) => (e2, o2, .error e)
          | (e2, o2, .ok s) =>
            match s.last with
            | none => (e2, o2, .error .unboundLocal)
            | some (xConv, fConv, gradConv, objOpt) =>
              (e2, o2, .ok ⟨s.x, s.converged, xConv, fConv, gradConv, objOpt, s.optResults⟩)
      r.1 = q.1 ∧ Gets depth w r.2.1 q.2.1 ∧ Agree (HRepResult.Shows rel r.2.1.st.mem) r.2.2 q.2.2 := by
    intro e1 w1 o1 x1 y1 rs rs' g1 hal hy hrs
    have s1 := hst.gets g1
    obtain ⟨g2, e2⟩ := gets_funFree s1 hal false
    rw [hy] at g2 e2
    rw [e2]
    cases (do scalarOf (← (o1.funFree y1 () false).2)) with
    | error e => exact ⟨rfl, g1.trans g2, .error e⟩
    | ok f1 =>
      simp only
      have s2 := s1.gets g2
      have hrel : RepRel depth rel
          (⟨e1, (w1.funFree depth x1 () false).1, x1, f1, false, none, rs⟩ : HRepState σ R)
          ⟨e1, (o1.funFree y1 () false).1, y1, f1, false, none, rs'⟩ :=
        ⟨rfl, s2, fun k hk => lt_of_lt_of_le (hal k hk) g2.step.le.1, (g2.step.le.vals hal).trans hy, rfl, rfl,
          .none, hrs.imp fun a b hab => mono _ _ _ _ g2.step.le hab⟩
      obtain ⟨k1, k2, k3⟩ := repLoop_sim mono hf gtol ftol xtol keep maxIter.toNat hrel
      revert k1 k2 k3
      generalize hRepLoop depth f gtol ftol xtol keep maxIter.toNat
        ⟨e1, (w1.funFree depth x1 () false).1, x1, f1, false, none, rs⟩ = a
      generalize repLoop F gtol ftol xtol keep maxIter.toNat
        ⟨e1, (o1.funFree y1 () false).1, y1, f1, false, none, rs'⟩ = b
      obtain ⟨ea, wa, a⟩ := a
      obtain ⟨eb, ob, b⟩ := b
      intro k1 k2 k3
      simp only at k1 k2 k3
      have k4 := (g1.trans g2).trans k1
      cases k3 with
      | error e => exact ⟨k2, k4, .error e⟩
      | @ok a b hab =>
        obtain ⟨hab, hw⟩ := hab
        have hl := hab.last
        have hr := hab.results
        have hx := hab.x
        rw [hw] at hl hr hx
        simp only
        cases hs : a.last with
        | none =>
          rw [hs] at hl
          cases ht : b.last with
          | none => exact ⟨k2, k4, .error _⟩
          | some _ => rw [ht] at hl; cases hl
        | some la =>
          rw [hs] at hl
          cases ht : b.last with
          | none => rw [ht] at hl; cases hl
          | some lb =>
            rw [ht] at hl
            obtain ⟨a1, a2, a3, a4⟩ := la
            obtain ⟨b1, b2, b3, b4⟩ := lb
            cases hl with
            | some hl =>
              obtain ⟨h1, h2, h3, h4⟩ := hl
              exact ⟨k2, k4, .ok ⟨hx, hab.converged, h1, h2, h3, h4, hr⟩⟩
  suffices hmain : (w.repeatedlyOptimize depth env f initX initFun maxIter gtol ftol xtol keep).1 =
        (repeatedlyOptimize env v F (w.st.mem.vals initX) initFun' maxIter gtol ftol xtol keep).1 ∧
      Gets depth w (w.repeatedlyOptimize depth env f initX initFun maxIter gtol ftol xtol keep).2.1
        (repeatedlyOptimize env v F (w.st.mem.vals initX) initFun' maxIter gtol ftol xtol keep).2.1 ∧
      Agree (HRepResult.Shows rel
          (w.repeatedlyOptimize depth env f initX initFun maxIter gtol ftol xtol keep).2.1.st.mem)
        (w.repeatedlyOptimize depth env f initX initFun maxIter gtol ftol xtol keep).2.2
        (repeatedlyOptimize env v F (w.st.mem.vals initX) initFun' maxIter gtol ftol xtol keep).2.2 from
    ⟨hmain.1, hmain.2.1.view, hmain.2.2, fun a ha => hmain.2.1.step.le.read ha⟩
  unfold World.repeatedlyOptimize repeatedlyOptimize
  cases hi with
  | none => exact main env w v initX _ [] [] hst.refl hx rfl .nil
  | @some g G hg =>
    obtain ⟨k1, k2, k3⟩ := hg env w v initX hst hx
    revert k1 k2 k3
    simp only
    generalize g env w initX = a
    generalize G env v (w.st.mem.vals initX) = b
    obtain ⟨ea, wa, a⟩ := a
    obtain ⟨eb, ob, b⟩ := b
    intro k1 k2 k3
    simp only at k1 k2 k3
    subst k2
    cases k3 with
    | error e => exact ⟨rfl, k1, .error e⟩
    | @ok a b hab =>
      obtain ⟨ha, hb, hc⟩ := hab
      refine main ea wa ob a.1 b.1 _ _ k1 ha hb ?_
      cases keep with
      | false => exact .nil
      | true => exact .cons hc .nil

/-- **C133** for the minimizers of the library: they are such optimization functions. -/
theorem C133_minimizers (depth : ℕ) (useHvp : Bool) (opt : List ℝ → Optimizer) (precondition disp : Bool)
    (printEvery : Option ℕ) (initLogger : Bool) :
    ActsLike (σ := Unit) depth HOptResult.Shows
      (fun s w x => (s, w.minimize depth useHvp opt x precondition disp printEvery initLogger))
      (fun s o x => (s, minimizeObjective useHvp opt o x precondition disp printEvery initLogger)) := by
  intro s w v x h hx
  obtain ⟨h1, h2⟩ := minimize_sim h useHvp opt hx precondition disp printEvery initLogger
  refine ⟨h1, rfl, ?_⟩
  simp only
  generalize (minimizeObjective useHvp opt v (w.st.mem.vals x) precondition disp printEvery initLogger).2 = b at h2 ⊢
  revert h2
  generalize (w.minimize depth useHvp opt x precondition disp printEvery initLogger) = a
  obtain ⟨w', a⟩ := a
  intro h2
  cases h2 with
  | error e => exact .error e
  | ok h => exact .ok ⟨fun k hk => (h.1 k hk).2, h.2.1, h.2.2⟩

theorem HOptResult.Shows.mono {m m' : Mem} {r : HOptResult} {r' : OptResult} (hm : m.Le m') (h : r.Shows m r') :
    r.Shows m' r' :=
  ⟨fun k hk => lt_of_lt_of_le (h.1 k hk) hm.1, (hm.vals h.1).trans h.2.1, h.2.2.1, h.2.2.2⟩

/-- **C133** is false for an optimization function that works in place: whenever it returns the array it
was given, the difference of the points is computed from that array alone.  Repeated optimization stops
after one call and reports `x_conv`, wherever the point went. -/
theorem C133_in_place_counterexample {σ R : Type} {depth : ℕ} (env : σ) (w : World Unit) {f : HOptFun σ R}
    (hf : ∀ s w x s' w' y r, f s w x = (s', w', .ok (y, r)) → y = x) (initX : List ℕ) (maxIter : ℤ)
    (gtol ftol xtol : ℝ) (hx : 0 < xtol) (keep : Bool) {e' : σ} {w' : World Unit} {res : HRepResult R}
    (h : w.repeatedlyOptimize depth env f initX none maxIter gtol ftol xtol keep = (e', w', .ok res)) :
    res.x = initX ∧ res.xConv = true ∧ res.converged = true ∧ (keep = true → res.optResults = [res.objOpt]) := by
  have step : ∀ (s s' : HRepState σ R) e1 w1, hRepStep depth f gtol ftol xtol keep s = (e1, w1, .ok s') →
      s'.x = s.x ∧ s'.converged = true ∧ ∃ bf bg r, s'.last = some (true, bf, bg, r) ∧
        s'.optResults = (if keep then s.optResults ++ [r] else s.optResults) := by
    intro s s' e1 w1 hs
    unfold hRepStep at hs
    rcases hq : f s.env s.w s.x with ⟨ea, wa, _ | ⟨y, r⟩⟩
    · rw [hq] at hs; exact absurd (congrArg (·.2.2) hs) (by simp)
    · have hy := hf _ _ _ _ _ _ _ hq
      subst hy
      rw [hq] at hs
      simp only at hs
      cases hn : (do scalarOf (← (wa.funFree depth s.x () false).2)) with
      | error e => rw [hn] at hs; exact absurd (congrArg (·.2.2) hs) (by simp)
      | ok newF =>
        rw [hn] at hs
        simp only at hs
        cases hg : ((wa.funFree depth s.x () false).1.grad depth true s.x ()).2 with
        | error e => rw [hg] at hs; exact absurd (congrArg (·.2.2) hs) (by simp)
        | ok g =>
          rw [hg] at hs
          simp only at hs
          generalize ((wa.funFree depth s.x () false).1.grad depth true s.x ()).1 = wb at hs
          cases hd : vsub (wb.st.mem.vals s.x) (wb.st.mem.vals s.x) with
          | error e => rw [hd] at hs; exact absurd (congrArg (·.2.2) hs) (by simp)
          | ok dx =>
            rw [hd] at hs
            simp only [Prod.mk.injEq, Except.ok.injEq] at hs
            obtain ⟨-, -, rfl⟩ := hs
            have hl : decide (l1 dx < xtol) = true := by
              rw [decide_eq_true_eq, (l1_vsub hd).2]
              simpa [l1dist] using hx
            refine ⟨rfl, ?_, decide (|newF - s.fVal| < ftol), decide (l1 g < gtol), r, ?_, rfl⟩
            · simp only [hl, Bool.true_or]
            · simp only [hl]
  unfold World.repeatedlyOptimize at h
  simp only at h
  cases hn : (do scalarOf (← (w.funFree depth initX () false).2)) with
  | error e => rw [hn] at h; exact absurd (congrArg (·.2.2) h) (by simp)
  | ok f1 =>
    rw [hn] at h
    simp only at h
    cases hm : maxIter.toNat with
    | zero =>
      rw [hm] at h
      simp only [hRepLoop] at h
      exact absurd (congrArg (·.2.2) h) (by simp)
    | succ n =>
      rw [hm] at h
      rw [hRepLoop] at h
      simp only [Bool.false_eq_true, if_false] at h
      rcases hq : hRepStep depth f gtol ftol xtol keep
        ⟨env, (w.funFree depth initX () false).1, initX, f1, false, none, []⟩ with ⟨e1, w1, _ | s1⟩
      · rw [hq] at h; exact absurd (congrArg (·.2.2) h) (by simp)
      · rw [hq] at h
        simp only at h
        obtain ⟨h1, h2, bf, bg, r, h3, h4⟩ := step _ _ _ _ hq
        have hl : hRepLoop depth f gtol ftol xtol keep n s1 = (s1.env, s1.w, .ok s1) := by
          cases n with
          | zero => rfl
          | succ n => rw [hRepLoop, if_pos h2]
        rw [hl] at h
        simp only [h3, Prod.mk.injEq, Except.ok.injEq] at h
        obtain ⟨-, -, rfl⟩ := h
        refine ⟨h1, rfl, h2, fun hk => ?_⟩
        rw [h4, hk]
        rfl

/-- An optimization function that moves the first coordinate to 100, in place. -/
def exInPlace : HOptFun Unit Unit := fun _ w x =>
  ((), ⟨w.st.assign [⟨Ref.vec x, 0, 100⟩], w.o⟩, .ok (x, ()))

private theorem exWorld_fn : exWorld.o.fn = exObj.fn := by
  funext a p
  change (fun y => Arr.scalar y.sum) <$> p.getVector = (do .ok (Arr.scalar (← p.getVector).sum))
  cases p.getVector <;> rfl

private theorem exWorld_stands : Stands 3 exWorld
    ⟨exDict, exWorld.o.fn, none, exWorld.o.logger.view exStore.mem⟩ := by
  refine ⟨exWorld_reached.wf, ?_, ?_⟩
  · unfold World.view exWorld World.new
    simp only [exStore_tree, Option.map_some, Option.map_none]
  · change (exStore.foot 3 2).Nodup
    rw [exStore_foot]
    decide

private theorem funFree_quiet {depth : ℕ} (w : World Unit) (x : List ℕ) :
    (w.funFree depth x () false).1 = ⟨(w.st.setFree depth w.o.par x).1, w.o⟩ := by
  unfold World.funFree
  simp only
  cases (w.st.setFree depth w.o.par x).2 with
  | error e => rfl
  | ok u =>
    simp only
    cases World.callFn depth (w.st.setFree depth w.o.par x).1 w.o () <;> rfl

private theorem hRepStep_ok {σ R : Type} {depth : ℕ} {f : HOptFun σ R} {gtol ftol xtol : ℝ} {keep : Bool}
    {s : HRepState σ R} {e1 : σ} {w1 : World Unit} {y : List ℕ} {r : R} {newF : ℝ} {g dx : List ℝ}
    (h1 : f s.env s.w s.x = (e1, w1, .ok (y, r)))
    (h2 : (do scalarOf (← (w1.funFree depth y () false).2)) = .ok newF)
    (h3 : ((w1.funFree depth y () false).1.grad depth true y ()).2 = .ok g)
    (h4 : vsub (((w1.funFree depth y () false).1.grad depth true y ()).1.st.mem.vals y)
      (((w1.funFree depth y () false).1.grad depth true y ()).1.st.mem.vals s.x) = .ok dx) :
    hRepStep depth f gtol ftol xtol keep s =
      (e1, ((w1.funFree depth y () false).1.grad depth true y ()).1,
        .ok ⟨e1, ((w1.funFree depth y () false).1.grad depth true y ()).1, y, newF,
          decide (l1 dx < xtol) || decide (|newF - s.fVal| < ftol) || decide (l1 g < gtol),
          some (decide (l1 dx < xtol), decide (|newF - s.fVal| < ftol), decide (l1 g < gtol), r),
          if keep then s.optResults ++ [r] else s.optResults⟩) := by
  unfold hRepStep
  rw [h1]
  simp only
  rw [h2]
  simp only
  rw [h3]
  simp only
  rw [h4]

/-- **C133** is false: a run from the point (1, 2, 3), whose optimization function moves the point to
(100, 2, 3) in place, reports that the points differ by less than the tolerance, however small, while with
the other tolerances 0 no other criterion is met. -/
theorem C133_moved_counterexample (xtol : ℝ) (hx : 0 < xtol) :
    ∃ (e' : Unit) (w' : World Unit) (res : HRepResult Unit),
      OReached 3 exWorld ∧ exWorld.st.mem.vals [3, 4, 5] = [1, 2, 3] ∧
      exWorld.repeatedlyOptimize 3 () exInPlace [3, 4, 5] none 10 0 0 xtol true = (e', w', .ok res) ∧
      w'.st.mem.vals res.x = [100, 2, 3] ∧ res.converged = true ∧ res.xConv = true ∧ res.fConv = false ∧
      res.gradConv = false ∧ res.optResults.length = 1 := by
  have hx0 : ∀ k ∈ [3, 4, 5], k < exWorld.st.mem.next := exStore_alive.1
  have hv0 : exWorld.st.mem.vals [3, 4, 5] = [1, 2, 3] := exStore_alive.2
  have value : ∀ (p : Objective Unit) (x : List ℝ), SameFn exObj p → x.length = 3 →
      (do scalarOf (← (p.funFree x () false).2)) = .ok (exDict.ftvP x).sum := by
    intro p x hp hl
    rw [hp.value, Objective.funFree_value]
    change (do scalarOf (← valueAt (exObj.fn ()) exDict true x)) = _
    rw [exObj_value x hl, py_ok_bind]
    simp [scalarOf, Arr.scalar]
  have gradient : ∀ (p : Objective Unit) (x : List ℝ), SameFn exObj p → x.length = 3 →
      ∃ g, (p.funFreeGrad x ()).2 = .ok g := by
    intro p x hp hl
    have h2 : valueAt (p.fn ()) p.par true x = .ok (Arr.scalar (exDict.ftvP x).sum) := by
      rw [hp.fn, valueAt_blank hp.blank.symm]
      exact exObj_value x hl
    refine ⟨(List.range x.length).map fun j =>
      pd (fun y => entryA 0 (valueAt (p.fn ()) p.par true y)) x j,
      funFreeGrad_ok_iff.mpr ⟨valueAt_ok_set h2, ?_⟩⟩
    rw [agGrad, h2, py_ok_bind, if_neg (by simp [Arr.size, Arr.scalar])]
  have same0 : SameFn exObj ⟨exDict, exWorld.o.fn, none, exWorld.o.logger.view exStore.mem⟩ := ⟨exWorld_fn, rfl⟩
  -- the value at the start
  obtain ⟨g1, e1⟩ := gets_funFree exWorld_stands hx0 false
  rw [hv0] at g1 e1
  have s1 := exWorld_stands.gets g1
  have same1 := same0.of_same (.funFree _ [1, 2, 3] false)
  have e1' : (do scalarOf (← (exWorld.funFree 3 [3, 4, 5] () false).2)) = .ok (exDict.ftvP [1, 2, 3]).sum := by
    rw [e1]
    exact value _ _ same0 rfl
  have hw1 : (exWorld.funFree 3 [3, 4, 5] () false).1 = ⟨(exStore.setFree 3 2 [3, 4, 5]).1, exWorld.o⟩ :=
    funFree_quiet exWorld [3, 4, 5]
  -- the change in place
  have hal1 : ∀ k ∈ [3, 4, 5], k < (exWorld.funFree 3 [3, 4, 5] () false).1.st.mem.next :=
    fun k hk => lt_of_lt_of_le (hx0 k hk) g1.step.le.1
  have hv1 := (g1.step.le.vals hx0).trans hv0
  generalize hV : (Objective.funFree ⟨exDict, exWorld.o.fn, none, exWorld.o.logger.view exStore.mem⟩
    [1, 2, 3] () false).1 = v1 at g1 s1 same1
  have s2 : Stands 3 (exInPlace () (exWorld.funFree 3 [3, 4, 5] () false).1 [3, 4, 5]).2.1 v1 := by
    refine ⟨oevent_wf (depth := 3) s1.wf (.other (.assign ⟨Ref.vec [3, 4, 5], 0, 100⟩)) hal1, ?_, s1.nodup⟩
    rw [← s1.view, hw1]
    have ht := C101_set_free_copies (depth := 3) (st := exStore) 2 [3, 4, 5] exStore_alive.1 exStore_setFree.1
      [⟨Ref.vec [3, 4, 5], 0, 100⟩] (fun w hw => by rw [List.mem_singleton.1 hw]; exact exStore_alive.1) 3
    unfold World.view
    change Option.map _ (Store.tree 3 ((exStore.setFree 3 2 [3, 4, 5]).1.assign [⟨Ref.vec [3, 4, 5], 0, 100⟩]) 2) = _
    rw [ht]
    rfl
  have hv2 : (exInPlace () (exWorld.funFree 3 [3, 4, 5] () false).1 [3, 4, 5]).2.1.st.mem.vals [3, 4, 5] =
      [100, 2, 3] := by
    generalize (exWorld.funFree 3 [3, 4, 5] () false).1 = w1 at hv1
    simp only [Mem.vals, List.map_cons, List.map_nil, List.cons.injEq, and_true] at hv1
    obtain ⟨-, h4, h5⟩ := hv1
    simp [exInPlace, Store.assign, Mem.write, Mem.vals, Ref.vec, h4, h5]
  have hal2 : ∀ k ∈ [3, 4, 5], k < (exInPlace () (exWorld.funFree 3 [3, 4, 5] () false).1 [3, 4, 5]).2.1.st.mem.next :=
    hal1
  obtain ⟨g3, e3⟩ := gets_funFree s2 hal2 false
  rw [hv2] at g3 e3
  have s3 := s2.gets g3
  have same3 := same1.of_same (.funFree v1 [100, 2, 3] false)
  have e3' : (do scalarOf (← ((exInPlace () (exWorld.funFree 3 [3, 4, 5] () false).1 [3, 4, 5]).2.1.funFree 3 [3, 4, 5] ()
      false).2)) = .ok (exDict.ftvP [100, 2, 3]).sum := by
    rw [e3]
    exact value _ _ same1 rfl
  have hal3 := fun k hk => lt_of_lt_of_le (hal2 k hk) g3.step.le.1
  have hv3 := (g3.step.le.vals hal2).trans hv2
  obtain ⟨g, hg⟩ := gradient _ [100, 2, 3] same3 rfl
  obtain ⟨g4, e4⟩ := gets_grad s3 hal3
  rw [hv3, hg] at e4
  have hv4 := (g4.step.le.vals hal3).trans hv3
  -- the run
  have hd : vsub ([100, 2, 3] : List ℝ) [100, 2, 3] = .ok [0, 0, 0] := by simp [vsub]
  have hstep := hRepStep_ok (depth := 3) (f := exInPlace) (gtol := 0) (ftol := 0) (xtol := xtol) (keep := true)
    (s := ⟨(), (exWorld.funFree 3 [3, 4, 5] () false).1, [3, 4, 5], (exDict.ftvP [1, 2, 3]).sum, false, none, []⟩)
    (e1 := ()) (w1 := (exInPlace () (exWorld.funFree 3 [3, 4, 5] () false).1 [3, 4, 5]).2.1) (y := [3, 4, 5]) (r := ())
    rfl e3' e4 ((congrArg₂ vsub hv4 hv4).trans hd)
  have hf1 : decide (|(exDict.ftvP [100, 2, 3]).sum - (exDict.ftvP [1, 2, 3]).sum| < 0) = false :=
    decide_eq_false (not_lt.2 (abs_nonneg _))
  have hf2 : decide (l1 g < 0) = false :=
    decide_eq_false (not_lt.2 (by rw [l1_eq]; exact Finset.sum_nonneg fun i _ => abs_nonneg _))
  have hf3 : decide (l1 [0, 0, 0] < xtol) = true := decide_eq_true (by simpa [l1] using hx)
  rw [hf1, hf2, hf3] at hstep
  refine ⟨(), _, ⟨[3, 4, 5], true, true, false, false, (), [()]⟩, exWorld_reached, hv0, ?_, hv4, rfl, rfl, rfl, rfl, rfl⟩
  unfold World.repeatedlyOptimize
  simp only
  rw [e1']
  simp only
  rw [show (10 : ℤ).toNat = 8 + 1 + 1 from rfl, hRepLoop]
  simp only [Bool.false_eq_true, if_false]
  rw [hstep]
  simp only
  rw [hRepLoop]
  simp

/-- An optimizer that evaluates the objective at the start and steps away from there. -/
def exStepper : List ℝ → Optimizer := fun x => .value x fun v => .done ⟨x.map (· + 1), v, []⟩

/-- The hypotheses of C132 and C133: a minimization that evaluates the objective and returns, from an array
of an existing program; and the library's minimizer as the optimization function and as the initial one. -/
example : ∃ (v : Objective Unit) (w' : World Unit) (x : List ℕ) (res : HOptResult), OReached 3 exWorld ∧
    exWorld.view 3 = some v ∧ (exWorld.st.foot 3 exWorld.o.par).Nodup ∧
    (Ref.vec [3, 4, 5]).Alive exWorld.st.mem ∧
    exWorld.minimize 3 true exStepper [3, 4, 5] false false (some 2) true = (w', .ok (x, res)) ∧
    w'.st.mem.vals x = [2, 3, 4] ∧
    (∀ (m m' : Mem) (r : HOptResult) (r' : OptResult), m.Le m' → r.Shows m r' → r.Shows m' r') ∧
    ∃ (f : HOptFun Unit HOptResult) (F : OptFun Unit OptResult), ActsLike 3 HOptResult.Shows f F ∧
      Option.Rel (ActsLike 3 HOptResult.Shows) (some f) (some F) := by
  have g0 := startMin_gets exWorld_stands (some 2) true
  have s0 := exWorld_stands.gets g0
  obtain ⟨g1, e1⟩ := Sim1.newVec (f := fun w x => w.funFree 3 x () false) (F := fun o x => o.funFree x () false)
    (fun w v x hs hx => gets_funFree hs hx false) s0 [1, 2, 3]
  have hv : (Objective.funFree (startObj ⟨exDict, exWorld.o.fn, none, exWorld.o.logger.view exStore.mem⟩ (some 2) true)
      [1, 2, 3] () false).2 = .ok (Arr.scalar (exDict.ftvP [1, 2, 3]).sum) := by
    rw [Objective.funFree_value]
    change valueAt (exWorld.o.fn ()) exDict true [1, 2, 3] = _
    rw [exWorld_fn]
    exact exObj_value _ rfl
  rw [hv] at e1
  have hx : (exWorld.startMin (some 2) true).st.mem.vals [3, 4, 5] = [1, 2, 3] := exStore_alive.2
  have hm := C133_minimizers 3 true exStepper false false (some 2) true
  have hrun : ∃ (W : World Unit), exWorld.minimize 3 true exStepper [3, 4, 5] false false (some 2) true =
      (⟨(W.st.newVec [2, 3, 4]).1, W.o⟩, .ok ((W.st.newVec [2, 3, 4]).2,
        ⟨(W.st.newVec [2, 3, 4]).2, Arr.scalar (exDict.ftvP [1, 2, 3]).sum, []⟩)) := by
    refine ⟨((⟨((exWorld.startMin (some 2) true).st.newVec [1, 2, 3]).1,
      (exWorld.startMin (some 2) true).o⟩ : World Unit).funFree 3 ((exWorld.startMin (some 2) true).st.newVec [1, 2, 3]).2 ()
      false).1, ?_⟩
    unfold World.minimize
    simp only [Bool.false_eq_true, if_false, hx]
    unfold exStepper Optimizer.runHeap
    simp only [e1, Optimizer.runHeap]
    norm_num
  obtain ⟨W, hW⟩ := hrun
  exact ⟨_, _, _, _, exWorld_reached, exWorld_stands.view, exWorld_stands.nodup,
    exStore_alive.1, hW, newVec_vals _ _, fun m m' r r' h => HOptResult.Shows.mono h, _, _, hm, .some hm⟩

end

end LRVB
