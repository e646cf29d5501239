import Verif.Model.OptUtils
import Verif.Props.Precond
import Verif.Props.ObjDeriv
import Verif.Lemmas.Terms6

/-!
# C66, C89: minimization, with and without a preconditioner
-/

namespace LRVB

open Matrix

/-! ### Specification -/

/-- Every result the optimizer can return reports, for its point, a value and a gradient that it was
given for that point.  `vs` and `gs` are the values and gradients seen so far. -/
def Optimizer.Honest : Optimizer → List (List ℝ × Arr) → List (List ℝ × List ℝ) → Prop
  | .done r, vs, gs => (r.x, r.value) ∈ vs ∧ (r.x, r.jac) ∈ gs
  | .fail _, _, _ => True
  | .value x k, vs, gs => ∀ v, (k v).Honest ((x, v) :: vs) gs
  | .grad x k, vs, gs => ∀ g, (k g).Honest vs ((x, g) :: gs)
  | .hvp _ _ k, vs, gs => ∀ w, (k w).Honest vs gs

/-- The optimizer's last call before it returns is at the point it returns. -/
def Optimizer.LastCallAtResult : Optimizer → Option (List ℝ) → Prop
  | .done r, last => last = some r.x
  | .fail _, _ => True
  | .value x k, _ => ∀ v, (k v).LastCallAtResult (some x)
  | .grad x k, _ => ∀ g, (k g).LastCallAtResult (some x)
  | .hvp x _ k, _ => ∀ w, (k w).LastCallAtResult (some x)

/-! ### The objective during a run -/

/-- The same objective up to the value held by its parameter and its logger. -/
structure SameObj (o o' : Objective Unit) : Prop where
  fn : o'.fn = o.fn
  blank : o'.par.blank = o.par.blank
  precond : o'.precond = o.precond

theorem SameObj.refl (o : Objective Unit) : SameObj o o := ⟨rfl, rfl, rfl⟩

theorem SameObj.trans {o p q : Objective Unit} (h : SameObj o p) (h' : SameObj p q) : SameObj o q :=
  ⟨h'.fn.trans h.fn, h'.blank.trans h.blank, h'.precond.trans h.precond⟩

theorem valueAt_blank {f : Param → Py Arr} {p q : Param} (h : p.blank = q.blank) (free : Bool) (x : List ℝ) :
    valueAt f q free x = valueAt f p free x := by
  unfold valueAt
  have i := setPar_indep h x free
  simp only [i.1]
  cases hn : (setPar p x free).2 with
  | some e => rfl
  | none => simp only [i.2 hn]

theorem SameObj.funFree (o : Objective Unit) (x : List ℝ) (b : Bool) : SameObj o (o.funFree x () b).1 := by
  refine ⟨?_, by rw [Objective.funFree_par]; exact Param.setFree_blank _ _, ?_⟩ <;>
  · unfold Objective.funFree
    simp only
    split
    · rfl
    · split
      · rfl
      · split_ifs <;> rfl

theorem SameObj.deriv {β : Type} (o : Objective Unit) (free : Bool) (x : List ℝ)
    (ag : (List ℝ → Py Arr) → Py β) : SameObj o (o.deriv free x () ag).1 :=
  ⟨rfl, o.deriv_par_blank _ _ _ _, rfl⟩

theorem funFree_verbose {o : Objective Unit} {x : List ℝ} {b : Bool} {v : Arr}
    (h : (o.funFree x () b).2 = .ok v) : valueAt (o.fn ()) o.par true x = .ok v := by
  unfold Objective.funFree at h
  unfold valueAt
  simp only [setPar, if_true] at h ⊢
  cases hn : (o.par.setFree x).2 with
  | some e => rw [hn] at h; simp at h
  | none =>
    rw [hn] at h
    simp only at h ⊢
    cases hw : o.fn () ((o.par.setFree x).1.mark false) with
    | error e => rw [hw] at h; simp at h
    | ok u =>
      rw [hw] at h
      simp only at h
      cases b with
      | false => simpa using h
      | true =>
        simp only [if_true] at h
        cases hl : (o.logger.log u x).2 with
        | some e => rw [hl] at h; simp at h
        | none => rw [hl] at h; simpa using h

/-- A value computed during the run is the value of the objective. -/
theorem SameObj.value {o o' : Objective Unit} (hs : SameObj o o') {x : List ℝ} {b : Bool} {v : Arr}
    (h : (o'.funFree x () b).2 = .ok v) : (o.funFree x () false).2 = .ok v := by
  rw [o.funFree_value, ← funFree_verbose h, hs.fn, valueAt_blank hs.blank.symm]

theorem funFreeGrad_ok_iff {o : Objective Unit} {x g : List ℝ} :
    (o.funFreeGrad x ()).2 = .ok g ↔ (setPar o.par x true).2 = none ∧ agGrad (valueAt (o.fn ()) o.par true) x = .ok g := by
  constructor
  · intro h
    have := cacheAndEval_ok h
    exact ⟨this.2.1, this.1⟩
  · rintro ⟨h1, h2⟩
    rw [Objective.funFreeGrad, o.deriv_value true x () _ h1, h2]

/-- A gradient computed during the run is the gradient of the objective. -/
theorem SameObj.grad {o o' : Objective Unit} (hs : SameObj o o') {x g : List ℝ}
    (h : (o'.funFreeGrad x ()).2 = .ok g) : (o.funFreeGrad x ()).2 = .ok g := by
  rw [funFreeGrad_ok_iff] at h ⊢
  obtain ⟨h1, h2⟩ := h
  have e : valueAt (o'.fn ()) o'.par true = valueAt (o.fn ()) o.par true := by
    funext y
    rw [hs.fn, valueAt_blank hs.blank.symm]
  refine ⟨(setPar_indep hs.blank x true).1.trans h1, ?_⟩
  rw [← e]; exact h2

theorem SameObj.funFreeCond (o : Objective Unit) (x : List ℝ) (b : Bool) : SameObj o (o.funFreeCond x () b).1 := by
  unfold Objective.funFreeCond
  split
  · exact .refl o
  · split
    · exact .refl o
    · exact .funFree o _ b

theorem SameObj.funFreeGradCond (o : Objective Unit) (x : List ℝ) : SameObj o (o.funFreeGradCond x ()).1 := by
  unfold Objective.funFreeGradCond
  split
  · exact .refl o
  · split
    · exact .refl o
    · exact .deriv o true _ fun F => agGrad F _

theorem SameObj.funFreeHvpCond (o : Objective Unit) (x v : List ℝ) : SameObj o (o.funFreeHvpCond x () v).1 := by
  unfold Objective.funFreeHvpCond
  split
  · exact .refl o
  · split
    · exact .refl o
    · split
      · exact .refl o
      · exact .deriv o true _ fun F => agHvp F _ _

/-- What is needed of the three functions given to the optimizer. -/
structure GoodFns (o : Objective Unit) (V : List ℝ → Arr → Prop) (G : List ℝ → List ℝ → Prop)
    (fn : Objective Unit → List ℝ → Objective Unit × Py Arr)
    (jac : Objective Unit → List ℝ → Objective Unit × Py (List ℝ))
    (hessp : Option (Objective Unit → List ℝ → List ℝ → Objective Unit × Py (List ℝ))) : Prop where
  fnSame : ∀ p x, SameObj o p → SameObj o (fn p x).1
  jacSame : ∀ p x, SameObj o p → SameObj o (jac p x).1
  hvpSame : ∀ h, hessp = some h → ∀ p x v, SameObj o p → SameObj o (h p x v).1
  fnVal : ∀ p x v, SameObj o p → (fn p x).2 = .ok v → V x v
  jacVal : ∀ p x g, SameObj o p → (jac p x).2 = .ok g → G x g

theorem run_same {o : Objective Unit} {V G fn jac hessp} (hg : GoodFns o V G fn jac hessp) (t : Optimizer) :
    ∀ p, SameObj o p → SameObj o (t.run fn jac hessp p).1 := by
  induction t with
  | done r => intro p hp; exact hp
  | fail e => intro p hp; exact hp
  | value x k ih =>
    intro p hp
    simp only [Optimizer.run]
    cases (fn p x).2 with
    | error e => exact hg.fnSame p x hp
    | ok v => exact ih v _ (hg.fnSame p x hp)
  | grad x k ih =>
    intro p hp
    simp only [Optimizer.run]
    cases (jac p x).2 with
    | error e => exact hg.jacSame p x hp
    | ok v => exact ih v _ (hg.jacSame p x hp)
  | hvp x v k ih =>
    intro p hp
    cases hh : hessp with
    | none => simp only [Optimizer.run]; exact hp
    | some f =>
      have h := hg.hvpSame f hh p x v hp
      subst hh
      simp only [Optimizer.run]
      cases (f p x v).2 with
      | error e => exact h
      | ok w => exact ih w _ h

theorem run_honest {o : Objective Unit} {V G fn jac hessp} (hg : GoodFns o V G fn jac hessp) (t : Optimizer) :
    ∀ p vs gs, SameObj o p → (∀ q ∈ vs, V q.1 q.2) → (∀ q ∈ gs, G q.1 q.2) → t.Honest vs gs →
      ∀ r, (t.run fn jac hessp p).2 = .ok r → V r.x r.value ∧ G r.x r.jac := by
  induction t with
  | done r =>
    intro p vs gs _ hv hgs hh r' hr
    simp only [Optimizer.run, Except.ok.injEq] at hr
    subst hr
    exact ⟨hv _ hh.1, hgs _ hh.2⟩
  | fail e => intro p vs gs _ _ _ _ r hr; exact absurd hr (by simp [Optimizer.run])
  | value x k ih =>
    intro p vs gs hp hv hgs hh r hr
    simp only [Optimizer.run] at hr
    cases hq : (fn p x).2 with
    | error e => rw [hq] at hr; exact absurd hr (by simp)
    | ok v =>
      rw [hq] at hr
      refine ih v _ ((x, v) :: vs) gs (hg.fnSame p x hp) ?_ hgs (hh v) r hr
      intro q hq'
      rcases List.mem_cons.mp hq' with rfl | hq'
      · exact hg.fnVal p x v hp hq
      · exact hv q hq'
  | grad x k ih =>
    intro p vs gs hp hv hgs hh r hr
    simp only [Optimizer.run] at hr
    cases hq : (jac p x).2 with
    | error e => rw [hq] at hr; exact absurd hr (by simp)
    | ok v =>
      rw [hq] at hr
      refine ih v _ vs ((x, v) :: gs) (hg.jacSame p x hp) hv ?_ (hh v) r hr
      intro q hq'
      rcases List.mem_cons.mp hq' with rfl | hq'
      · exact hg.jacVal p x v hp hq
      · exact hgs q hq'
  | hvp x v k ih =>
    intro p vs gs hp hv hgs hh r hr
    cases hq : hessp with
    | none => subst hq; exact absurd hr (by simp [Optimizer.run])
    | some f =>
      have h := hg.hvpSame f hq p x v hp
      subst hq
      simp only [Optimizer.run] at hr
      cases hw : (f p x v).2 with
      | error e => rw [hw] at hr; exact absurd hr (by simp)
      | ok w =>
        rw [hw] at hr
        exact ih w _ vs gs h hv hgs (hh w) r hr

/-- The functions given to the optimizer with a preconditioner. -/
theorem good_cond (o : Objective Unit) (P : Arr) (hP : o.precond = some P) (disp useHvp : Bool) :
    GoodFns o
      (fun x v => ∃ y, P.mulVec x = .ok y ∧ (o.funFree y () false).2 = .ok v)
      (fun x g => ∃ y g', P.mulVec x = .ok y ∧ (o.funFreeGrad y ()).2 = .ok g' ∧ P.transpose.mulVec g' = .ok g)
      (fun o x => o.funFreeCond x () disp) (fun o x => o.funFreeGradCond x ())
      (if useHvp then some fun o x v => o.funFreeHvpCond x () v else none) := by
  refine ⟨fun p x hp => hp.trans (.funFreeCond p x disp), fun p x hp => hp.trans (.funFreeGradCond p x), ?_, ?_, ?_⟩
  · intro h hh p x v hp
    cases useHvp with
    | false => exact absurd hh (by simp)
    | true =>
      injection hh with hh
      subst hh
      exact hp.trans (.funFreeHvpCond p x v)
  · intro p x v hp h
    simp only [Objective.funFreeCond, hp.precond, hP, Objective.conditionedX] at h
    cases hy : P.mulVec x with
    | error e => rw [hy] at h; exact absurd h (by simp)
    | ok y =>
      rw [hy] at h
      exact ⟨y, rfl, hp.value h⟩
  · intro p x g hp h
    simp only [Objective.funFreeGradCond, hp.precond, hP, Objective.conditionedX] at h
    cases hy : P.mulVec x with
    | error e => rw [hy] at h; exact absurd h (by simp)
    | ok y =>
      rw [hy] at h
      simp only at h
      cases hg' : (p.funFreeGrad y ()).2 with
      | error e => rw [hg'] at h; exact absurd h (by simp [py_err_bind])
      | ok g' =>
        rw [hg', py_ok_bind] at h
        exact ⟨y, g', rfl, hp.grad hg', h⟩

/-- The functions given to the optimizer without a preconditioner. -/
theorem good_plain (o : Objective Unit) (disp useHvp : Bool) :
    GoodFns o (fun x v => (o.funFree x () false).2 = .ok v) (fun x g => (o.funFreeGrad x ()).2 = .ok g)
      (fun o x => o.funFree x () disp) (fun o x => o.funFreeGrad x ())
      (if useHvp then some fun o x v => o.funFreeHvp x () v else none) := by
  refine ⟨fun p x hp => hp.trans (.funFree p x disp), fun p x hp => hp.trans (.deriv p _ _ _), ?_,
    fun p x v hp h => hp.value h, fun p x g hp h => hp.grad h⟩
  intro h hh p x v hp
  cases useHvp with
  | false => exact absurd hh (by simp)
  | true =>
    injection hh with hh
    subst hh
    exact hp.trans (.deriv p _ _ _)

/-- The objective after the logger has been set up. -/
noncomputable def startObj (o : Objective Unit) (printEvery : Option ℕ) (initLogger : Bool) : Objective Unit :=
  let o1 := if initLogger then { o with logger := o.logger.reset } else o
  match printEvery with
  | none => o1
  | some k => { o1 with logger := { o1.logger with printEvery := k } }

theorem startObj_same (o : Objective Unit) (printEvery : Option ℕ) (initLogger : Bool) :
    SameObj o (startObj o printEvery initLogger) := by
  unfold startObj
  cases initLogger <;> cases printEvery <;> exact ⟨rfl, rfl, rfl⟩

theorem minimize_plain (useHvp : Bool) (opt : List ℝ → Optimizer) (o : Objective Unit) (initX : List ℝ)
    (disp : Bool) (printEvery : Option ℕ) (initLogger : Bool) :
    minimizeObjective useHvp opt o initX false disp printEvery initLogger =
      (let r := (opt initX).run (fun o x => o.funFree x () disp) (fun o x => o.funFreeGrad x ())
        (if useHvp then some fun o x v => o.funFreeHvp x () v else none) (startObj o printEvery initLogger)
      match r.2 with
      | .error e => (r.1, .error e)
      | .ok res => (r.1, .ok (res.x, res))) := rfl

theorem minimize_cond (useHvp : Bool) (opt : List ℝ → Optimizer) (o : Objective Unit) (initX : List ℝ)
    (disp : Bool) (printEvery : Option ℕ) (initLogger : Bool) :
    minimizeObjective useHvp opt o initX true disp printEvery initLogger =
      match (startObj o printEvery initLogger).precond with
      | none => (startObj o printEvery initLogger, .error .assertionError)
      | some P =>
        match npSolve P initX with
        | .error e => (startObj o printEvery initLogger, .error e)
        | .ok x0 =>
          let r := (opt x0).run (fun o x => o.funFreeCond x () disp) (fun o x => o.funFreeGradCond x ())
            (if useHvp then some fun o x v => o.funFreeHvpCond x () v else none)
            (startObj o printEvery initLogger)
          match r.2 with
          | .error e => (r.1, .error e)
          | .ok res =>
            match r.1.unconditionX res.x with
            | .error e => (r.1, .error e)
            | .ok optX => (r.1, .ok (optX, res)) := by
  rfl

/-- What a successful minimization with a preconditioner is. -/
theorem minimize_cond_ok {useHvp : Bool} {opt : List ℝ → Optimizer} {o : Objective Unit} {initX : List ℝ}
    {disp : Bool} {printEvery : Option ℕ} {initLogger : Bool} {P : Arr} (hP : o.precond = some P)
    {o' : Objective Unit} {optX : List ℝ} {res : OptResult}
    (h : minimizeObjective useHvp opt o initX true disp printEvery initLogger = (o', .ok (optX, res))) :
    ∃ x0, npSolve P initX = .ok x0 ∧
      (opt x0).run (fun o x => o.funFreeCond x () disp) (fun o x => o.funFreeGradCond x ())
        (if useHvp then some fun o x v => o.funFreeHvpCond x () v else none)
        (startObj o printEvery initLogger) = (o', .ok res) ∧
      P.mulVec res.x = .ok optX := by
  have hs := startObj_same o printEvery initLogger
  rw [minimize_cond, hs.precond, hP] at h
  simp only at h
  cases hx : npSolve P initX with
  | error e => rw [hx] at h; exact absurd (congrArg Prod.snd h) (by simp)
  | ok x0 =>
    rw [hx] at h
    simp only at h
    have hsame := run_same (good_cond o P hP disp useHvp) (opt x0) _ hs
    revert h hsame
    rcases hr : (opt x0).run (fun o x => o.funFreeCond x () disp) (fun o x => o.funFreeGradCond x ())
      (if useHvp then some fun o x v => o.funFreeHvpCond x () v else none)
      (startObj o printEvery initLogger) with ⟨p, _ | r⟩
    · intro h _; exact absurd (congrArg Prod.snd h) (by simp)
    · intro h hsame
      simp only at h hsame
      unfold Objective.unconditionX at h
      rw [hsame.precond, hP] at h
      simp only at h
      cases hm : P.mulVec r.x with
      | error e => rw [hm] at h; exact absurd (congrArg Prod.snd h) (by simp)
      | ok y =>
        rw [hm] at h
        simp only [Prod.mk.injEq, Except.ok.injEq] at h
        obtain ⟨rfl, rfl, rfl⟩ := h
        exact ⟨x0, rfl, hr, hm⟩

theorem minimize_plain_ok {useHvp : Bool} {opt : List ℝ → Optimizer} {o : Objective Unit} {initX : List ℝ}
    {disp : Bool} {printEvery : Option ℕ} {initLogger : Bool}
    {o' : Objective Unit} {optX : List ℝ} {res : OptResult}
    (h : minimizeObjective useHvp opt o initX false disp printEvery initLogger = (o', .ok (optX, res))) :
    (opt initX).run (fun o x => o.funFree x () disp) (fun o x => o.funFreeGrad x ())
        (if useHvp then some fun o x v => o.funFreeHvp x () v else none)
        (startObj o printEvery initLogger) = (o', .ok res) ∧ optX = res.x := by
  rw [minimize_plain] at h
  revert h
  rcases hr : (opt initX).run (fun o x => o.funFree x () disp) (fun o x => o.funFreeGrad x ())
    (if useHvp then some fun o x v => o.funFreeHvp x () v else none)
    (startObj o printEvery initLogger) with ⟨p, _ | r⟩
  · intro h; exact absurd (congrArg Prod.snd h) (by simp)
  · intro h
    simp only [Prod.mk.injEq, Except.ok.injEq] at h
    obtain ⟨rfl, rfl, rfl⟩ := h
    exact ⟨rfl, rfl⟩

/-! ### C66 -/

/-- **C66** (start) With an invertible preconditioner `P`, there is a starting point with image `init_x`
under `P`, and the whole minimization depends on the optimizer only through its behaviour from that
point.  Without preconditioning that point is `init_x` itself.  A missing preconditioner raises
`AssertionError`, a singular one `LinAlgError`. -/
theorem C66_start (useHvp : Bool) (o : Objective Unit) (initX : List ℝ) (disp : Bool)
    (printEvery : Option ℕ) (initLogger : Bool) :
    (∀ (P : Arr) (n : ℕ), o.precond = some P → IsMat P n n → (toMatrix n n P).det ≠ 0 → initX.length = n →
      ∃ x0, x0.length = n ∧ P.mulVec x0 = .ok initX ∧ ∀ opt : List ℝ → Optimizer,
        minimizeObjective useHvp opt o initX true disp printEvery initLogger =
          minimizeObjective useHvp (fun _ => opt x0) o initX true disp printEvery initLogger) ∧
    (∀ opt : List ℝ → Optimizer,
      minimizeObjective useHvp opt o initX false disp printEvery initLogger =
        minimizeObjective useHvp (fun _ => opt initX) o initX false disp printEvery initLogger) ∧
    (∀ opt, o.precond = none →
      (minimizeObjective useHvp opt o initX true disp printEvery initLogger).2 = .error .assertionError) ∧
    (∀ opt (P : Arr) (n : ℕ), o.precond = some P → IsMat P n n → (toMatrix n n P).det = 0 →
      initX.length = n →
      (minimizeObjective useHvp opt o initX true disp printEvery initLogger).2 = .error .linAlgError) := by
  have hs := startObj_same o printEvery initLogger
  refine ⟨?_, fun opt => rfl, ?_, ?_⟩
  · intro P n hP hPm hd hn
    have hx : npSolve P initX = .ok (List.ofFn ((toMatrix n n P)⁻¹ *ᵥ toVec n initX)) := by
      conv_lhs => rw [← ofFn_toVec hn]
      exact npSolve_ok hPm.2 hd _
    refine ⟨List.ofFn ((toMatrix n n P)⁻¹ *ᵥ toVec n initX), by simp, ?_, ?_⟩
    · rw [mulVec_ok hPm.2 (by simp)]
      congr 1
      rw [← ofFn_toVec (show (mulVecFn P n n _).length = n by simp [mulVecFn]), ← ofFn_toVec hn]
      congr 1
      have : toVec n (mulVecFn P n n (List.ofFn ((toMatrix n n P)⁻¹ *ᵥ toVec n initX))) =
          toMatrix n n P *ᵥ toVec n (List.ofFn ((toMatrix n n P)⁻¹ *ᵥ toVec n initX)) := by
        funext i
        simp [toVec, mulVecFn, List.getD_eq_getElem?_getD, mulVec, dotProduct, toMatrix, Finset.sum_range]
      rw [ofFn_toVec hn, this, toVec_ofFn, mulVec_mulVec, mul_nonsing_inv _ (Ne.isUnit hd), one_mulVec]
    · intro opt
      rw [minimize_cond, minimize_cond, hs.precond, hP]
      simp only [hx]
  · intro opt hP
    rw [minimize_cond, hs.precond, hP]
  · intro opt P n hP hPm hd hn
    rw [minimize_cond, hs.precond, hP]
    have : npSolve P initX = .error .linAlgError := by
      unfold npSolve
      rw [hPm.2]
      simp [hn, hd]
    simp only [this]

/-- **C66** (report) Whatever an optimizer does that reports values and gradients it was given: the
returned `opt_x` is the image of the optimizer's point (the point itself without preconditioning), the
objective at `opt_x` is the reported value, and the reported gradient is the gradient of the objective
at `opt_x`, multiplied by `Pᵀ` with preconditioning. -/
theorem C66_report {useHvp : Bool} {opt : List ℝ → Optimizer} (hh : ∀ x, (opt x).Honest [] [])
    {o o' : Objective Unit} {initX : List ℝ} {precondition disp : Bool} {printEvery : Option ℕ}
    {initLogger : Bool} {optX : List ℝ} {res : OptResult}
    (h : minimizeObjective useHvp opt o initX precondition disp printEvery initLogger = (o', .ok (optX, res))) :
    (o.funFree optX () false).2 = .ok res.value ∧
    (precondition = false → optX = res.x ∧ (o.funFreeGrad optX ()).2 = .ok res.jac) ∧
    (∀ P, precondition = true → o.precond = some P →
      P.mulVec res.x = .ok optX ∧
      ∃ g, (o.funFreeGrad optX ()).2 = .ok g ∧ P.transpose.mulVec g = .ok res.jac) := by
  have hs := startObj_same o printEvery initLogger
  cases precondition with
  | false =>
    obtain ⟨hr, rfl⟩ := minimize_plain_ok h
    have := run_honest (good_plain o disp useHvp) (opt initX) _ [] [] hs (by simp) (by simp) (hh initX) res
      (by rw [hr])
    exact ⟨this.1, fun _ => ⟨rfl, this.2⟩, fun _ h => absurd h (by simp)⟩
  | true =>
    cases hP : o.precond with
    | none =>
      have := (C66_start useHvp o initX disp printEvery initLogger).2.2.1 opt hP
      rw [h] at this
      exact absurd this (by simp)
    | some P =>
      obtain ⟨x0, -, hr, hm⟩ := minimize_cond_ok hP h
      have := run_honest (good_cond o P hP disp useHvp) (opt x0) _ [] [] hs (by simp) (by simp) (hh x0) res
        (by rw [hr])
      obtain ⟨⟨y, hy, hv⟩, y', g, hy', hg, hgp⟩ := this
      rw [hm, Except.ok.injEq] at hy hy'
      subst hy; subst hy'
      refine ⟨hv, fun h => absurd h (by simp), fun P' _ hP' => ?_⟩
      rw [Option.some.injEq] at hP'
      subst hP'
      exact ⟨hm, g, hg, hgp⟩

/-- **C66** (stationary points) With an invertible preconditioner (or none), if such an optimizer reports
a zero gradient then the gradient of the objective at `opt_x` is zero. -/
theorem C66_stationary {useHvp : Bool} {opt : List ℝ → Optimizer} (hh : ∀ x, (opt x).Honest [] [])
    {o o' : Objective Unit} {initX : List ℝ} {precondition disp : Bool} {printEvery : Option ℕ}
    {initLogger : Bool} {optX : List ℝ} {res : OptResult}
    (h : minimizeObjective useHvp opt o initX precondition disp printEvery initLogger = (o', .ok (optX, res)))
    (hinv : precondition = true → ∀ P, o.precond = some P → ∃ n, IsMat P n n ∧ (toMatrix n n P).det ≠ 0)
    (hz : ∀ j, res.jac.getD j 0 = 0) :
    ∃ g, (o.funFreeGrad optX ()).2 = .ok g ∧ ∀ j, g.getD j 0 = 0 := by
  obtain ⟨-, h1, h2⟩ := C66_report hh h
  cases precondition with
  | false => exact ⟨_, (h1 rfl).2, hz⟩
  | true =>
    cases hP : o.precond with
    | none =>
      have := (C66_start useHvp o initX disp printEvery initLogger).2.2.1 opt hP
      rw [h] at this
      exact absurd this (by simp)
    | some P =>
      obtain ⟨n, hm, hd⟩ := hinv rfl P hP
      obtain ⟨-, g, hg, hgp⟩ := h2 P rfl hP
      refine ⟨g, hg, ?_⟩
      have hTs : P.transpose.shape = [n, n] := by simp [hm.2]
      have hTat : ∀ i < n, ∀ k < n, P.transpose.at2 i k = P.at2 k i := by
        intro i hi k hk
        unfold Arr.transpose
        rw [hm.2]
        exact Arr.at2_ofFn2 _ _ _ (by simpa using hi) (by simpa using hk)
      have hgl : g.length = n := by
        by_contra hne
        unfold Arr.mulVec at hgp
        rw [hTs] at hgp
        simp [hne] at hgp
      rw [mulVec_ok hTs hgl, Except.ok.injEq] at hgp
      have hzero : (toMatrix n n P)ᵀ *ᵥ toVec n g = 0 := by
        funext i
        have := hz i
        rw [← hgp] at this
        simp only [mulVecFn, List.getD_eq_getElem?_getD] at this
        rw [List.getElem?_eq_getElem (by simp), List.getElem_map, Option.getD_some, List.getElem_range] at this
        rw [Pi.zero_apply, ← this, Finset.sum_range]
        simp only [mulVec, dotProduct]
        refine Finset.sum_congr rfl fun j _ => ?_
        simp only [transpose_apply, toMatrix, Matrix.of_apply, toVec, List.getD_eq_getElem?_getD]
        congr 1
        exact (hTat i i.2 j j.2).symm
      have hdT : ((toMatrix n n P)ᵀ).det ≠ 0 := by rwa [det_transpose]
      have hg0 : toVec n g = 0 := by
        have := congrArg (((toMatrix n n P)ᵀ)⁻¹ *ᵥ ·) hzero
        simp only [mulVec_mulVec, mulVec_zero, nonsing_inv_mul _ (Ne.isUnit hdT), one_mulVec] at this
        exact this
      intro j
      by_cases hj : j < n
      · exact congrFun hg0 ⟨j, hj⟩
      · rw [List.getD_eq_getElem?_getD, List.getElem?_eq_none (by omega)]
        rfl

/-- An optimizer that evaluates the objective and its gradient at the start and returns the start. -/
def stayAtStart (x : List ℝ) : Optimizer := .value x fun v => .grad x fun g => .done ⟨x, v, g⟩

theorem stayAtStart_honest (x : List ℝ) : (stayAtStart x).Honest [] [] := by
  intro v g
  simp [Optimizer.Honest]

/-- With an invertible preconditioner, an optimizer that stays at its start returns `init_x`, for every
objective that returns a number at `init_x`.  (So the hypotheses of C66 are met.) -/
theorem C66_stay (useHvp : Bool) (o : Objective Unit) (P : Arr) (n : ℕ) (hP : o.precond = some P)
    (hPm : IsMat P n n) (hd : (toMatrix n n P).det ≠ 0) (initX : List ℝ) (hn : initX.length = n)
    {v : ℝ} (hv : (o.funFree initX () false).2 = .ok (Arr.scalar v)) (printEvery : Option ℕ) (initLogger : Bool) :
    ∃ o' res, minimizeObjective useHvp stayAtStart o initX true false printEvery initLogger =
      (o', .ok (initX, res)) ∧ res.value = Arr.scalar v := by
  obtain ⟨x0, hx0, hPx, -⟩ := (C66_start useHvp o initX false printEvery initLogger).1 P n hP hPm hd hn
  have hx : npSolve P initX = .ok x0 := by
    have h1 : npSolve P initX = .ok (List.ofFn ((toMatrix n n P)⁻¹ *ᵥ toVec n initX)) := by
      conv_lhs => rw [← ofFn_toVec hn]
      exact npSolve_ok hPm.2 hd _
    rw [h1]
    congr 1
    rw [mulVec_ok hPm.2 hx0, Except.ok.injEq] at hPx
    have h2 : toVec n initX = toMatrix n n P *ᵥ toVec n x0 := by
      rw [← hPx]
      funext i
      simp [toVec, mulVecFn, List.getD_eq_getElem?_getD, mulVec, dotProduct, toMatrix, Finset.sum_range]
    rw [h2, mulVec_mulVec, nonsing_inv_mul _ (Ne.isUnit hd), one_mulVec, ofFn_toVec hx0]
  have hs := startObj_same o printEvery initLogger
  set o0 := startObj o printEvery initLogger with ho0
  have hval : ∀ q, SameObj o q → valueAt (q.fn ()) q.par true initX = .ok (Arr.scalar v) := by
    intro q hq
    rw [hq.fn, valueAt_blank hq.blank.symm, ← o.funFree_value, hv]
  have h1 : (o0.funFreeCond x0 () false).2 = .ok (Arr.scalar v) := by
    simp only [Objective.funFreeCond, hs.precond, hP, Objective.conditionedX, hPx]
    rw [o0.funFree_value]
    exact hval o0 hs
  have hs1 : SameObj o (o0.funFreeCond x0 () false).1 := hs.trans (.funFreeCond o0 x0 false)
  set o1 := (o0.funFreeCond x0 () false).1 with ho1
  obtain ⟨g, hg⟩ : ∃ g, (o1.funFreeGrad initX ()).2 = .ok g := by
    have h2 := hval o1 hs1
    refine ⟨(List.range initX.length).map fun j =>
      pd (fun y => entryA 0 (valueAt (o1.fn ()) o1.par true y)) initX j,
      funFreeGrad_ok_iff.mpr ⟨valueAt_ok_set h2, ?_⟩⟩
    rw [agGrad, h2, py_ok_bind, if_neg (by simp [Arr.size, Arr.scalar])]
  have hgl : g.length = n := by
    have := (funFreeGrad_ok_iff.mp hg).2
    rw [agGrad, hval o1 hs1, py_ok_bind, if_neg (by simp [Arr.size, Arr.scalar]), Except.ok.injEq] at this
    rw [← this]
    simp [hn]
  have hTs : P.transpose.shape = [n, n] := by simp [hPm.2]
  have h3 : (o1.funFreeGradCond x0 ()).2 = .ok (mulVecFn P.transpose n n g) := by
    simp only [Objective.funFreeGradCond, hs1.precond, hP, Objective.conditionedX, hPx]
    rw [hg, py_ok_bind, mulVec_ok hTs hgl]
  have hs2 : SameObj o (o1.funFreeGradCond x0 ()).1 := hs1.trans (.funFreeGradCond o1 x0)
  refine ⟨(o1.funFreeGradCond x0 ()).1, ⟨x0, Arr.scalar v, mulVecFn P.transpose n n g⟩, ?_, rfl⟩
  rw [minimize_cond, ← ho0, hs.precond, hP]
  simp only [hx, stayAtStart, Optimizer.run]
  rw [h1]
  simp only [← ho1]
  rw [h3]
  simp only [Objective.unconditionX, hs2.precond, hP, hPx]

example : ∃ (o : Objective Unit) (P : Arr) (v : ℝ), o.precond = some P ∧ IsMat P 3 3 ∧
    (toMatrix 3 3 P).det ≠ 0 ∧ (o.funFree [1, 2, 3] () false).2 = .ok (Arr.scalar v) := by
  refine ⟨{ exObj with precond := some (ofMatrix (2 : Matrix (Fin 3) (Fin 3) ℝ)) }, _,
    (exDict.ftvP [1, 2, 3]).sum, rfl,
    ⟨Arr.ofFn2_WF _ _ _, rfl⟩, ?_, ?_⟩
  · have : toMatrix 3 3 (ofMatrix (2 : Matrix (Fin 3) (Fin 3) ℝ)) = 2 := by
      ext i j
      simp only [toMatrix, ofMatrix, Matrix.of_apply]
      rw [Arr.at2_ofFn2 _ _ _ i.2 j.2, dif_pos ⟨i.2, j.2⟩]
    rw [this]
    have h2 : (2 : Matrix (Fin 3) (Fin 3) ℝ) = (2 : ℝ) • 1 := by
      rw [Algebra.smul_def, mul_one]; rfl
    rw [h2, det_smul, det_one]
    norm_num
  · rw [Objective.funFree_value]
    exact exObj_value [1, 2, 3] rfl

/-! ### C89 -/

/-- After each call at `x` that succeeds, the parameter holds a `y` with `Q x y`. -/
structure LastFns (o : Objective Unit) (Q : List ℝ → List ℝ → Prop)
    (fn : Objective Unit → List ℝ → Objective Unit × Py Arr)
    (jac : Objective Unit → List ℝ → Objective Unit × Py (List ℝ))
    (hessp : Option (Objective Unit → List ℝ → List ℝ → Objective Unit × Py (List ℝ))) : Prop where
  fn : ∀ p x v, SameObj o p → (fn p x).2 = .ok v → ∃ y, Q x y ∧ (fn p x).1.par = (o.par.setFree y).1
  jac : ∀ p x g, SameObj o p → (jac p x).2 = .ok g → ∃ y, Q x y ∧ (jac p x).1.par = (o.par.setFree y).1
  hvp : ∀ h, hessp = some h → ∀ p x v w, SameObj o p → (h p x v).2 = .ok w →
    ∃ y, Q x y ∧ (h p x v).1.par = (o.par.setFree y).1

theorem lastCall_run {o : Objective Unit} {V G Q fn jac hessp} (hg : GoodFns o V G fn jac hessp)
    (hl : LastFns o Q fn jac hessp) (t : Optimizer) :
    ∀ (p : Objective Unit) (last : Option (List ℝ)), SameObj o p →
      (∀ x, last = some x → ∃ y, Q x y ∧ p.par = (o.par.setFree y).1) → t.LastCallAtResult last →
      ∀ p' r, t.run fn jac hessp p = (p', .ok r) → ∃ y, Q r.x y ∧ p'.par = (o.par.setFree y).1 := by
  induction t with
  | done r =>
    intro p last _ hp ht p' r' hr
    simp only [Optimizer.run, Prod.mk.injEq, Except.ok.injEq] at hr
    obtain ⟨rfl, rfl⟩ := hr
    exact hp _ ht
  | fail e => intro p last _ _ _ p' r hr; exact absurd (congrArg Prod.snd hr) (by simp [Optimizer.run])
  | value x k ih =>
    intro p last hp _ ht p' r hr
    simp only [Optimizer.run] at hr
    cases hq : (fn p x).2 with
    | error e => rw [hq] at hr; exact absurd (congrArg Prod.snd hr) (by simp)
    | ok v =>
      rw [hq] at hr
      refine ih v _ (some x) (hg.fnSame p x hp) ?_ (ht v) p' r hr
      rintro y ⟨⟩
      exact hl.fn p x v hp hq
  | grad x k ih =>
    intro p last hp _ ht p' r hr
    simp only [Optimizer.run] at hr
    cases hq : (jac p x).2 with
    | error e => rw [hq] at hr; exact absurd (congrArg Prod.snd hr) (by simp)
    | ok v =>
      rw [hq] at hr
      refine ih v _ (some x) (hg.jacSame p x hp) ?_ (ht v) p' r hr
      rintro y ⟨⟩
      exact hl.jac p x v hp hq
  | hvp x v k ih =>
    intro p last hp _ ht p' r hr
    cases hh : hessp with
    | none => subst hh; exact absurd (congrArg Prod.snd hr) (by simp [Optimizer.run])
    | some f =>
      have h1 := hg.hvpSame f hh p x v hp
      have h2 := hl.hvp f hh p x v
      subst hh
      simp only [Optimizer.run] at hr
      cases hq : (f p x v).2 with
      | error e => rw [hq] at hr; exact absurd (congrArg Prod.snd hr) (by simp)
      | ok w =>
        rw [hq] at hr
        refine ih w _ (some x) h1 ?_ (ht w) p' r hr
        rintro y ⟨⟩
        exact h2 w hp hq

theorem SameObj.setFree {o p : Objective Unit} (hp : SameObj o p) {x : List ℝ}
    (hn : (p.par.setFree x).2 = none) : (p.par.setFree x).1 = (o.par.setFree x).1 :=
  (congrArg Prod.fst (setPar_eq (p := p.par) (q := o.par) hp.blank (x := x) (free := true) hn)).symm

theorem SameObj.funFree_par {o p : Objective Unit} (hp : SameObj o p) {x : List ℝ} {b : Bool} {v : Arr}
    (h : (p.funFree x () b).2 = .ok v) : (p.funFree x () b).1.par = (o.par.setFree x).1 := by
  rw [p.funFree_par x () b]
  exact hp.setFree (Objective.funFree_ok h)

theorem SameObj.deriv_par {o p : Objective Unit} (hp : SameObj o p) {β : Type} {x : List ℝ}
    {ag : (List ℝ → Py Arr) → Py β} {g : β} (h : (p.deriv true x () ag).2 = .ok g) :
    (p.deriv true x () ag).1.par = (o.par.setFree x).1 := by
  have h4 := Objective.deriv_ok h
  exact h4.2.trans (hp.setFree h4.1)

theorem last_plain (o : Objective Unit) (disp useHvp : Bool) :
    LastFns o (fun x y => y = x) (fun o x => o.funFree x () disp) (fun o x => o.funFreeGrad x ())
      (if useHvp then some fun o x v => o.funFreeHvp x () v else none) := by
  refine ⟨fun p x v hp h => ⟨x, rfl, hp.funFree_par h⟩, fun p x g hp h => ⟨x, rfl, hp.deriv_par h⟩, ?_⟩
  intro h hh p x v w hp hq
  cases useHvp with
  | false => exact absurd hh (by simp)
  | true =>
    injection hh with hh
    subst hh
    exact ⟨x, rfl, hp.deriv_par hq⟩

theorem last_cond (o : Objective Unit) (P : Arr) (hP : o.precond = some P) (disp useHvp : Bool) :
    LastFns o (fun x y => P.mulVec x = .ok y)
      (fun o x => o.funFreeCond x () disp) (fun o x => o.funFreeGradCond x ())
      (if useHvp then some fun o x v => o.funFreeHvpCond x () v else none) := by
  refine ⟨?_, ?_, ?_⟩
  · intro p x v hp h
    simp only [Objective.funFreeCond, hp.precond, hP, Objective.conditionedX] at h ⊢
    cases hy : P.mulVec x with
    | error e => rw [hy] at h; exact absurd h (by simp)
    | ok y =>
      rw [hy] at h
      exact ⟨y, rfl, hp.funFree_par h⟩
  · intro p x g hp h
    simp only [Objective.funFreeGradCond, hp.precond, hP, Objective.conditionedX] at h ⊢
    cases hy : P.mulVec x with
    | error e => rw [hy] at h; exact absurd h (by simp)
    | ok y =>
      rw [hy] at h
      simp only at h ⊢
      cases hg' : (p.funFreeGrad y ()).2 with
      | error e => rw [hg'] at h; exact absurd h (by simp [py_err_bind])
      | ok g' => exact ⟨y, rfl, hp.deriv_par hg'⟩
  · intro h hh p x v w hp hq
    cases useHvp with
    | false => exact absurd hh (by simp)
    | true =>
      injection hh with hh
      subst hh
      simp only [Objective.funFreeHvpCond, hp.precond, hP, Objective.conditionedX] at hq ⊢
      cases hy : P.mulVec x with
      | error e => rw [hy] at hq; exact absurd hq (by simp)
      | ok y =>
        cases hv : P.mulVec v with
        | error e => rw [hy, hv] at hq; exact absurd hq (by simp)
        | ok pv =>
          rw [hy, hv] at hq
          simp only at hq ⊢
          cases hg' : (p.funFreeHvp y () pv).2 with
          | error e => rw [hg'] at hq; exact absurd hq (by simp [py_err_bind])
          | ok g' => exact ⟨y, rfl, hp.deriv_par hg'⟩

/-- **C89**, with or without preconditioning: if the optimizer's last call is at the point it returns, the
parameter holds `opt_x` afterwards.  Missing: other optimizers, for which it is false. -/
theorem C89_last_call_partial {useHvp : Bool} {opt : List ℝ → Optimizer}
    (hl : ∀ x, (opt x).LastCallAtResult none) {o o' : Objective Unit} {initX : List ℝ}
    {precondition disp : Bool} {printEvery : Option ℕ} {initLogger : Bool} {optX : List ℝ} {res : OptResult}
    (h : minimizeObjective useHvp opt o initX precondition disp printEvery initLogger =
      (o', .ok (optX, res))) :
    o'.par = (o.par.setFree optX).1 := by
  have hs := startObj_same o printEvery initLogger
  cases precondition with
  | false =>
    obtain ⟨hr, rfl⟩ := minimize_plain_ok h
    obtain ⟨y, rfl, hy⟩ := lastCall_run (good_plain o disp useHvp) (last_plain o disp useHvp) (opt initX)
      _ none hs (by simp) (hl initX) o' res hr
    exact hy
  | true =>
    cases hP : o.precond with
    | none =>
      have := (C66_start useHvp o initX disp printEvery initLogger).2.2.1 opt hP
      rw [h] at this
      exact absurd this (by simp)
    | some P =>
      obtain ⟨x0, -, hr, hm⟩ := minimize_cond_ok hP h
      obtain ⟨y, hq, hy⟩ := lastCall_run (good_cond o P hP disp useHvp) (last_cond o P hP disp useHvp)
        (opt x0) _ none hs (by simp) (hl x0) o' res hr
      rw [hm, Except.ok.injEq] at hq
      rw [hy, hq]

/-- The optimizer of `C66_stay` meets the hypothesis. -/
example : ∀ x, (stayAtStart x).LastCallAtResult none := fun _ _ _ => rfl

/-- An optimizer that looks at its start, then at one more point, and returns the start. -/
def lookAround (other : List ℝ) (x : List ℝ) : Optimizer :=
  .value x fun v => .grad x fun g => .value other fun _ => .done ⟨x, v, g⟩

theorem lookAround_honest (other x : List ℝ) : (lookAround other x).Honest [] [] := by
  intro v g w
  simp [Optimizer.Honest]

/-- **C89 fails**: an optimizer that reports honestly, but does not end at the point it returns, leaves
the parameter at the last point it looked at. -/
theorem C89_counterexample : ∃ (o o' : Objective Unit) (opt : List ℝ → Optimizer) (optX : List ℝ)
    (res : OptResult), (∀ x, (opt x).Honest [] []) ∧
    minimizeObjective false opt o [1, 2, 3] false false none true = (o', .ok (optX, res)) ∧
    optX = [1, 2, 3] ∧ o'.par.getFree = .ok [4, 5, 6] := by
  obtain ⟨eigh, he⟩ := exists_eigh
  have hw := (exDict_built eigh).wf he
  have hset : ∀ y : List ℝ, y.length = 3 → (setPar exDict y true).2 = none := fun y hy =>
    valueAt_ok_set (exObj_value y hy)
  have hv : ∀ (o : Objective Unit) (y : List ℝ), SameObj exObj o → y.length = 3 →
      (o.funFree y () false).2 = .ok (Arr.scalar (exDict.ftvP y).sum) := by
    intro o y hs hy
    rw [o.funFree_value, hs.fn, valueAt_blank hs.blank.symm]
    exact exObj_value y hy
  have hs0 := startObj_same exObj none true
  set o0 := startObj exObj none true with ho0
  set r1 := o0.funFree [1, 2, 3] () false with hr1
  have hs1 : SameObj exObj r1.1 := hs0.trans (.funFree o0 _ _)
  have hv1 := hv o0 [1, 2, 3] hs0 rfl
  set r2 := r1.1.funFreeGrad [1, 2, 3] () with hr2
  have hs2 : SameObj exObj r2.1 := hs1.trans (.deriv r1.1 _ _ _)
  obtain ⟨g, hg⟩ : ∃ g, r2.2 = .ok g := by
    have h1 : agGrad (valueAt (r1.1.fn ()) r1.1.par true) [1, 2, 3] =
        .ok ((List.range 3).map fun j => pd (fun y => entryA 0 (valueAt (r1.1.fn ()) r1.1.par true y)) [1, 2, 3] j) := by
      rw [agGrad, hs1.fn, valueAt_blank hs1.blank.symm]
      rw [show valueAt (exObj.fn ()) exObj.par true [1, 2, 3] = _ from exObj_value [1, 2, 3] rfl, py_ok_bind,
        if_neg (by simp [Arr.size, Arr.scalar])]
      rfl
    refine ⟨_, funFreeGrad_ok_iff.mpr ⟨?_, h1⟩⟩
    exact (setPar_indep hs1.blank.symm [1, 2, 3] true).1.trans (hset _ rfl)
  have hv3 := hv r2.1 [4, 5, 6] hs2 rfl
  refine ⟨exObj, (r2.1.funFree [4, 5, 6] () false).1, lookAround [4, 5, 6], [1, 2, 3],
    ⟨[1, 2, 3], Arr.scalar (exDict.ftvP [1, 2, 3]).sum, g⟩, fun x => lookAround_honest _ x, ?_, rfl, ?_⟩
  · rw [minimize_plain]
    simp only [lookAround, Optimizer.run, ← ho0]
    rw [hv1]
    simp only [← hr1, ← hr2]
    rw [hg]
    simp only
    rw [hv3]
  · rw [Objective.funFree_par]
    have h1 := setPar_eq (p := exDict) (q := r2.1.par) hs2.blank.symm (x := [4, 5, 6]) (free := true) (hset _ rfl)
    simp only [setPar, if_true] at h1
    rw [h1, exDict.setFree_ok hw _ (by rw [exDict_freeSize]; rfl)]
    exact exDict.getFree_freeP hw exDict_hasParams _ (by rw [exDict_freeSize]; rfl)

end LRVB
