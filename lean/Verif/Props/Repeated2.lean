import Verif.Props.Repeated

/-!
# C125, C126, C127: what optimization leaves behind
-/

namespace LRVB

/-! ### Specification -/

/-- The optimization function never returns a point with a larger value of the objective than its
starting point. -/
def NeverIncreases {σ R : Type} (f : OptFun σ R) (o : Objective Unit) : Prop :=
  ∀ s p x s' p' y r, f s p x = (s', p', .ok (y, r)) → ∀ fx fy, HasValue o x fx → HasValue o y fy → fy ≤ fx

/-- A run of an optimizer that gets answers described by `V` (values), `G` (gradients) and `H`
(Hessian-vector products) and returns `r`; the list has the points and values of its requests for a value,
in order. -/
inductive Optimizer.Asks (V : List ℝ → Arr → Prop) (G : List ℝ → List ℝ → Prop)
    (H : List ℝ → List ℝ → List ℝ → Prop) : Optimizer → List (List ℝ × Arr) → OptResult → Prop
  | done (r) : Asks V G H (.done r) [] r
  | value {x k v qs r} : V x v → Asks V G H (k v) qs r → Asks V G H (.value x k) ((x, v) :: qs) r
  | grad {x k g qs r} : G x g → Asks V G H (k g) qs r → Asks V G H (.grad x k) qs r
  | hvp {x v k w qs r} : H x v w → Asks V G H (k w) qs r → Asks V G H (.hvp x v k) qs r

/-! ### C125 -/

theorem repStep_par {σ R : Type} {f : OptFun σ R} (hf : KeepsObjective f) {gtol ftol xtol : ℝ} {keep : Bool}
    {o : Objective Unit} {s s' : RepState σ R} (hs : SameFn o s.obj)
    {e : σ} {p : Objective Unit} (h : repStep f gtol ftol xtol keep s = (e, p, .ok s')) :
    SameFn o s'.obj ∧ s'.obj.par = (o.par.setFree s'.x).1 ∧ s'.obj.par.Plain := by
  unfold repStep at h
  have hk := hf s.env s.obj s.x
  rcases hq : f s.env s.obj s.x with ⟨s1, p1, _ | ⟨y, r⟩⟩
  · rw [hq] at h; simp only at h; exact absurd (congrArg (·.2.2) h) (by simp)
  · rw [hq] at h hk
    simp only at h hk
    have hs1 : SameFn o p1 := ⟨hk.1.trans hs.fn, hk.2.trans hs.blank⟩
    cases hn : (do scalarOf (← (p1.funFree y () false).2)) with
    | error er => rw [hn] at h; exact absurd (congrArg (·.2.2) h) (by simp)
    | ok newF =>
      rw [hn] at h
      simp only at h
      have hs2 : SameFn o (p1.funFree y () false).1 := hs1.of_same (.funFree p1 y false)
      cases hg : ((p1.funFree y () false).1.funFreeGrad y ()).2 with
      | error er => rw [hg] at h; exact absurd (congrArg (·.2.2) h) (by simp)
      | ok g =>
        rw [hg] at h
        simp only at h
        cases hd : vsub y s.x with
        | error er => rw [hd] at h; exact absurd (congrArg (·.2.2) h) (by simp)
        | ok dx =>
          rw [hd] at h
          simp only [Prod.mk.injEq, Except.ok.injEq] at h
          obtain ⟨-, -, rfl⟩ := h
          obtain ⟨h1, h2⟩ := Objective.deriv_ok (o := (p1.funFree y () false).1) (free := true) hg
          refine ⟨hs2.of_same (.deriv _ true y fun F => agGrad F y), ?_, ?_⟩
          · refine h2.trans ?_
            have i := setPar_indep hs2.blank y true
            have h1' := i.1.trans h1
            simp only [setPar, if_true] at h1 h1' i
            simp only [setPar, if_true]
            first | exact i.2 h1 | exact i.2 h1' | exact (i.2 h1).symm | exact (i.2 h1').symm
          · show ((p1.funFree y () false).1.funFreeGrad y ()).1.par.Plain
            unfold Objective.funFreeGrad
            rw [h2]
            exact setPar_plain _ _ _ h1

theorem repLoop_par {σ R : Type} {f : OptFun σ R} (hf : KeepsObjective f) {gtol ftol xtol : ℝ} {keep : Bool}
    {o : Objective Unit} : ∀ (n : ℕ) (s s' : RepState σ R) (e : σ) (p : Objective Unit), SameFn o s.obj →
    (s.last ≠ none → s.obj.par = (o.par.setFree s.x).1 ∧ s.obj.par.Plain) →
    repLoop f gtol ftol xtol keep n s = (e, p, .ok s') →
    p = s'.obj ∧ (s'.last ≠ none → s'.obj.par = (o.par.setFree s'.x).1 ∧ s'.obj.par.Plain) := by
  intro n
  induction n with
  | zero =>
    intro s s' e p _ hl h
    simp only [repLoop, Prod.mk.injEq, Except.ok.injEq] at h
    obtain ⟨-, rfl, rfl⟩ := h
    exact ⟨rfl, hl⟩
  | succ n ih =>
    intro s s' e p hs hl h
    rw [repLoop] at h
    split at h
    · simp only [Prod.mk.injEq, Except.ok.injEq] at h
      obtain ⟨-, rfl, rfl⟩ := h
      exact ⟨rfl, hl⟩
    · rcases hq : repStep f gtol ftol xtol keep s with ⟨e1, p1, _ | s1⟩
      · rw [hq] at h; exact absurd (congrArg (·.2.2) h) (by simp)
      · rw [hq] at h
        simp only at h
        obtain ⟨h1, h2⟩ := repStep_par hf hs hq
        exact ih s1 s' e p h1 (fun _ => h2) h

/-- **C125** Whenever repeated optimization returns (for any optimizers that do not exchange the
objective), the parameter of the objective holds plain numbers, namely what `set_free` of the returned
point makes of it — wherever the optimizers left it. -/
theorem C125_parameter_at_result {σ R : Type} (env : σ) (o : Objective Unit) (f : OptFun σ R)
    (hf : KeepsObjective f) (initX : List ℝ) (initFun : Option (OptFun σ R))
    (hi : ∀ g, initFun = some g → KeepsObjective g)
    (maxIter : ℤ) (gtol ftol xtol : ℝ) (keep : Bool) {e' : σ} {o' : Objective Unit} {res : RepResult R}
    (h : repeatedlyOptimize env o f initX initFun maxIter gtol ftol xtol keep = (e', o', .ok res)) :
    o'.par = (o.par.setFree res.x).1 ∧ o'.par.Plain := by
  have main : ∀ (e1 : σ) (o1 : Objective Unit) (start : List ℝ) (results : List R), SameFn o o1 →
      (match (do scalarOf (← (o1.funFree start () false).2)) with
        | .error e => (e1, (o1.funFree start () false).1, .error e)
        | .ok f1 =>
          match repLoop f gtol ftol xtol keep maxIter.toNat
              ⟨e1, (o1.funFree start () false).1, start, f1, false, none, results⟩ with
          | (e2, o2, .error e) => (e2, o2, .error e)
          | (e2, o2, .ok s) =>
            match s.last with
            | none => (e2, o2, .error .unboundLocal)
            | some (xConv, fConv, gradConv, objOpt) =>
              (e2, o2, (.ok ⟨s.x, s.converged, xConv, fConv, gradConv, objOpt, s.optResults⟩ : Py (RepResult R)))) =
        (e', o', .ok res) → o'.par = (o.par.setFree res.x).1 ∧ o'.par.Plain := by
    intro e1 o1 start results hs hm
    cases hn : (do scalarOf (← (o1.funFree start () false).2)) with
    | error er => rw [hn] at hm; exact absurd (congrArg (·.2.2) hm) (by simp)
    | ok f1 =>
      rw [hn] at hm
      simp only at hm
      rcases hq : repLoop f gtol ftol xtol keep maxIter.toNat
        ⟨e1, (o1.funFree start () false).1, start, f1, false, none, results⟩ with ⟨e2, o2, _ | s⟩
      · rw [hq] at hm; exact absurd (congrArg (·.2.2) hm) (by simp)
      · rw [hq] at hm
        simp only at hm
        obtain ⟨h1, h2⟩ := repLoop_par hf maxIter.toNat _ s e2 o2
          (o := o) (hs.of_same (.funFree o1 start false)) (fun h => absurd rfl h) hq
        cases hl : s.last with
        | none => rw [hl] at hm; exact absurd (congrArg (·.2.2) hm) (by simp)
        | some q =>
          rw [hl] at hm
          simp only [Prod.mk.injEq, Except.ok.injEq] at hm
          obtain ⟨-, rfl, rfl⟩ := hm
          have := h2 (by rw [hl]; simp)
          rw [h1]
          exact this
  unfold repeatedlyOptimize at h
  cases initFun with
  | none =>
    simp only at h
    exact main env o initX [] ⟨rfl, rfl⟩ h
  | some g =>
    simp only at h
    have hk := hi g rfl env o initX
    rcases hq : g env o initX with ⟨s1, o1, _ | ⟨x1, r1⟩⟩
    · rw [hq] at h; exact absurd (congrArg (·.2.2) h) (by simp)
    · rw [hq] at h hk
      simp only at h
      exact main s1 o1 x1 _ ⟨hk.1, hk.2⟩ h

/-! ### C126 -/

theorem HasValue.unique {o : Objective Unit} {x : List ℝ} {f g : ℝ} (hf : HasValue o x f)
    (hg : HasValue o x g) : f = g := by
  obtain ⟨v, hv, hv'⟩ := hf
  obtain ⟨w, hw, hw'⟩ := hg
  rw [hv, Except.ok.injEq] at hw
  subst hw
  rw [hv'] at hw'
  simpa using hw'

theorem calls_le {σ R : Type} {f : OptFun σ R} {o : Objective Unit} (hm : NeverIncreases f o)
    {gtol ftol xtol : ℝ} : ∀ (x : List ℝ) (calls : List (List ℝ × R × Bool × Bool × Bool)),
    Calls f o gtol ftol xtol x calls → ∀ fx, HasValue o x fx → ∀ c ∈ calls, ∃ fy, HasValue o c.1 fy ∧ fy ≤ fx := by
  intro x calls h
  induction h with
  | nil => intro fx _ c hc; exact absurd hc (by simp)
  | cons s p s' p' hcall hfl _ ih =>
    intro fx hx c hc
    obtain ⟨fx', fy, -, hy, -⟩ := hfl.value
    have hle := hm _ _ _ _ _ _ _ hcall fx fy hx hy
    rcases List.mem_cons.mp hc with rfl | hc
    · exact ⟨fy, hy, hle⟩
    · obtain ⟨fz, hz, hzle⟩ := ih fy hy c hc
      exact ⟨fz, hz, hzle.trans hle⟩

/-- **C126** When the optimization functions never return a point with a larger value of the objective than
their starting point, neither does repeated optimization: the value at the returned point is at most the
value at `init_x`, however often it calls them and whatever flag stops it. -/
theorem C126_no_increase {σ R : Type} (env : σ) (o : Objective Unit) (f : OptFun σ R) (hf : KeepsObjective f)
    (hm : NeverIncreases f o) (initX : List ℝ) (initFun : Option (OptFun σ R))
    (hi : ∀ g, initFun = some g → KeepsObjective g ∧ NeverIncreases g o)
    (maxIter : ℤ) (gtol ftol xtol : ℝ) (keep : Bool) {e' : σ} {o' : Objective Unit} {res : RepResult R}
    (h : repeatedlyOptimize env o f initX initFun maxIter gtol ftol xtol keep = (e', o', .ok res))
    {f0 : ℝ} (h0 : HasValue o initX f0) :
    ∃ f1, HasValue o res.x f1 ∧ f1 ≤ f0 := by
  obtain ⟨start, first, init, hstart, hcalls, -⟩ := C67_repeated env o f hf initX initFun
    (fun g hg => (hi g hg).1) maxIter gtol ftol xtol keep h
  have hval : ∃ fs, HasValue o start fs ∧ fs ≤ f0 := by
    rcases hstart with ⟨-, rfl, -⟩ | ⟨g, s1, o1, r0, hg, hcall, -⟩
    · exact ⟨f0, h0, le_rfl⟩
    · have : ∃ fs, HasValue o start fs := by
        cases init with
        | nil =>
          cases hcalls with
          | cons _ _ _ _ _ hfl _ => obtain ⟨a, b, ha, -⟩ := hfl.value; exact ⟨a, ha⟩
        | cons c init =>
          cases hcalls with
          | cons _ _ _ _ _ hfl _ => obtain ⟨a, b, ha, -⟩ := hfl.value; exact ⟨a, ha⟩
      obtain ⟨fs, hfs⟩ := this
      exact ⟨fs, hfs, (hi g hg).2 _ _ _ _ _ _ _ hcall f0 fs h0 hfs⟩
  obtain ⟨fs, hfs, hle⟩ := hval
  obtain ⟨fy, hy, hyle⟩ := calls_le hm _ _ hcalls fs hfs (res.x, res.objOpt, res.xConv, res.fConv, res.gradConv)
    (by simp)
  exact ⟨fy, hy, hyle.trans hle⟩

/-! ### C127 -/

/-- What is needed of the three functions given to the optimizer, for the logger: a value request at `x`
that succeeds appends the point `y` with `Q x y` and the value (`disp`), or leaves the logger (not `disp`);
the other two leave it. -/
structure LogFns (o : Objective Unit) (disp : Bool) (Q : List ℝ → List ℝ → Prop) (V : List ℝ → Arr → Prop)
    (G : List ℝ → List ℝ → Prop) (H : List ℝ → List ℝ → List ℝ → Prop)
    (fn : Objective Unit → List ℝ → Objective Unit × Py Arr)
    (jac : Objective Unit → List ℝ → Objective Unit × Py (List ℝ))
    (hessp : Option (Objective Unit → List ℝ → List ℝ → Objective Unit × Py (List ℝ))) : Prop where
  fnSame : ∀ p x, SameObj o p → SameObj o (fn p x).1
  jacSame : ∀ p x, SameObj o p → SameObj o (jac p x).1
  hvpSame : ∀ h, hessp = some h → ∀ p x v, SameObj o p → SameObj o (h p x v).1
  fnVal : ∀ p x v, SameObj o p → (fn p x).2 = .ok v → V x v
  jacVal : ∀ p x g, SameObj o p → (jac p x).2 = .ok g → G x g
  hvpVal : ∀ h, hessp = some h → ∀ p x v w, SameObj o p → (h p x v).2 = .ok w → H x v w
  fnLog : ∀ p x v, SameObj o p → (fn p x).2 = .ok v → ∃ y, Q x y ∧
    (disp = true → (fn p x).1.logger.xArray = p.logger.xArray ++ [y] ∧
      (fn p x).1.logger.valArray = p.logger.valArray ++ [v] ∧ (fn p x).1.logger.iter = p.logger.iter + 1) ∧
    (disp = false → (fn p x).1.logger = p.logger)
  jacLog : ∀ p x g, (jac p x).2 = .ok g → (jac p x).1.logger = p.logger
  hvpLog : ∀ h, hessp = some h → ∀ p x v w, (h p x v).2 = .ok w → (h p x v).1.logger = p.logger

theorem run_log {o : Objective Unit} {disp Q V G H fn jac hessp} (hg : LogFns o disp Q V G H fn jac hessp)
    (t : Optimizer) : ∀ p, SameObj o p → ∀ p' r, t.run fn jac hessp p = (p', .ok r) →
      ∃ qs, t.Asks V G H qs r ∧
        ∃ ys : List (List ℝ), List.Forall₂ Q (qs.map (·.1)) ys ∧
          (disp = true → p'.logger.xArray = p.logger.xArray ++ ys ∧
            p'.logger.valArray = p.logger.valArray ++ qs.map (·.2) ∧
            p'.logger.iter = p.logger.iter + qs.length) ∧
          (disp = false → p'.logger = p.logger) := by
  induction t with
  | done r =>
    intro p _ p' r' hr
    simp only [Optimizer.run, Prod.mk.injEq, Except.ok.injEq] at hr
    obtain ⟨rfl, rfl⟩ := hr
    exact ⟨[], .done _, [], .nil, by simp⟩
  | fail e => intro p _ p' r hr; exact absurd (congrArg Prod.snd hr) (by simp [Optimizer.run])
  | value x k ih =>
    intro p hp p' r hr
    simp only [Optimizer.run] at hr
    cases hq : (fn p x).2 with
    | error e => rw [hq] at hr; exact absurd (congrArg Prod.snd hr) (by simp)
    | ok v =>
      rw [hq] at hr
      obtain ⟨qs, h1, ys, h2, h3, h4⟩ := ih v _ (hg.fnSame p x hp) p' r hr
      obtain ⟨y, hy, hl, hn⟩ := hg.fnLog p x v hp hq
      refine ⟨(x, v) :: qs, .value (hg.fnVal p x v hp hq) h1, y :: ys, .cons hy h2, ?_, ?_⟩
      · intro hd
        obtain ⟨a, b, c⟩ := h3 hd
        obtain ⟨a', b', c'⟩ := hl hd
        refine ⟨by rw [a, a']; simp, by rw [b, b']; simp, by rw [c, c']; simp; omega⟩
      · intro hd; rw [h4 hd, hn hd]
  | grad x k ih =>
    intro p hp p' r hr
    simp only [Optimizer.run] at hr
    cases hq : (jac p x).2 with
    | error e => rw [hq] at hr; exact absurd (congrArg Prod.snd hr) (by simp)
    | ok v =>
      rw [hq] at hr
      obtain ⟨qs, h1, ys, h2, h3, h4⟩ := ih v _ (hg.jacSame p x hp) p' r hr
      have hl := hg.jacLog p x v hq
      rw [hl] at h3 h4
      exact ⟨qs, .grad (hg.jacVal p x v hp hq) h1, ys, h2, h3, h4⟩
  | hvp x v k ih =>
    intro p hp p' r hr
    cases hh : hessp with
    | none => subst hh; exact absurd (congrArg Prod.snd hr) (by simp [Optimizer.run])
    | some f =>
      have hs := hg.hvpSame f hh p x v hp
      have hv := hg.hvpVal f hh p x v
      have hl := hg.hvpLog f hh p x v
      subst hh
      simp only [Optimizer.run] at hr
      cases hw : (f p x v).2 with
      | error e => rw [hw] at hr; exact absurd (congrArg Prod.snd hr) (by simp)
      | ok w =>
        rw [hw] at hr
        obtain ⟨qs, h1, ys, h2, h3, h4⟩ := ih w _ hs p' r hr
        rw [hl w hw] at h3 h4
        exact ⟨qs, .hvp (hv w hp hw) h1, ys, h2, h3, h4⟩

theorem Logger.log_none {V : Type} {l : Logger V} {v : V} {x : List ℝ} (h : (l.log v x).2 = none) :
    (l.log v x).1.xArray = l.xArray ++ [x] ∧ (l.log v x).1.valArray = l.valArray ++ [v] ∧
      (l.log v x).1.iter = l.iter + 1 := by
  unfold Logger.log at h ⊢
  simp only at h ⊢
  split at h
  · simp at h
  · split at h
    · simp at h
    · rename_i h1 h2
      rw [if_neg h1, if_neg h2]
      refine ⟨?_, ?_, ?_⟩ <;> split_ifs <;> rfl

theorem funFree_log {p : Objective Unit} {x : List ℝ} {b : Bool} {v : Arr} (h : (p.funFree x () b).2 = .ok v) :
    (b = true → (p.funFree x () b).1.logger.xArray = p.logger.xArray ++ [x] ∧
      (p.funFree x () b).1.logger.valArray = p.logger.valArray ++ [v] ∧
      (p.funFree x () b).1.logger.iter = p.logger.iter + 1) ∧
    (b = false → (p.funFree x () b).1.logger = p.logger) := by
  constructor
  · rintro rfl
    unfold Objective.funFree at h ⊢
    cases hn : (p.par.setFree x).2 with
    | some e => simp [hn] at h
    | none =>
      cases hw : p.fn () ((p.par.setFree x).1.mark false) with
      | error e => simp [hn, hw] at h
      | ok w =>
        simp only [hn, hw] at h ⊢
        simp only [if_true] at h ⊢
        cases hl : (p.logger.log w x).2 with
        | some e => rw [hl] at h; simp at h
        | none =>
          rw [hl] at h
          simp only [Except.ok.injEq] at h
          subst h
          exact Logger.log_none hl
  · rintro rfl
    exact (C47_objective_logs p x ()).1

theorem funFreeCond_log {p : Objective Unit} {P : Arr} (hP : p.precond = some P) {x : List ℝ} {b : Bool} {v : Arr}
    (h : (p.funFreeCond x () b).2 = .ok v) : ∃ y, P.mulVec x = .ok y ∧
    (b = true → (p.funFreeCond x () b).1.logger.xArray = p.logger.xArray ++ [y] ∧
      (p.funFreeCond x () b).1.logger.valArray = p.logger.valArray ++ [v] ∧
      (p.funFreeCond x () b).1.logger.iter = p.logger.iter + 1) ∧
    (b = false → (p.funFreeCond x () b).1.logger = p.logger) := by
  simp only [Objective.funFreeCond, hP, Objective.conditionedX] at h ⊢
  cases hy : P.mulVec x with
  | error e => rw [hy] at h; exact absurd h (by simp)
  | ok y =>
    rw [hy] at h
    simp only at h ⊢
    exact ⟨y, rfl, funFree_log h⟩

theorem funFreeGradCond_logger (p : Objective Unit) (x : List ℝ) :
    (p.funFreeGradCond x ()).1.logger = p.logger := by
  unfold Objective.funFreeGradCond
  split
  · rfl
  · split <;> rfl

theorem funFreeHvpCond_logger (p : Objective Unit) (x v : List ℝ) :
    (p.funFreeHvpCond x () v).1.logger = p.logger := by
  unfold Objective.funFreeHvpCond
  split
  · rfl
  · split
    · rfl
    · split <;> rfl

theorem SameObj.hvp {o o' : Objective Unit} (hs : SameObj o o') {x v w : List ℝ}
    (h : (o'.funFreeHvp x () v).2 = .ok w) : (o.funFreeHvp x () v).2 = .ok w := by
  have e : valueAt (o'.fn ()) o'.par true = valueAt (o.fn ()) o.par true := by
    funext y
    rw [hs.fn, valueAt_blank hs.blank.symm]
  have h' := cacheAndEval_ok h
  have h1 : (setPar o.par x true).2 = none := (setPar_indep hs.blank x true).1.trans h'.2.1
  rw [Objective.funFreeHvp, o.deriv_value true x () _ h1, ← e]
  exact h'.1

/-- The functions given to the optimizer without a preconditioner. -/
theorem log_plain (o : Objective Unit) (disp useHvp : Bool) :
    LogFns o disp (fun x y => y = x) (fun x v => (o.funFree x () false).2 = .ok v)
      (fun x g => (o.funFreeGrad x ()).2 = .ok g) (fun x v w => (o.funFreeHvp x () v).2 = .ok w)
      (fun o x => o.funFree x () disp) (fun o x => o.funFreeGrad x ())
      (if useHvp then some fun o x v => o.funFreeHvp x () v else none) := by
  have g := good_plain o disp useHvp
  refine ⟨g.fnSame, g.jacSame, g.hvpSame, g.fnVal, g.jacVal, ?_, ?_, fun _ _ _ _ => rfl, ?_⟩
  · intro h hh p x v w hp hw
    cases useHvp with
    | false => exact absurd hh (by simp)
    | true =>
      injection hh with hh
      subst hh
      exact hp.hvp hw
  · intro p x v hp h
    exact ⟨x, rfl, funFree_log h⟩
  · intro h hh p x v w hw
    cases useHvp with
    | false => exact absurd hh (by simp)
    | true =>
      injection hh with hh
      subst hh
      rfl

/-- The functions given to the optimizer with a preconditioner. -/
theorem log_cond (o : Objective Unit) (P : Arr) (hP : o.precond = some P) (disp useHvp : Bool) :
    LogFns o disp (fun x y => P.mulVec x = .ok y)
      (fun x v => (o.funFreeCond x () false).2 = .ok v)
      (fun x g => (o.funFreeGradCond x ()).2 = .ok g)
      (fun x v w => (o.funFreeHvpCond x () v).2 = .ok w)
      (fun o x => o.funFreeCond x () disp) (fun o x => o.funFreeGradCond x ())
      (if useHvp then some fun o x v => o.funFreeHvpCond x () v else none) := by
  have g := good_cond o P hP disp useHvp
  refine ⟨g.fnSame, g.jacSame, g.hvpSame, ?_, ?_, ?_, ?_, fun p x _ _ => funFreeGradCond_logger p x, ?_⟩
  · intro p x v hp h
    obtain ⟨y, hy, hv⟩ := g.fnVal p x v hp h
    simp only [Objective.funFreeCond, hP, Objective.conditionedX, hy]
    exact hv
  · intro p x v hp h
    obtain ⟨y, g', hy, hv, hv'⟩ := g.jacVal p x v hp h
    simp only [Objective.funFreeGradCond, hP, Objective.conditionedX, hy, hv, py_ok_bind, hv']
  · intro h hh p x v w hp hw
    cases useHvp with
    | false => exact absurd hh (by simp)
    | true =>
      injection hh with hh
      subst hh
      simp only [Objective.funFreeHvpCond, hp.precond, hP, Objective.conditionedX] at hw ⊢
      cases hy : P.mulVec x with
      | error e => rw [hy] at hw; exact absurd hw (by simp)
      | ok y =>
        rw [hy] at hw
        simp only at hw ⊢
        cases hv : P.mulVec v with
        | error e => rw [hv] at hw; exact absurd hw (by simp)
        | ok pv =>
          rw [hv] at hw
          simp only at hw ⊢
          cases hg : (p.funFreeHvp y () pv).2 with
          | error e => rw [hg] at hw; exact absurd hw (by simp [py_err_bind])
          | ok u => rw [hp.hvp hg]; rw [hg] at hw; exact hw
  · intro p x v hp h
    exact funFreeCond_log (hp.precond.trans hP) h
  · intro h hh p x v w hw
    cases useHvp with
    | false => exact absurd hh (by simp)
    | true =>
      injection hh with hh
      subst hh
      exact funFreeHvpCond_logger p x v

/-- **C127** Whenever a minimization without preconditioning returns, there is the list of the values that
the optimizer, started at `init_x`, asked for while it got the objective's own values, gradients and
Hessian-vector products.  With `disp=True` the logger then has exactly these points and values, in this
order, and their number as iteration count — after what it had before with `init_logger=False`.  With
`disp=False` they are not recorded. -/
theorem C127_history {useHvp : Bool} {opt : List ℝ → Optimizer} {o o' : Objective Unit} {initX : List ℝ}
    {disp : Bool} {printEvery : Option ℕ} {initLogger : Bool} {optX : List ℝ} {res : OptResult}
    (h : minimizeObjective useHvp opt o initX false disp printEvery initLogger = (o', .ok (optX, res))) :
    ∃ qs : List (List ℝ × Arr),
      (opt initX).Asks (fun x v => (o.funFree x () false).2 = .ok v) (fun x g => (o.funFreeGrad x ()).2 = .ok g)
        (fun x v w => (o.funFreeHvp x () v).2 = .ok w) qs res ∧
      o'.logger.xArray = (if initLogger then [] else o.logger.xArray) ++ (if disp then qs.map (·.1) else []) ∧
      o'.logger.valArray = (if initLogger then [] else o.logger.valArray) ++ (if disp then qs.map (·.2) else []) ∧
      o'.logger.iter = (if initLogger then 0 else o.logger.iter) + (if disp then qs.length else 0) := by
  obtain ⟨hr, -⟩ := minimize_plain_ok h
  obtain ⟨qs, h1, ys, h2, h3, h4⟩ := run_log (log_plain o disp useHvp) (opt initX) _
    (startObj_same o printEvery initLogger) o' res hr
  have hys : ys = qs.map (·.1) := by
    clear h3 h4
    revert h2
    generalize qs.map (·.1) = zs
    intro h2
    induction h2 with
    | nil => rfl
    | cons a _ ih => rw [a, ih]
  subst hys
  have hl : (startObj o printEvery initLogger).logger.xArray = (if initLogger then [] else o.logger.xArray) ∧
      (startObj o printEvery initLogger).logger.valArray = (if initLogger then [] else o.logger.valArray) ∧
      (startObj o printEvery initLogger).logger.iter = (if initLogger then 0 else o.logger.iter) := by
    cases initLogger <;> cases printEvery <;> exact ⟨rfl, rfl, rfl⟩
  refine ⟨qs, h1, ?_⟩
  cases disp with
  | true =>
    obtain ⟨a, b, c⟩ := h3 rfl
    rw [a, b, c, hl.1, hl.2.1, hl.2.2]
    simp
  | false =>
    rw [h4 rfl, hl.1, hl.2.1, hl.2.2]
    simp

/-- **C127** with a preconditioner `P`: the optimizer starts at the solution `x0` of `P x0 = init_x` and gets
the values and derivatives of the preconditioned objective; the recorded points are the images under `P` of
the points it asked for, that is, points of the original space. -/
theorem C127_history_preconditioned {useHvp : Bool} {opt : List ℝ → Optimizer} {o o' : Objective Unit}
    {initX : List ℝ} {P : Arr} (hP : o.precond = some P)
    {disp : Bool} {printEvery : Option ℕ} {initLogger : Bool} {optX : List ℝ} {res : OptResult}
    (h : minimizeObjective useHvp opt o initX true disp printEvery initLogger = (o', .ok (optX, res))) :
    ∃ (x0 : List ℝ) (qs : List (List ℝ × Arr)) (ys : List (List ℝ)), npSolve P initX = .ok x0 ∧
      (opt x0).Asks (fun x v => (o.funFreeCond x () false).2 = .ok v)
        (fun x g => (o.funFreeGradCond x ()).2 = .ok g)
        (fun x v w => (o.funFreeHvpCond x () v).2 = .ok w) qs res ∧
      List.Forall₂ (fun q y => P.mulVec q.1 = .ok y ∧ (o.funFree y () false).2 = .ok q.2) qs ys ∧
      o'.logger.xArray = (if initLogger then [] else o.logger.xArray) ++ (if disp then ys else []) ∧
      o'.logger.valArray = (if initLogger then [] else o.logger.valArray) ++ (if disp then qs.map (·.2) else []) ∧
      o'.logger.iter = (if initLogger then 0 else o.logger.iter) + (if disp then qs.length else 0) := by
  obtain ⟨x0, hx, hr, -⟩ := minimize_cond_ok hP h
  obtain ⟨qs, h1, ys, h2, h3, h4⟩ := run_log (log_cond o P hP disp useHvp) (opt x0) _
    (startObj_same o printEvery initLogger) o' res hr
  have hl : (startObj o printEvery initLogger).logger.xArray = (if initLogger then [] else o.logger.xArray) ∧
      (startObj o printEvery initLogger).logger.valArray = (if initLogger then [] else o.logger.valArray) ∧
      (startObj o printEvery initLogger).logger.iter = (if initLogger then 0 else o.logger.iter) := by
    cases initLogger <;> cases printEvery <;> exact ⟨rfl, rfl, rfl⟩
  have hq : List.Forall₂ (fun q y => P.mulVec q.1 = .ok y ∧ (o.funFree y () false).2 = .ok q.2) qs ys := by
    clear h3 h4 hr hx h
    generalize opt x0 = t at h1
    induction h1 generalizing ys with
    | done r => cases h2; exact .nil
    | value hv _ ih =>
      cases h2 with
      | cons hy h2 =>
        refine .cons ⟨hy, ?_⟩ (ih _ h2)
        simp only [Objective.funFreeCond, hP, Objective.conditionedX, hy] at hv
        exact hv
    | grad _ _ ih => exact ih _ h2
    | hvp _ _ ih => exact ih _ h2
  refine ⟨x0, qs, ys, hx, h1, hq, ?_⟩
  cases disp with
  | true =>
    obtain ⟨a, b, c⟩ := h3 rfl
    rw [a, b, c, hl.1, hl.2.1, hl.2.2]
    simp
  | false =>
    rw [h4 rfl, hl.1, hl.2.1, hl.2.2]
    simp

/-! ### The hypotheses are met -/

open Classical in
/-- An optimization function that moves by −1 in every entry if the objective returns a number there that
is not larger, and counts its calls. -/
noncomputable def guardedStep (o : Objective Unit) : OptFun ℕ Unit := fun s p x =>
  (s + 1, p, .ok (if ∃ fx fy, HasValue o x fx ∧ HasValue o (x.map (· - 1)) fy ∧ fy ≤ fx then x.map (· - 1) else x, ()))

/-- The hypotheses of C125 and C126 hold for `guardedStep` on the example objective, with an initial
optimization, and repeated optimization returns. -/
example : KeepsObjective (guardedStep exObj) ∧ NeverIncreases (guardedStep exObj) exObj ∧
    ∃ e' o' res f0, repeatedlyOptimize 0 exObj (guardedStep exObj) [1, 2, 3] none 5 0.1 0.1 0.1 true =
      (e', o', .ok res) ∧ HasValue exObj [1, 2, 3] f0 := by
  have hk : KeepsObjective (guardedStep exObj) := fun s o x => ⟨rfl, rfl⟩
  have hv : ∀ x : List ℝ, x.length = 3 → (exObj.funFree x () false).2 = .ok (Arr.scalar (exDict.ftvP x).sum) := by
    intro x hx
    rw [Objective.funFree_value]
    exact exObj_value x hx
  refine ⟨hk, ?_, ?_⟩
  · intro s p x s' p' y r h fx fy hx hy
    simp only [guardedStep, Prod.mk.injEq, Except.ok.injEq] at h
    obtain ⟨-, -, h, -⟩ := h
    split_ifs at h with hc
    · subst h
      obtain ⟨a, b, ha, hb, hab⟩ := hc
      rw [hx.unique ha, hy.unique hb]
      exact hab
    · subst h
      exact (hy.unique hx).le
  · obtain ⟨res, hres⟩ := C68_returns_partial 0 exObj (guardedStep exObj) hk 3
      (fun s p x hx => ⟨_, _, rfl, by split_ifs <;> simpa using hx⟩) _ hv [1, 2, 3] rfl 5 (by norm_num) 0.1 0.1 0.1 true
    exact ⟨_, _, res, _, Prod.ext rfl (Prod.ext rfl hres), Arr.scalar _, hv _ rfl, rfl⟩

theorem funFree_true {o : Objective Unit} {x : List ℝ} {v : Arr} (h : (o.funFree x () false).2 = .ok v)
    (hl : (o.logger.log v x).2 = none) : (o.funFree x () true).2 = .ok v := by
  unfold Objective.funFree at h ⊢
  cases hn : (o.par.setFree x).2 with
  | some e => simp [hn] at h
  | none =>
    cases hw : o.fn () ((o.par.setFree x).1.mark false) with
    | error e => simp [hn, hw] at h
    | ok w =>
      simp only [hn, hw] at h ⊢
      simp only [Bool.false_eq_true, if_false, if_true, Except.ok.injEq] at h ⊢
      subst h
      rw [hl]

/-- The hypothesis of C127: a minimization of the example objective with `disp=True` returns. -/
example : ∃ o' optX res, minimizeObjective true stayAtStart exObj [1, 2, 3] false true none true =
    (o', .ok (optX, res)) := by
  have hs := startObj_same exObj none true
  set o0 := startObj exObj none true with ho0
  have hval : ∀ q, SameObj exObj q →
      valueAt (q.fn ()) q.par true [1, 2, 3] = .ok (Arr.scalar (exDict.ftvP [1, 2, 3]).sum) := by
    intro q hq
    rw [hq.fn, valueAt_blank hq.blank.symm]
    exact exObj_value [1, 2, 3] rfl
  have h1 : (o0.funFree [1, 2, 3] () true).2 = .ok (Arr.scalar (exDict.ftvP [1, 2, 3]).sum) := by
    refine funFree_true (by rw [o0.funFree_value]; exact hval o0 hs) ?_
    simp [ho0, startObj, Logger.log, Logger.reset, exObj, Objective.new, Logger.new]
  have hs1 : SameObj exObj (o0.funFree [1, 2, 3] () true).1 := hs.trans (.funFree o0 _ true)
  set o1 := (o0.funFree [1, 2, 3] () true).1 with ho1
  obtain ⟨g, hg⟩ : ∃ g, (o1.funFreeGrad [1, 2, 3] ()).2 = .ok g := by
    have h2 := hval o1 hs1
    refine ⟨(List.range [(1 : ℝ), 2, 3].length).map fun j =>
      pd (fun y => entryA 0 (valueAt (o1.fn ()) o1.par true y)) [1, 2, 3] j,
      funFreeGrad_ok_iff.mpr ⟨valueAt_ok_set h2, ?_⟩⟩
    rw [agGrad, h2, py_ok_bind, if_neg (by simp [Arr.size, Arr.scalar])]
  rw [minimize_plain]
  simp only [stayAtStart, Optimizer.run, ← ho0]
  rw [h1]
  simp only [← ho1]
  rw [hg]
  exact ⟨_, _, _, rfl⟩

end LRVB
