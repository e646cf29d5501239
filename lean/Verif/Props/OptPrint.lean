import Verif.Model.OptPrint
import Verif.Props.Repeated2

/-!
# C182: the messages of repeated optimization
-/

namespace LRVB

/-! ### Specification -/

/-- What is printed by complete iterations, the first of them the `i`-th, on the way from `x` to `z`: each
announces itself, calls the optimization function at the point reached so far, and prints the number of
iterations so far, the distance moved, the change of the value and the size of the gradient at the new
point. -/
inductive Printed {σ R : Type} (f : OptFun σ R) (o : Objective Unit) : ℕ → List ℝ → List OptMsg → List ℝ → Prop
  | nil {i x} : Printed f o i x [] x
  | step {i x y z rest r fx fy g} (s : σ) (p : Objective Unit) (s' : σ) (p' : Objective Unit) :
      f s p x = (s', p', .ok (y, r)) → y.length = x.length → HasValue o x fx → HasValue o y fy →
      (o.funFreeGrad y ()).2 = .ok g → Printed f o (i + 1) y rest z →
      Printed f o i x (.start i :: .iter (i + 1) (l1dist y x) |fy - fx| (l1norm g) :: rest) z

/-- The distance moved, as printed; zero for the other messages. -/
def OptMsg.xDiff : OptMsg → ℝ
  | .iter _ a _ _ => a
  | _ => 0

/-- The change of the value, as printed. -/
def OptMsg.fDiff : OptMsg → ℝ
  | .iter _ _ b _ => b
  | _ => 0

/-- The message of an iteration after which all three numbers are at least the tolerances. -/
def OptMsg.GoesOn (gtol ftol xtol : ℝ) : OptMsg → Prop
  | .iter _ a b c => xtol ≤ a ∧ ftol ≤ b ∧ gtol ≤ c
  | _ => True

/-! ### Lemmas -/

section

variable {σ R : Type} {f : OptFun σ R} {gtol ftol xtol : ℝ} {keep : Bool}

theorem repStepP_snd (disp : Bool) (i : ℕ) (s : RepState σ R) :
    (repStepP f gtol ftol xtol keep disp i s).2 = repStep f gtol ftol xtol keep s := by
  unfold repStepP repStep
  rcases f s.env s.obj s.x with ⟨s1, p1, _ | ⟨y, r⟩⟩
  · rfl
  · simp only
    split
    · rename_i h; simp only [h]
    · rename_i newF h
      simp only [h]
      split
      · rename_i h2; simp only [h2]
      · rename_i g h2
        simp only [h2]
        split
        · rename_i h3; simp only [h3]
        · rename_i h3; simp only [h3]

theorem repStepP_quiet (i : ℕ) (s : RepState σ R) : (repStepP f gtol ftol xtol keep false i s).1 = [] := by
  unfold repStepP
  rcases f s.env s.obj s.x with ⟨s1, p1, _ | ⟨y, r⟩⟩
  · rfl
  · simp only [OptMsg.shown, Bool.false_eq_true, if_false]
    split
    · rfl
    · split
      · rfl
      · split <;> rfl

theorem repLoopP_snd (disp : Bool) : ∀ (n i : ℕ) (s : RepState σ R),
    (repLoopP f gtol ftol xtol keep disp n i s).2 = repLoop f gtol ftol xtol keep n s := by
  intro n
  induction n with
  | zero => intro i s; rfl
  | succ n ih =>
    intro i s
    rw [repLoopP, repLoop]
    split
    · rfl
    · have hs := repStepP_snd (f := f) (gtol := gtol) (ftol := ftol) (xtol := xtol) (keep := keep) disp i s
      rcases hq : repStepP f gtol ftol xtol keep disp i s with ⟨m, e, p, _ | s1⟩
      · rw [hq] at hs
        rw [← hs]
      · rw [hq] at hs
        rw [← hs]
        exact ih (i + 1) s1

theorem repLoopP_quiet : ∀ (n i : ℕ) (s : RepState σ R),
    (repLoopP f gtol ftol xtol keep false n i s).1 = [] := by
  intro n
  induction n with
  | zero => intro i s; rfl
  | succ n ih =>
    intro i s
    rw [repLoopP]
    split
    · rfl
    · have hs := repStepP_quiet (f := f) (gtol := gtol) (ftol := ftol) (xtol := xtol) (keep := keep) i s
      rcases hq : repStepP f gtol ftol xtol keep false i s with ⟨m, e, p, _ | s1⟩
      · rw [hq] at hs
        exact hs
      · rw [hq] at hs
        simp only at hs ⊢
        rw [hs, ih (i + 1) s1]
        rfl

/-- The messages of one iteration. -/
theorem repStepP_ok (hf : KeepsObjective f) {o : Objective Unit} {i : ℕ} {s s' : RepState σ R}
    (hs : SameFn o s.obj) (hv : HasValue o s.x s.fVal) {m : List OptMsg} {e : σ} {p : Objective Unit}
    (h : repStepP f gtol ftol xtol keep true i s = (m, e, p, .ok s')) :
    ∃ s1 p1 r g, f s.env s.obj s.x = (s1, p1, .ok (s'.x, r)) ∧ s'.x.length = s.x.length ∧
      HasValue o s'.x s'.fVal ∧ (o.funFreeGrad s'.x ()).2 = .ok g ∧
      m = [.start i, .iter (i + 1) (l1dist s'.x s.x) |s'.fVal - s.fVal| (l1norm g)] ∧
      s'.converged = (decide (l1dist s'.x s.x < xtol) || decide (|s'.fVal - s.fVal| < ftol) ||
        decide (l1norm g < gtol)) ∧
      s'.last = some (decide (l1dist s'.x s.x < xtol), decide (|s'.fVal - s.fVal| < ftol),
        decide (l1norm g < gtol), r) ∧ SameFn o s'.obj := by
  unfold repStepP at h
  have hk := hf s.env s.obj s.x
  rcases hq : f s.env s.obj s.x with ⟨s1, p1, _ | ⟨y, r⟩⟩
  · rw [hq] at h; simp only at h; exact absurd (congrArg (·.2.2.2) h) (by simp)
  · rw [hq] at h hk
    simp only at h hk
    have hs1 : SameFn o p1 := ⟨hk.1.trans hs.fn, hk.2.trans hs.blank⟩
    cases hn : (do scalarOf (← (p1.funFree y () false).2)) with
    | error er => rw [hn] at h; exact absurd (congrArg (·.2.2.2) h) (by simp)
    | ok newF =>
      rw [hn] at h
      simp only at h
      have hv' := scalar_value hs1 hn
      have hs2 : SameFn o (p1.funFree y () false).1 := hs1.of_same (.funFree p1 y false)
      cases hg : ((p1.funFree y () false).1.funFreeGrad y ()).2 with
      | error er => rw [hg] at h; exact absurd (congrArg (·.2.2.2) h) (by simp)
      | ok g =>
        rw [hg] at h
        simp only at h
        cases hd : vsub y s.x with
        | error er => rw [hd] at h; exact absurd (congrArg (·.2.2.2) h) (by simp)
        | ok dx =>
          rw [hd] at h
          obtain ⟨hl, hdist⟩ := l1_vsub hd
          simp only at h
          rw [hdist, l1_eq] at h
          simp only [Prod.mk.injEq, Except.ok.injEq, OptMsg.shown, if_true] at h
          obtain ⟨rfl, -, -, rfl⟩ := h
          exact ⟨s1, p1, r, g, rfl, hl, hv', hs2.grad hg, rfl, rfl, rfl,
            hs2.of_same (.deriv _ true y fun F => agGrad F y)⟩

theorem repStepP_error {i : ℕ} {s : RepState σ R} {m : List OptMsg} {e : σ} {p : Objective Unit} {er : PyErr}
    (h : repStepP f gtol ftol xtol keep true i s = (m, e, p, .error er)) : m = [.start i] := by
  unfold repStepP at h
  rcases hq : f s.env s.obj s.x with ⟨s1, p1, _ | ⟨y, r⟩⟩
  · rw [hq] at h
    exact (congrArg (·.1) h).symm
  · rw [hq] at h
    simp only at h
    split at h
    · exact (congrArg (·.1) h).symm
    · split at h
      · exact (congrArg (·.1) h).symm
      · split at h
        · exact (congrArg (·.1) h).symm
        · exact absurd (congrArg (·.2.2.2) h) (by simp)

/-- The messages of the loop, when it ends. -/
theorem repLoopP_ok (hf : KeepsObjective f) {o : Objective Unit} : ∀ (n i : ℕ) (s s' : RepState σ R)
    (m : List OptMsg) (e : σ) (p : Objective Unit), SameFn o s.obj → HasValue o s.x s.fVal →
    s.converged = false → repLoopP f gtol ftol xtol keep true n i s = (m, e, p, .ok s') →
    Printed f o i s.x m s'.x ∧ (m = [] → s' = s) ∧ (m ≠ [] → ∃ init k a b c r, m = init ++ [.iter (i + k) a b c] ∧
      m.length = 2 * k ∧ k ≤ n ∧ (∀ msg ∈ init, msg.GoesOn gtol ftol xtol) ∧
      s'.last = some (decide (a < xtol), decide (b < ftol), decide (c < gtol), r) ∧
      s'.converged = (decide (a < xtol) || decide (b < ftol) || decide (c < gtol)) ∧
      (s'.converged = false → k = n)) := by
  intro n
  induction n with
  | zero =>
    intro i s s' m e p _ _ _ h
    simp only [repLoopP, Prod.mk.injEq, Except.ok.injEq] at h
    obtain ⟨rfl, -, -, rfl⟩ := h
    exact ⟨.nil, fun _ => rfl, fun h => absurd rfl h⟩
  | succ n ih =>
    intro i s s' m e p hs hv hc h
    rw [repLoopP, hc] at h
    simp only [Bool.false_eq_true, if_false] at h
    rcases hq : repStepP f gtol ftol xtol keep true i s with ⟨m1, e1, p1, _ | s1⟩
    · rw [hq] at h; exact absurd (congrArg (·.2.2.2) h) (by simp)
    · rw [hq] at h
      simp only at h
      obtain ⟨t, q, r, g, hcall, hlen, hv1, hg, rfl, hconv, hlast, hs1⟩ := repStepP_ok hf hs hv hq
      rcases hrest : repLoopP f gtol ftol xtol keep true n (i + 1) s1 with ⟨m2, e2, p2, res⟩
      rw [hrest] at h
      simp only [Prod.mk.injEq] at h
      obtain ⟨rfl, rfl, rfl, rfl⟩ := h
      cases hcv : s1.converged with
      | true =>
        have hst : m2 = [] ∧ s' = s1 := by
          cases n with
          | zero =>
            simp only [repLoopP, Prod.mk.injEq, Except.ok.injEq] at hrest
            exact ⟨hrest.1.symm, hrest.2.2.2.symm⟩
          | succ n =>
            rw [repLoopP, hcv] at hrest
            simp only [if_true, Prod.mk.injEq, Except.ok.injEq] at hrest
            exact ⟨hrest.1.symm, hrest.2.2.2.symm⟩
        obtain ⟨rfl, rfl⟩ := hst
        refine ⟨.step _ _ _ _ hcall hlen hv hv1 hg .nil, fun h => absurd h (by simp), fun _ => ?_⟩
        refine ⟨[.start i], 1, _, _, _, r, rfl, rfl, by omega, ?_, hlast, hconv, fun h => ?_⟩
        · intro msg hmsg
          rw [List.mem_singleton] at hmsg
          subst hmsg
          trivial
        · rw [hcv] at h
          exact absurd h (by simp)
      | false =>
        obtain ⟨hP, hnil, hend⟩ := ih (i + 1) s1 s' m2 e2 p2 hs1 hv1 hcv hrest
        have hgo : (OptMsg.iter (i + 1) (l1dist s1.x s.x) |s1.fVal - s.fVal| (l1norm g)).GoesOn gtol ftol xtol := by
          rw [hcv] at hconv
          have := hconv.symm
          simp only [Bool.or_eq_false_iff, decide_eq_false_iff_not, not_lt] at this
          exact ⟨this.1.1, this.1.2, this.2⟩
        refine ⟨.step _ _ _ _ hcall hlen hv hv1 hg hP, fun h => absurd h (by simp), fun _ => ?_⟩
        by_cases hm : m2 = []
        · obtain rfl := hnil hm
          subst hm
          refine ⟨[.start i], 1, _, _, _, r, rfl, rfl, by omega, ?_, hlast, hconv, fun _ => ?_⟩
          · intro msg hmsg
            rw [List.mem_singleton] at hmsg
            subst hmsg
            trivial
          · cases n with
            | zero => rfl
            | succ n =>
              exfalso
              rw [repLoopP, hcv] at hrest
              simp only [Bool.false_eq_true, if_false] at hrest
              rcases hq2 : repStepP f gtol ftol xtol keep true (i + 1) s' with ⟨m3, e3, p3, _ | s3⟩
              · rw [hq2] at hrest; exact absurd (congrArg (·.2.2.2) hrest) (by simp)
              · rw [hq2] at hrest
                obtain ⟨t1, t2, t3, t4, t5, t6, t7, t8, t9, t10⟩ := repStepP_ok hf hs1 hv1 hq2
                rw [t9] at hrest
                exact absurd (congrArg (·.1) hrest) (by simp)
        · obtain ⟨init, k, a, b, c, r', h1, h2, h3, h4, h5, h6, h7⟩ := hend hm
          refine ⟨.start i :: .iter (i + 1) (l1dist s1.x s.x) |s1.fVal - s.fVal| (l1norm g) :: init, k + 1, a, b, c, r',
            ?_, ?_, by omega, ?_, h5, h6, fun h => by rw [h7 h]⟩
          · rw [h1]
            simp [add_assoc, add_comm 1 k]
          · simp [h2]
            ring
          · intro msg hmsg
            rcases List.mem_cons.1 hmsg with rfl | hmsg
            · trivial
            rcases List.mem_cons.1 hmsg with rfl | hmsg
            · exact hgo
            · exact h4 msg hmsg

/-- The messages of the loop, when an exception ends it. -/
theorem repLoopP_error (hf : KeepsObjective f) {o : Objective Unit} : ∀ (n i : ℕ) (s : RepState σ R)
    (m : List OptMsg) (e : σ) (p : Objective Unit) (er : PyErr), SameFn o s.obj → HasValue o s.x s.fVal →
    repLoopP f gtol ftol xtol keep true n i s = (m, e, p, .error er) →
    ∃ done k y, m = done ++ [.start (i + k)] ∧ done.length = 2 * k ∧ k < n ∧ Printed f o i s.x done y ∧
      ∀ msg ∈ done, msg.GoesOn gtol ftol xtol := by
  intro n
  induction n with
  | zero =>
    intro i s m e p er _ _ h
    exact absurd (congrArg (·.2.2.2) h) (by simp [repLoopP])
  | succ n ih =>
    intro i s m e p er hs hv h
    rw [repLoopP] at h
    split at h
    · exact absurd (congrArg (·.2.2.2) h) (by simp)
    rcases hq : repStepP f gtol ftol xtol keep true i s with ⟨m1, e1, p1, er1 | s1⟩
    · rw [hq] at h
      simp only [Prod.mk.injEq] at h
      obtain ⟨rfl, -⟩ := h
      have hm := repStepP_error hq
      exact ⟨[], 0, s.x, by rw [hm]; rfl, rfl, by omega, .nil, by simp⟩
    · rw [hq] at h
      simp only at h
      obtain ⟨t, q, r, g, hcall, hlen, hv1, hg, rfl, hconv, hlast, hs1⟩ := repStepP_ok hf hs hv hq
      rcases hrest : repLoopP f gtol ftol xtol keep true n (i + 1) s1 with ⟨m2, e2, p2, res⟩
      rw [hrest] at h
      simp only [Prod.mk.injEq] at h
      obtain ⟨rfl, rfl, rfl, rfl⟩ := h
      have hcv : s1.converged = false := by
        by_contra hc
        rw [Bool.not_eq_false] at hc
        cases n with
        | zero => exact absurd (congrArg (·.2.2.2) hrest) (by simp [repLoopP])
        | succ n =>
          rw [repLoopP, hc] at hrest
          exact absurd (congrArg (·.2.2.2) hrest) (by simp)
      obtain ⟨done, k, y, h1, h2, h3, h4, h5⟩ := ih (i + 1) s1 m2 e2 p2 er hs1 hv1 hrest
      have hgo : (OptMsg.iter (i + 1) (l1dist s1.x s.x) |s1.fVal - s.fVal| (l1norm g)).GoesOn gtol ftol xtol := by
        rw [hcv] at hconv
        have := hconv.symm
        simp only [Bool.or_eq_false_iff, decide_eq_false_iff_not, not_lt] at this
        exact ⟨this.1.1, this.1.2, this.2⟩
      refine ⟨.start i :: .iter (i + 1) (l1dist s1.x s.x) |s1.fVal - s.fVal| (l1norm g) :: done, k + 1, y, ?_, ?_,
        by omega, .step _ _ _ _ hcall hlen hv hv1 hg h4, ?_⟩
      · rw [h1]
        simp [add_assoc, add_comm 1 k]
      · simp [h2]
        ring
      · intro msg hmsg
        rcases List.mem_cons.1 hmsg with rfl | hmsg
        · trivial
        rcases List.mem_cons.1 hmsg with rfl | hmsg
        · exact hgo
        · exact h5 msg hmsg

end

/-- The point at which the loop starts: `init_x`, or what the initial optimization returned. -/
def StartsAt {σ R : Type} (env : σ) (o : Objective Unit) (initFun : Option (OptFun σ R)) (initX start : List ℝ) :
    Prop :=
  (initFun = none ∧ start = initX) ∨ ∃ g s1 o1 r0, initFun = some g ∧ g env o initX = (s1, o1, .ok (start, r0))

/-- The message of the initial optimization, if there is one. -/
def Heading {σ R : Type} (initFun : Option (OptFun σ R)) : List OptMsg :=
  match initFun with
  | none => []
  | some _ => [.initial]

/-- The part of `repeatedlyOptimize` after the initial optimization. -/
noncomputable def repRest {σ R : Type} (f : OptFun σ R) (maxIter : ℤ) (gtol ftol xtol : ℝ) (keep : Bool)
    (e1 : σ) (o1 : Objective Unit) (x1 : List ℝ) (results : List R) : σ × Objective Unit × Py (RepResult R) :=
  match (do scalarOf (← (o1.funFree x1 () false).2)) with
  | .error e => (e1, (o1.funFree x1 () false).1, .error e)
  | .ok f1 =>
    match repLoop f gtol ftol xtol keep maxIter.toNat
        ⟨e1, (o1.funFree x1 () false).1, x1, f1, false, none, results⟩ with
    | (e2, o2, .error e) => (e2, o2, .error e)
    | (e2, o2, .ok s) =>
      match s.last with
      | none => (e2, o2, .error .unboundLocal)
      | some (xConv, fConv, gradConv, objOpt) =>
        (e2, o2, .ok ⟨s.x, s.converged, xConv, fConv, gradConv, objOpt, s.optResults⟩)

theorem repeatedlyOptimizeP_snd {σ R : Type} (env : σ) (o : Objective Unit) (f : OptFun σ R) (initX : List ℝ)
    (initFun : Option (OptFun σ R)) (maxIter : ℤ) (gtol ftol xtol : ℝ) (keep disp : Bool) :
    (repeatedlyOptimizeP env o f initX initFun maxIter gtol ftol xtol keep disp).2 =
      repeatedlyOptimize env o f initX initFun maxIter gtol ftol xtol keep := by
  have main : ∀ (m : List OptMsg) (e1 : σ) (o1 : Objective Unit) (x1 : List ℝ) (results : List R),
      (repRestP f maxIter gtol ftol xtol keep disp m e1 o1 x1 results).2 =
      repRest f maxIter gtol ftol xtol keep e1 o1 x1 results := by
    intro m e1 o1 x1 results
    unfold repRestP repRest
    simp only
    cases (do scalarOf (← (o1.funFree x1 () false).2)) with
    | error er => rfl
    | ok f1 =>
      simp only
      have hs := repLoopP_snd (f := f) (gtol := gtol) (ftol := ftol) (xtol := xtol) (keep := keep) disp
        maxIter.toNat 0 ⟨e1, (o1.funFree x1 () false).1, x1, f1, false, none, results⟩
      rcases hq : repLoopP f gtol ftol xtol keep disp maxIter.toNat 0
        ⟨e1, (o1.funFree x1 () false).1, x1, f1, false, none, results⟩ with ⟨m2, e2, o2, _ | s⟩
      · rw [hq] at hs
        rw [← hs]
      · rw [hq] at hs
        rw [← hs]
        simp only
        rcases s.last with _ | ⟨a, b, c, d⟩ <;> rfl
  unfold repeatedlyOptimizeP repeatedlyOptimize
  cases initFun with
  | none => exact main [] env o initX []
  | some g =>
    simp only
    rcases g env o initX with ⟨s1, o1, _ | ⟨x1, r1⟩⟩
    · rfl
    · exact main _ s1 o1 x1 _

/-- **C182** (no effect) `disp` changes nothing but what is printed, and without it nothing is printed. -/
theorem C182_no_effect {σ R : Type} (env : σ) (o : Objective Unit) (f : OptFun σ R) (initX : List ℝ)
    (initFun : Option (OptFun σ R)) (maxIter : ℤ) (gtol ftol xtol : ℝ) (keep : Bool) :
    (repeatedlyOptimizeP env o f initX initFun maxIter gtol ftol xtol keep true).2 =
      (repeatedlyOptimizeP env o f initX initFun maxIter gtol ftol xtol keep false).2 ∧
    (repeatedlyOptimizeP env o f initX initFun maxIter gtol ftol xtol keep false).1 = [] := by
  refine ⟨by rw [repeatedlyOptimizeP_snd, repeatedlyOptimizeP_snd], ?_⟩
  have main : ∀ (e1 : σ) (o1 : Objective Unit) (x1 : List ℝ) (results : List R),
      (repRestP f maxIter gtol ftol xtol keep false [] e1 o1 x1 results).1 = [] := by
    intro e1 o1 x1 results
    unfold repRestP
    simp only
    cases (do scalarOf (← (o1.funFree x1 () false).2)) with
    | error er => rfl
    | ok f1 =>
      simp only
      have hs := repLoopP_quiet (f := f) (gtol := gtol) (ftol := ftol) (xtol := xtol) (keep := keep)
        maxIter.toNat 0 ⟨e1, (o1.funFree x1 () false).1, x1, f1, false, none, results⟩
      rcases hq : repLoopP f gtol ftol xtol keep false maxIter.toNat 0
        ⟨e1, (o1.funFree x1 () false).1, x1, f1, false, none, results⟩ with ⟨m2, e2, o2, _ | s⟩
      · rw [hq] at hs
        exact hs
      · rw [hq] at hs
        simp only
        rcases s.last with _ | ⟨a, b, c, d⟩ <;> exact hs
  unfold repeatedlyOptimizeP
  cases initFun with
  | none => exact main env o initX []
  | some g =>
    simp only
    rcases g env o initX with ⟨s1, o1, _ | ⟨x1, r1⟩⟩
    · rfl
    · exact main s1 o1 x1 _

/-- What is printed, by the way `repeatedly_optimize` ends. -/
theorem repeatedlyOptimizeP_cases {σ R : Type} (env : σ) (o : Objective Unit) (f : OptFun σ R)
    (hf : KeepsObjective f) (initX : List ℝ) (initFun : Option (OptFun σ R))
    (hi : ∀ g, initFun = some g → KeepsObjective g) (maxIter : ℤ) (gtol ftol xtol : ℝ) (keep : Bool)
    {out : List OptMsg} {e' : σ} {o' : Objective Unit} {res : Py (RepResult R)}
    (h : repeatedlyOptimizeP env o f initX initFun maxIter gtol ftol xtol keep true = (out, e', o', res)) :
    (∃ er, res = .error er ∧ out = Heading initFun) ∨
    ∃ start, StartsAt env o initFun initX start ∧
      ((∃ (er : PyErr) (done : List OptMsg) (k : ℕ) (y : List ℝ), res = .error er ∧ out = Heading initFun ++ done ++ [.start k] ∧ done.length = 2 * k ∧
        (k : ℤ) < maxIter ∧ Printed f o 0 start done y ∧ ∀ msg ∈ done, msg.GoesOn gtol ftol xtol) ∨
      ∃ (r : RepResult R) (init : List OptMsg) (k : ℕ) (a b c : ℝ), res = .ok r ∧ out = Heading initFun ++ (init ++ [.iter k a b c]) ∧
        Printed f o 0 start (init ++ [.iter k a b c]) r.x ∧ init.length + 1 = 2 * k ∧ (k : ℤ) ≤ maxIter ∧
        (∀ msg ∈ init, msg.GoesOn gtol ftol xtol) ∧ r.xConv = decide (a < xtol) ∧ r.fConv = decide (b < ftol) ∧
        r.gradConv = decide (c < gtol) ∧ (r.converged = false → (k : ℤ) = maxIter)) := by
  classical
  have main : ∀ (m : List OptMsg) (e1 : σ) (o1 : Objective Unit) (start : List ℝ) (results : List R), SameFn o o1 →
      (repRestP f maxIter gtol ftol xtol keep true m e1 o1 start results) =
        (out, e', o', res) →
      (∃ er, res = .error er ∧ out = m) ∨
      ((∃ (er : PyErr) (done : List OptMsg) (k : ℕ) (y : List ℝ), res = .error er ∧ out = m ++ done ++ [.start k] ∧ done.length = 2 * k ∧
        (k : ℤ) < maxIter ∧ Printed f o 0 start done y ∧ ∀ msg ∈ done, msg.GoesOn gtol ftol xtol) ∨
      ∃ (r : RepResult R) (init : List OptMsg) (k : ℕ) (a b c : ℝ), res = .ok r ∧ out = m ++ (init ++ [.iter k a b c]) ∧
        Printed f o 0 start (init ++ [.iter k a b c]) r.x ∧ init.length + 1 = 2 * k ∧ (k : ℤ) ≤ maxIter ∧
        (∀ msg ∈ init, msg.GoesOn gtol ftol xtol) ∧ r.xConv = decide (a < xtol) ∧ r.fConv = decide (b < ftol) ∧
        r.gradConv = decide (c < gtol) ∧ (r.converged = false → (k : ℤ) = maxIter)) := by
    intro m e1 o1 start results hs hm
    unfold repRestP at hm
    simp only at hm
    cases hn : (do scalarOf (← (o1.funFree start () false).2)) with
    | error er =>
      rw [hn] at hm
      simp only [Prod.mk.injEq] at hm
      exact .inl ⟨er, hm.2.2.2.symm, hm.1.symm⟩
    | ok f1 =>
      rw [hn] at hm
      simp only at hm
      have hs' := hs.of_same (.funFree o1 start false)
      have hv := scalar_value hs hn
      rcases hq : repLoopP f gtol ftol xtol keep true maxIter.toNat 0
        ⟨e1, (o1.funFree start () false).1, start, f1, false, none, results⟩ with ⟨m2, e2, o2, er | s⟩
      · rw [hq] at hm
        simp only [Prod.mk.injEq] at hm
        obtain ⟨done, k, y, h1, h2, h3, h4, h5⟩ := repLoopP_error (o := o) hf maxIter.toNat 0 _ m2 e2 o2 er hs' hv hq
        refine .inr (.inl ⟨er, done, k, y, hm.2.2.2.symm, ?_, h2, by omega, h4, h5⟩)
        rw [← hm.1, h1, Nat.zero_add, List.append_assoc]
      · rw [hq] at hm
        simp only at hm
        obtain ⟨h1, h2, h3⟩ := repLoopP_ok (o := o) hf maxIter.toNat 0 _ s m2 e2 o2 hs' hv rfl hq
        by_cases hm2 : m2 = []
        · obtain rfl := h2 hm2
          simp only [Prod.mk.injEq] at hm
          refine .inl ⟨_, hm.2.2.2.symm, ?_⟩
          rw [← hm.1, hm2, List.append_nil]
        · obtain ⟨init, k, a, b, c, r, g1, g2, g3, g4, g5, g6, g7⟩ := h3 hm2
          rw [g5] at hm
          simp only [Prod.mk.injEq] at hm
          obtain ⟨rfl, -, -, rfl⟩ := hm
          rw [Nat.zero_add] at g1
          rw [g1] at g2
          have hk : 0 < k := by
            have := g2
            simp at this
            omega
          refine .inr (.inr ⟨_, init, k, a, b, c, rfl, by rw [g1], by rw [← g1]; exact h1, by simpa using g2, by omega, g4,
            rfl, rfl, rfl, fun hc => ?_⟩)
          have := g7 hc
          omega
  unfold repeatedlyOptimizeP at h
  cases initFun with
  | none =>
    rcases main [] env o initX [] ⟨rfl, rfl⟩ h with h | h
    · exact .inl h
    · exact .inr ⟨initX, .inl ⟨rfl, rfl⟩, h⟩
  | some g =>
    simp only at h
    have hk := hi g rfl env o initX
    rcases hq : g env o initX with ⟨s1, o1, er | ⟨x1, r1⟩⟩
    · rw [hq] at h
      simp only [Prod.mk.injEq] at h
      exact .inl ⟨er, h.2.2.2.symm, h.1.symm⟩
    · rw [hq] at h hk
      rcases main _ s1 o1 x1 _ ⟨hk.1, hk.2⟩ h with h | h
      · exact .inl h
      · exact .inr ⟨x1, .inr ⟨g, s1, o1, r1, rfl, hq⟩, h⟩

/-- **C182** (return) When repeated optimization returns, it has printed, after the heading of the initial
optimization if there was one, two messages for every iteration.  The last line shows the number of
iterations and the numbers from which the returned flags are computed; in all lines before it, no number is
below its tolerance. -/
theorem C182_returned {σ R : Type} (env : σ) (o : Objective Unit) (f : OptFun σ R) (hf : KeepsObjective f)
    (initX : List ℝ) (initFun : Option (OptFun σ R)) (hi : ∀ g, initFun = some g → KeepsObjective g)
    (maxIter : ℤ) (gtol ftol xtol : ℝ) (keep : Bool) {out : List OptMsg} {e' : σ} {o' : Objective Unit}
    {res : RepResult R}
    (h : repeatedlyOptimizeP env o f initX initFun maxIter gtol ftol xtol keep true = (out, e', o', .ok res)) :
    ∃ (start : List ℝ) (init : List OptMsg) (k : ℕ) (a b c : ℝ), StartsAt env o initFun initX start ∧
      out = Heading initFun ++ (init ++ [.iter k a b c]) ∧
      Printed f o 0 start (init ++ [.iter k a b c]) res.x ∧ init.length + 1 = 2 * k ∧ (k : ℤ) ≤ maxIter ∧
      (∀ msg ∈ init, msg.GoesOn gtol ftol xtol) ∧ (res.xConv = true ↔ a < xtol) ∧ (res.fConv = true ↔ b < ftol) ∧
      (res.gradConv = true ↔ c < gtol) ∧ (res.converged = false → (k : ℤ) = maxIter) := by
  rcases repeatedlyOptimizeP_cases env o f hf initX initFun hi maxIter gtol ftol xtol keep h with
    ⟨er, h, -⟩ | ⟨start, hst, ⟨er, _, _, _, h, -⟩ | ⟨r, init, k, a, b, c, h1, h2, h3, h4, h5, h6, h7, h8, h9, h10⟩⟩
  · exact absurd h (by simp)
  · exact absurd h (by simp)
  · cases h1
    exact ⟨start, init, k, a, b, c, hst, h2, h3, h4, h5, h6, by rw [h7, decide_eq_true_eq],
      by rw [h8, decide_eq_true_eq], by rw [h9, decide_eq_true_eq], h10⟩

/-- **C182** (exception) When repeated optimization raises, then either nothing but the heading was printed, or
the complete iterations have printed their two messages, no number below its tolerance, and the last message
names the iteration that was running. -/
theorem C182_raised {σ R : Type} (env : σ) (o : Objective Unit) (f : OptFun σ R) (hf : KeepsObjective f)
    (initX : List ℝ) (initFun : Option (OptFun σ R)) (hi : ∀ g, initFun = some g → KeepsObjective g)
    (maxIter : ℤ) (gtol ftol xtol : ℝ) (keep : Bool) {out : List OptMsg} {e' : σ} {o' : Objective Unit} {er : PyErr}
    (h : repeatedlyOptimizeP env o f initX initFun maxIter gtol ftol xtol keep true = (out, e', o', .error er)) :
    out = Heading initFun ∨
    ∃ (start : List ℝ) (done : List OptMsg) (k : ℕ) (y : List ℝ), StartsAt env o initFun initX start ∧ out = Heading initFun ++ done ++ [.start k] ∧
      done.length = 2 * k ∧ (k : ℤ) < maxIter ∧ Printed f o 0 start done y ∧
      ∀ msg ∈ done, msg.GoesOn gtol ftol xtol := by
  rcases repeatedlyOptimizeP_cases env o f hf initX initFun hi maxIter gtol ftol xtol keep h with
    ⟨_, -, h⟩ | ⟨start, hst, ⟨_, done, k, y, -, h1, h2, h3, h4, h5⟩ | ⟨r, _, _, _, _, _, h1, -⟩⟩
  · exact .inl h
  · exact .inr ⟨start, done, k, y, hst, h1, h2, h3, h4, h5⟩
  · exact absurd h1 (by simp)

theorem l1dist_triangle {x y z : List ℝ} (h1 : y.length = x.length) (h2 : z.length = y.length) :
    l1dist z x ≤ l1dist z y + l1dist y x := by
  unfold l1dist
  rw [h2, ← Finset.sum_add_distrib]
  exact Finset.sum_le_sum fun i _ => abs_sub_le _ _ _

theorem Printed.bounds {σ R : Type} {f : OptFun σ R} {o : Objective Unit} {i : ℕ} {x z : List ℝ}
    {ms : List OptMsg} (h : Printed f o i x ms z) :
    z.length = x.length ∧ l1dist z x ≤ (ms.map OptMsg.xDiff).sum ∧
    (∀ fx fz, HasValue o x fx → HasValue o z fz → |fz - fx| ≤ (ms.map OptMsg.fDiff).sum) := by
  induction h with
  | nil =>
    refine ⟨rfl, by simp [l1dist], fun fx fz hx hz => ?_⟩
    simp [hx.unique hz]
  | @step i x y z rest r fx fy g s p s' p' hc hl hfx hfy hg hrest ih =>
    obtain ⟨h1, h2, h3⟩ := ih
    refine ⟨h1.trans hl, ?_, fun a b ha hb => ?_⟩
    · simp only [List.map_cons, List.sum_cons, OptMsg.xDiff, zero_add]
      linarith [l1dist_triangle hl h1]
    · simp only [List.map_cons, List.sum_cons, OptMsg.fDiff, zero_add]
      rw [ha.unique hfx]
      linarith [h3 fy b hfy hb, abs_sub_le b fy fx]

/-- **C182** (distance) The printed numbers bound how far the optimization has come: the returned point is not
farther from the start than the sum of the printed distances, and the same holds for the values. -/
theorem C182_distance {σ R : Type} (env : σ) (o : Objective Unit) (f : OptFun σ R) (hf : KeepsObjective f)
    (initX : List ℝ) (initFun : Option (OptFun σ R)) (hi : ∀ g, initFun = some g → KeepsObjective g)
    (maxIter : ℤ) (gtol ftol xtol : ℝ) (keep : Bool) {out : List OptMsg} {e' : σ} {o' : Objective Unit}
    {res : RepResult R}
    (h : repeatedlyOptimizeP env o f initX initFun maxIter gtol ftol xtol keep true = (out, e', o', .ok res)) :
    ∃ start, StartsAt env o initFun initX start ∧ res.x.length = start.length ∧
      l1dist res.x start ≤ (out.map OptMsg.xDiff).sum ∧
      ∀ f0 f1, HasValue o start f0 → HasValue o res.x f1 → |f1 - f0| ≤ (out.map OptMsg.fDiff).sum := by
  obtain ⟨start, init, k, a, b, c, h1, rfl, h3, -⟩ :=
    C182_returned env o f hf initX initFun hi maxIter gtol ftol xtol keep h
  obtain ⟨g1, g2, g3⟩ := h3.bounds
  have e1 : ((Heading initFun).map OptMsg.xDiff).sum = 0 := by
    cases initFun <;> simp [Heading, OptMsg.xDiff]
  have e2 : ((Heading initFun).map OptMsg.fDiff).sum = 0 := by
    cases initFun <;> simp [Heading, OptMsg.fDiff]
  refine ⟨start, h1, g1, ?_, fun f0 f1 h0 h2 => ?_⟩
  · rw [List.map_append, List.sum_append, e1, zero_add]
    exact g2
  · rw [List.map_append, List.sum_append, e2, zero_add]
    exact g3 f0 f1 h0 h2

theorem exObj_values (x : List ℝ) (hx : x.length = 3) :
    (exObj.funFree x () false).2 = .ok (Arr.scalar (exDict.ftvP x).sum) := by
  rw [Objective.funFree_value]
  exact exObj_value x hx

/-- The hypotheses of `C182_returned` and `C182_distance` are met: the case of C125. -/
example : KeepsObjective (guardedStep exObj) ∧
    ∃ out e' o' res, repeatedlyOptimizeP 0 exObj (guardedStep exObj) [1, 2, 3] none 5 0.1 0.1 0.1
      true true = (out, e', o', .ok res) := by
  have hk : KeepsObjective (guardedStep exObj) := fun s o x => ⟨rfl, rfl⟩
  refine ⟨hk, ?_⟩
  obtain ⟨res, hres⟩ := C68_returns_partial 0 exObj (guardedStep exObj) hk 3
    (fun s p x hx => ⟨_, _, rfl, by split_ifs <;> simpa using hx⟩) _ exObj_values [1, 2, 3] rfl 5 (by norm_num) 0.1 0.1 0.1
    true
  rw [← repeatedlyOptimizeP_snd (disp := true)] at hres
  exact ⟨_, _, _, res, Prod.ext rfl (Prod.ext rfl (Prod.ext rfl hres))⟩

open Classical in
/-- An optimization function that goes to `[0, 1, 2]`, and raises there. -/
noncomputable def exRaises : OptFun ℕ Unit := fun s p x =>
  if x = [0, 1, 2] then (s, p, .error .valueError) else (s, p, .ok ([0, 1, 2], ()))

/-- The hypotheses of `C182_raised` are met: `exRaises` from `[1, 2, 3]`, which raises in the second iteration if the
tolerances are zero. -/
example : KeepsObjective exRaises ∧ ∃ out e' o' er,
    repeatedlyOptimizeP 0 exObj exRaises [1, 2, 3] none 5 0 0 0 true true = (out, e', o', .error er) := by
  have hk : KeepsObjective exRaises := by
    intro s o x
    unfold exRaises
    split <;> exact ⟨rfl, rfl⟩
  refine ⟨hk, ?_⟩
  rcases h : repeatedlyOptimizeP 0 exObj exRaises [1, 2, 3] none 5 0 0 0 true true with ⟨out, e', o', er | res⟩
  · exact ⟨_, _, _, er, rfl⟩
  · exfalso
    obtain ⟨start, init, k, a, b, c, h1, h2, h3, h4, h5, h6, h7, h8, h9, h10⟩ :=
      C182_returned 0 exObj exRaises hk [1, 2, 3] none (by simp) 5 0 0 0 true h
    have hs : start = [1, 2, 3] := by
      rcases h1 with ⟨-, h⟩ | ⟨_, _, _, _, h, -⟩
      · exact h
      · exact absurd h (by simp)
    subst hs
    have hq := repeatedlyOptimizeP_snd 0 exObj exRaises [1, 2, 3] none 5 0 0 0 true true
    rw [h] at hq
    obtain ⟨_, _, init', -, -, -, -, hc, -, -⟩ := C67_repeated 0 exObj exRaises hk [1, 2, 3] none (by simp) 5 0 0 0 true
      hq.symm
    generalize hms : init ++ [OptMsg.iter k a b c] = ms at h3
    generalize res.x = z at h3
    generalize hst : ([1, 2, 3] : List ℝ) = st at h3
    cases h3 with
    | nil => simp at hms
    | @step _ _ y _ rest r fx fy g s p s' p' hcall hl hfx hfy hg hrest =>
      subst hst
      have hy : y = [0, 1, 2] := by
        have : ¬ ([1, 2, 3] : List ℝ) = [0, 1, 2] := by simp
        simp only [exRaises, if_neg this, Prod.mk.injEq, Except.ok.injEq] at hcall
        exact hcall.2.2.1.symm
      subst hy
      cases hrest with
      | step s2 p2 s2' p2' hcall2 =>
        simp [exRaises] at hcall2
      | nil =>
        have hlen := congrArg List.length hms
        simp at hlen
        have hk1 : k = 1 := by omega
        have hi : init = [.start 0] ∧ OptMsg.iter k a b c =
            .iter (0 + 1) (l1dist [0, 1, 2] [1, 2, 3]) |fy - fx| (l1norm g) := by
          have := List.append_inj' (s₁ := init) (t₁ := [OptMsg.iter k a b c]) (s₂ := [.start 0])
            (t₂ := [.iter (0 + 1) (l1dist [0, 1, 2] [1, 2, 3]) |fy - fx| (l1norm g)]) (by rw [hms]; rfl) rfl
          exact ⟨this.1, by simpa using this.2⟩
        obtain ⟨-, hi⟩ := hi
        simp only [OptMsg.iter.injEq] at hi
        obtain ⟨-, rfl, rfl, rfl⟩ := hi
        have na : ¬ l1dist [0, 1, 2] [1, 2, 3] < 0 := not_lt.2 (Finset.sum_nonneg fun _ _ => abs_nonneg _)
        have nb : ¬ |fy - fx| < 0 := not_lt.2 (abs_nonneg _)
        have nc : ¬ l1norm g < 0 := not_lt.2 (Finset.sum_nonneg fun _ _ => abs_nonneg _)
        have hcf : res.converged = false := by
          rw [hc]
          have ha : res.xConv = false := by rw [← Bool.not_eq_true, h7]; exact na
          have hb : res.fConv = false := by rw [← Bool.not_eq_true, h8]; exact nb
          have hc' : res.gradConv = false := by rw [← Bool.not_eq_true, h9]; exact nc
          rw [ha, hb, hc']; rfl
        have := h10 hcf
        omega

end LRVB
