import Verif.Props.Minimize

/-!
# C67, C68: repeated optimization
-/

namespace LRVB

/-! ### Specification -/

/-- The optimization function does not exchange the objective: the user's function and the kinds and
dimensions of the parameters stay the same (its value, the logger and everything in `σ` may change). -/
def KeepsObjective {σ R : Type} (f : OptFun σ R) : Prop :=
  ∀ s o x, (f s o x).2.1.fn = o.fn ∧ (f s o x).2.1.par.blank = o.par.blank

/-- `f` is the objective's value at `x`. -/
def HasValue (o : Objective Unit) (x : List ℝ) (f : ℝ) : Prop :=
  ∃ v, (o.funFree x () false).2 = .ok v ∧ v.data = [f]

/-- The sum of the absolute differences of two vectors. -/
noncomputable def l1dist (x y : List ℝ) : ℝ := ∑ i ∈ Finset.range x.length, |x.getD i 0 - y.getD i 0|

/-- The sum of the absolute values of a vector. -/
noncomputable def l1norm (x : List ℝ) : ℝ := ∑ i ∈ Finset.range x.length, |x.getD i 0|

/-- The three convergence flags for a step from `x` to `y`: the distance of the points, the difference
of the values and the size of the gradient at `y` against the tolerances. -/
structure StepFlags (o : Objective Unit) (gtol ftol xtol : ℝ) (x y : List ℝ) (bx bf bg : Bool) : Prop where
  sameLength : y.length = x.length
  point : bx = true ↔ l1dist y x < xtol
  value : ∃ fx fy, HasValue o x fx ∧ HasValue o y fy ∧ (bf = true ↔ |fy - fx| < ftol)
  gradient : ∃ g, (o.funFreeGrad y ()).2 = .ok g ∧ (bg = true ↔ l1norm g < gtol)

/-- The calls of the optimization function starting at `x`: the points and results it returned, and
the flags computed after each call. -/
inductive Calls {σ R : Type} (f : OptFun σ R) (o : Objective Unit) (gtol ftol xtol : ℝ) :
    List ℝ → List (List ℝ × R × Bool × Bool × Bool) → Prop
  | nil {x} : Calls f o gtol ftol xtol x []
  | cons {x y r bx bf bg rest} (s : σ) (p : Objective Unit) (s' : σ) (p' : Objective Unit) :
      f s p x = (s', p', .ok (y, r)) → StepFlags o gtol ftol xtol x y bx bf bg →
      Calls f o gtol ftol xtol y rest → Calls f o gtol ftol xtol x ((y, r, bx, bf, bg) :: rest)

/-- A step after which no flag is set. -/
def NotConverged {R : Type} (c : List ℝ × R × Bool × Bool × Bool) : Prop :=
  c.2.2.1 = false ∧ c.2.2.2.1 = false ∧ c.2.2.2.2 = false

/-! ### Lemmas -/

theorem l1_eq (v : List ℝ) : l1 v = l1norm v := by
  unfold l1 l1norm
  induction v using List.reverseRecOn with
  | nil => simp
  | append_singleton v a ih =>
    rw [List.map_append, List.sum_append, ih, List.length_append, List.length_singleton, Finset.sum_range_succ]
    congr 1
    · refine Finset.sum_congr rfl fun i hi => ?_
      rw [List.getD_eq_getElem?_getD, List.getD_eq_getElem?_getD,
        List.getElem?_append_left (Finset.mem_range.mp hi)]
    · simp

theorem l1_vsub {x y d : List ℝ} (h : vsub y x = .ok d) : y.length = x.length ∧ l1 d = l1dist y x := by
  unfold vsub at h
  split at h
  · rename_i hl
    injection h with h
    subst h
    refine ⟨hl, ?_⟩
    rw [l1_eq]
    unfold l1norm l1dist
    rw [List.length_zipWith, hl, min_self]
    refine Finset.sum_congr rfl fun i hi => ?_
    have hi := Finset.mem_range.mp hi
    simp only [List.getD_eq_getElem?_getD, List.getElem?_zipWith]
    rw [List.getElem?_eq_getElem hi, List.getElem?_eq_getElem (show i < y.length by omega)]
    rfl
  · exact absurd h (by simp)

/-- The objective up to what the optimization function may change. -/
structure SameFn (o o' : Objective Unit) : Prop where
  fn : o'.fn = o.fn
  blank : o'.par.blank = o.par.blank

theorem SameFn.value {o o' : Objective Unit} (hs : SameFn o o') {x : List ℝ} :
    (o'.funFree x () false).2 = (o.funFree x () false).2 := by
  rw [o.funFree_value, o'.funFree_value, hs.fn, valueAt_blank hs.blank.symm]

theorem SameFn.grad {o o' : Objective Unit} (hs : SameFn o o') {x g : List ℝ}
    (h : (o'.funFreeGrad x ()).2 = .ok g) : (o.funFreeGrad x ()).2 = .ok g := by
  rw [funFreeGrad_ok_iff] at h ⊢
  obtain ⟨h1, h2⟩ := h
  have e : valueAt (o'.fn ()) o'.par true = valueAt (o.fn ()) o.par true := by
    funext y
    rw [hs.fn, valueAt_blank hs.blank.symm]
  refine ⟨(setPar_indep hs.blank x true).1.trans h1, ?_⟩
  rw [← e]; exact h2

theorem SameFn.of_same {o p q : Objective Unit} (h : SameFn o p) (h' : SameObj p q) : SameFn o q :=
  ⟨h'.fn.trans h.fn, h'.blank.trans h.blank⟩

theorem scalar_value {o o' : Objective Unit} (hs : SameFn o o') {x : List ℝ} {f : ℝ}
    (h : (do scalarOf (← (o'.funFree x () false).2)) = .ok f) : HasValue o x f := by
  obtain ⟨v, hv, h⟩ := py_bind_ok h
  refine ⟨v, by rw [← hs.value]; exact hv, ?_⟩
  unfold scalarOf at h
  split at h
  · rename_i hl
    injection h with h
    obtain ⟨a, ha⟩ := List.length_eq_one_iff.mp hl
    rw [ha] at h ⊢
    rw [← h]
    rfl
  · exact absurd h (by simp)

/-- What one iteration does. -/
theorem repStep_ok {σ R : Type} {f : OptFun σ R} (hf : KeepsObjective f) {gtol ftol xtol : ℝ} {keep : Bool}
    {o : Objective Unit} {s s' : RepState σ R} (hs : SameFn o s.obj) (hv : HasValue o s.x s.fVal)
    {e : σ} {p : Objective Unit} (h : repStep f gtol ftol xtol keep s = (e, p, .ok s')) :
    ∃ bx bf bg r s1 p1, f s.env s.obj s.x = (s1, p1, .ok (s'.x, r)) ∧
      StepFlags o gtol ftol xtol s.x s'.x bx bf bg ∧ HasValue o s'.x s'.fVal ∧
      s'.converged = (bx || bf || bg) ∧ s'.last = some (bx, bf, bg, r) ∧
      s'.optResults = (if keep then s.optResults ++ [r] else s.optResults) ∧ SameFn o s'.obj := by
  unfold repStep at h
  have hk := hf s.env s.obj s.x
  rcases hq : f s.env s.obj s.x with ⟨s1, p1, _ | ⟨y, r⟩⟩
  · rw [hq] at h; simp only at h; exact absurd (congrArg (·.2.2) h) (by simp)
  · rw [hq] at h hk
    simp only at h hk
    have hs1 : SameFn o p1 := ⟨hk.1.trans hs.fn, hk.2.trans hs.blank⟩
    cases hn : (do scalarOf (← (p1.funFree y () false).2)) with
    | error er => rw [hn] at h; exact absurd (congrArg (·.2.2) h) (by simp)
    | ok newF =>
      rw [hn] at h
      simp only at h
      have hv' := scalar_value hs1 hn
      have hs2 : SameFn o (p1.funFree y () false).1 := hs1.of_same (.funFree p1 y false)
      cases hg : ((p1.funFree y () false).1.funFreeGrad y ()).2 with
      | error er => rw [hg] at h; exact absurd (congrArg (·.2.2) h) (by simp)
      | ok g =>
        rw [hg] at h
        simp only at h
        cases hd : vsub y s.x with
        | error er => rw [hd] at h; exact absurd (congrArg (·.2.2) h) (by simp)
        | ok dx =>
          rw [hd] at h
          simp only [Prod.mk.injEq, Except.ok.injEq] at h
          obtain ⟨-, -, rfl⟩ := h
          obtain ⟨hl, hdist⟩ := l1_vsub hd
          refine ⟨_, _, _, r, s1, p1, rfl, ⟨hl, ?_, ⟨s.fVal, newF, hv, hv', ?_⟩,
            ⟨g, hs2.grad hg, ?_⟩⟩, hv', rfl, rfl, rfl, hs2.of_same (.deriv _ true y fun F => agGrad F y)⟩
          · rw [decide_eq_true_eq, hdist]
          · rw [decide_eq_true_eq]
          · rw [decide_eq_true_eq, l1_eq]

/-- What the loop does. -/
theorem repLoop_ok {σ R : Type} {f : OptFun σ R} (hf : KeepsObjective f) {gtol ftol xtol : ℝ} {keep : Bool}
    {o : Objective Unit} : ∀ (n : ℕ) (s s' : RepState σ R) (e : σ) (p : Objective Unit), SameFn o s.obj →
    HasValue o s.x s.fVal → s.converged = false →
    repLoop f gtol ftol xtol keep n s = (e, p, .ok s') →
    ∃ calls, Calls f o gtol ftol xtol s.x calls ∧ calls.length ≤ n ∧
      s'.optResults = s.optResults ++ (if keep then calls.map (·.2.1) else []) ∧
      (calls = [] → n = 0 ∧ s' = s) ∧
      ∀ init y r bx bf bg, calls = init ++ [(y, r, bx, bf, bg)] →
        (∀ c ∈ init, NotConverged c) ∧ s'.x = y ∧ s'.last = some (bx, bf, bg, r) ∧
        s'.converged = (bx || bf || bg) ∧ (s'.converged = false → calls.length = n) := by
  intro n
  induction n with
  | zero =>
    intro s s' e p _ _ _ h
    simp only [repLoop, Prod.mk.injEq, Except.ok.injEq] at h
    obtain ⟨-, -, rfl⟩ := h
    refine ⟨[], .nil, le_rfl, by simp, fun _ => ⟨rfl, rfl⟩, ?_⟩
    intro init y r bx bf bg hc
    exact absurd hc (by simp)
  | succ n ih =>
    intro s s' e p hs hv hc h
    rw [repLoop, hc] at h
    simp only [Bool.false_eq_true, if_false] at h
    rcases hq : repStep f gtol ftol xtol keep s with ⟨e1, p1, _ | s1⟩
    · rw [hq] at h; exact absurd (congrArg (·.2.2) h) (by simp)
    · rw [hq] at h
      simp only at h
      obtain ⟨bx, bf, bg, r, t, q, hcall, hfl, hv1, hconv, hlast, hres, hs1⟩ := repStep_ok hf hs hv hq
      cases hcv : s1.converged with
      | true =>
        have hst : s' = s1 := by
          cases n with
          | zero => simp only [repLoop, Prod.mk.injEq, Except.ok.injEq] at h; exact h.2.2.symm
          | succ n =>
            rw [repLoop, hcv] at h
            simp only [if_true, Prod.mk.injEq, Except.ok.injEq] at h
            exact h.2.2.symm
        subst hst
        refine ⟨[(s'.x, r, bx, bf, bg)], .cons _ _ _ _ hcall hfl .nil, by simp, ?_, fun h => absurd h (by simp), ?_⟩
        · rw [hres]; cases keep <;> simp
        · intro init y r' bx' bf' bg' hcalls
          have : init = [] := by
            have hlen := congrArg List.length hcalls
            simp at hlen
            exact hlen
          subst this
          simp only [List.nil_append, List.cons.injEq, Prod.mk.injEq, and_true] at hcalls
          obtain ⟨rfl, rfl, rfl, rfl, rfl⟩ := hcalls
          exact ⟨by simp, rfl, hlast, hconv, fun h => absurd h (by simp [hcv])⟩
      | false =>
        obtain ⟨calls, hC, hlen, hR, hnil, hend⟩ := ih s1 s' e p hs1 hv1 hcv h
        have hnc : bx = false ∧ bf = false ∧ bg = false := by
          rw [hcv] at hconv
          simpa [and_assoc] using hconv.symm
        refine ⟨(s1.x, r, bx, bf, bg) :: calls, .cons _ _ _ _ hcall hfl hC, by simpa using hlen, ?_,
          fun h => absurd h (by simp), ?_⟩
        · rw [hR, hres]; cases keep <;> simp
        · intro init y r' bx' bf' bg' hcalls
          cases init with
          | nil =>
            simp only [List.nil_append, List.cons.injEq, Prod.mk.injEq] at hcalls
            obtain ⟨⟨rfl, rfl, rfl, rfl, rfl⟩, rfl⟩ := hcalls
            obtain ⟨rfl, rfl⟩ := hnil rfl
            exact ⟨by simp, rfl, hlast, hconv, fun _ => rfl⟩
          | cons c init =>
            simp only [List.cons_append, List.cons.injEq] at hcalls
            obtain ⟨rfl, hcalls⟩ := hcalls
            obtain ⟨g1, g2, g3, g4, g5⟩ := hend init y r' bx' bf' bg' hcalls
            refine ⟨?_, g2, g3, g4, fun h => by simp [g5 h]⟩
            intro c hc
            rcases List.mem_cons.mp hc with rfl | hc
            · exact hnc
            · exact g1 c hc

/-! ### C67 -/

/-- **C67** Whenever repeated optimization returns (for any optimizers that do not exchange the
objective), it started at `init_x`, or at the point returned by the initial optimization; it then called
the optimization function at least once and at most `max_iter` times, each time from the point returned
by the call before; only after the last call a convergence flag can be set, and if none is set it called
`max_iter` times.  The returned point, optimization result and flags are those of the last call, and
`converged` is the disjunction of the flags.  The list of results has the results of all calls, or is
empty when they are not kept. -/
theorem C67_repeated {σ R : Type} (env : σ) (o : Objective Unit) (f : OptFun σ R) (hf : KeepsObjective f)
    (initX : List ℝ) (initFun : Option (OptFun σ R)) (hi : ∀ g, initFun = some g → KeepsObjective g)
    (maxIter : ℤ) (gtol ftol xtol : ℝ) (keep : Bool) {e' : σ} {o' : Objective Unit} {res : RepResult R}
    (h : repeatedlyOptimize env o f initX initFun maxIter gtol ftol xtol keep = (e', o', .ok res)) :
    ∃ (start : List ℝ) (first : List R) (init : List (List ℝ × R × Bool × Bool × Bool)),
      ((initFun = none ∧ start = initX ∧ first = []) ∨
        ∃ g s1 o1 r0, initFun = some g ∧ g env o initX = (s1, o1, .ok (start, r0)) ∧ first = [r0]) ∧
      Calls f o gtol ftol xtol start (init ++ [(res.x, res.objOpt, res.xConv, res.fConv, res.gradConv)]) ∧
      ((init.length + 1 : ℕ) : ℤ) ≤ maxIter ∧
      (∀ c ∈ init, NotConverged c) ∧
      res.converged = (res.xConv || res.fConv || res.gradConv) ∧
      (res.converged = false → ((init.length + 1 : ℕ) : ℤ) = maxIter) ∧
      res.optResults = (if keep then first ++ init.map (·.2.1) ++ [res.objOpt] else []) := by
  -- the part after the initial optimization
  have main : ∀ (e1 : σ) (o1 : Objective Unit) (start : List ℝ) (results : List R), SameFn o o1 →
      (match (do scalarOf (← (o1.funFree start () false).2)) with
        | .error e => (e1, (o1.funFree start () false).1, .error e)
        | .ok f1 =>
          match repLoop f gtol ftol xtol keep maxIter.toNat
              ⟨e1, (o1.funFree start () false).1, start, f1, false, none, results⟩ with
          | (e2, o2, .error e) => (e2, o2, .error e)
          | (e2, o2, .ok s) =>
            match s.last with
            | none => (e2, o2, .error .unboundLocal)
            | some (xConv, fConv, gradConv, objOpt) =>
              (e2, o2, (.ok ⟨s.x, s.converged, xConv, fConv, gradConv, objOpt, s.optResults⟩ : Py (RepResult R)))) =
        (e', o', .ok res) →
      ∃ init, Calls f o gtol ftol xtol start (init ++ [(res.x, res.objOpt, res.xConv, res.fConv, res.gradConv)]) ∧
        ((init.length + 1 : ℕ) : ℤ) ≤ maxIter ∧ (∀ c ∈ init, NotConverged c) ∧
        res.converged = (res.xConv || res.fConv || res.gradConv) ∧
        (res.converged = false → ((init.length + 1 : ℕ) : ℤ) = maxIter) ∧
        res.optResults = results ++ (if keep then init.map (·.2.1) ++ [res.objOpt] else []) := by
    intro e1 o1 start results hs hm
    cases hn : (do scalarOf (← (o1.funFree start () false).2)) with
    | error er => rw [hn] at hm; exact absurd (congrArg (·.2.2) hm) (by simp)
    | ok f1 =>
      rw [hn] at hm
      simp only at hm
      rcases hq : repLoop f gtol ftol xtol keep maxIter.toNat
        ⟨e1, (o1.funFree start () false).1, start, f1, false, none, results⟩ with ⟨e2, o2, _ | s⟩
      · rw [hq] at hm; exact absurd (congrArg (·.2.2) hm) (by simp)
      · rw [hq] at hm
        simp only at hm
        obtain ⟨calls, hC, hlen, hR, hnil, hend⟩ := repLoop_ok hf maxIter.toNat _ s e2 o2
          (o := o) (hs.of_same (.funFree o1 start false)) (scalar_value hs hn) rfl hq
        rcases List.eq_nil_or_concat calls with hc | ⟨init, ⟨y, r, bx, bf, bg⟩, hc⟩
        · obtain ⟨-, rfl⟩ := hnil hc
          exact absurd (congrArg (·.2.2) hm) (by simp)
        · rw [List.concat_eq_append] at hc
          obtain ⟨g1, g2, g3, g4, g5⟩ := hend init y r bx bf bg hc
          rw [g3] at hm
          simp only [Prod.mk.injEq, Except.ok.injEq] at hm
          obtain ⟨-, -, rfl⟩ := hm
          subst hc
          simp only [List.length_append, List.length_singleton] at hlen g5
          refine ⟨init, by rw [g2]; exact hC, by omega, g1, g4, fun h => ?_, ?_⟩
          · have := g5 h; omega
          · rw [hR]; cases keep <;> simp
  unfold repeatedlyOptimize at h
  cases initFun with
  | none =>
    simp only at h
    obtain ⟨init, g1, g2, g3, g4, g5, g6⟩ := main env o initX [] ⟨rfl, rfl⟩ h
    exact ⟨initX, [], init, .inl ⟨rfl, rfl, rfl⟩, g1, g2, g3, g4, g5, by rw [g6]; cases keep <;> simp⟩
  | some g =>
    simp only at h
    have hk := hi g rfl env o initX
    rcases hq : g env o initX with ⟨s1, o1, _ | ⟨x1, r1⟩⟩
    · rw [hq] at h; exact absurd (congrArg (·.2.2) h) (by simp)
    · rw [hq] at h hk
      simp only at h
      obtain ⟨init, g1, g2, g3, g4, g5, g6⟩ := main s1 o1 x1 _ ⟨hk.1, hk.2⟩ h
      exact ⟨x1, [r1], init, .inr ⟨g, s1, o1, r1, rfl, hq, rfl⟩, g1, g2, g3, g4, g5,
        by rw [g6]; cases keep <;> simp⟩

/-- The minimizers of `OptimizationUtils.py` meet the hypothesis of C67. -/
theorem minimize_keeps (useHvp : Bool) (opt : List ℝ → Optimizer) (precondition disp : Bool)
    (printEvery : Option ℕ) (initLogger : Bool) :
    KeepsObjective (σ := Unit) fun s o x =>
      (s, minimizeObjective useHvp opt o x precondition disp printEvery initLogger) := by
  intro s o x
  simp only
  have hs := startObj_same o printEvery initLogger
  suffices SameObj o (minimizeObjective useHvp opt o x precondition disp printEvery initLogger).1 from
    ⟨this.fn, this.blank⟩
  cases precondition with
  | false =>
    rw [minimize_plain]
    have := run_same (good_plain o disp useHvp) (opt x) _ hs
    simp only
    split <;> exact this
  | true =>
    rw [minimize_cond]
    split
    · exact hs
    · rename_i P hP
      rw [hs.precond] at hP
      split
      · exact hs
      · rename_i x0 _
        have := run_same (good_cond o P hP disp useHvp) (opt x0) _ hs
        simp only
        split
        · exact this
        · split <;> exact this

/-! ### C68 -/

/-- **C68 fails**: with `max_iter ≤ 0` repeated optimization raises `UnboundLocalError` for every
objective that has a value at the start. -/
theorem C68_zero_iterations_counterexample {σ R : Type} (env : σ) (o : Objective Unit) (f : OptFun σ R)
    (initX : List ℝ) (maxIter : ℤ) (hm : maxIter ≤ 0) (gtol ftol xtol : ℝ) (keep : Bool) {v : ℝ}
    (hv : (o.funFree initX () false).2 = .ok (Arr.scalar v)) :
    (repeatedlyOptimize env o f initX none maxIter gtol ftol xtol keep).2.2 = .error .unboundLocal := by
  unfold repeatedlyOptimize
  simp only
  have h1 : (do scalarOf (← (o.funFree initX () false).2)) = .ok v := by
    rw [hv, py_ok_bind]
    simp [scalarOf, Arr.scalar]
  rw [h1]
  simp only [Int.toNat_of_nonpos hm, repLoop]

/-- **C68** for `max_iter ≥ 1` and an optimization function that returns: repeated optimization returns
for every objective with values and gradients along the way (here: at all points of the given length).
Missing: `max_iter ≤ 0`, for which it raises. -/
theorem C68_returns_partial {σ R : Type} (env : σ) (o : Objective Unit) (f : OptFun σ R) (hf : KeepsObjective f)
    (n : ℕ) (hn : ∀ s p x, x.length = n → ∃ y r, (f s p x).2.2 = .ok (y, r) ∧ y.length = n)
    (val : List ℝ → ℝ) (hv : ∀ x : List ℝ, x.length = n → (o.funFree x () false).2 = .ok (Arr.scalar (val x)))
    (initX : List ℝ) (hx : initX.length = n) (maxIter : ℤ) (hm : 1 ≤ maxIter) (gtol ftol xtol : ℝ) (keep : Bool) :
    ∃ res, (repeatedlyOptimize env o f initX none maxIter gtol ftol xtol keep).2.2 = .ok res := by
  have hval : ∀ (p : Objective Unit) (x : List ℝ), SameFn o p → x.length = n →
      (do scalarOf (← (p.funFree x () false).2)) = .ok (val x) := by
    intro p x hp hx
    rw [hp.value, hv x hx, py_ok_bind]
    simp [scalarOf, Arr.scalar]
  have hgrad : ∀ (p : Objective Unit) (x : List ℝ), SameFn o p → x.length = n →
      ∃ g, (p.funFreeGrad x ()).2 = .ok g := by
    intro p x hp hx
    have h2 : valueAt (p.fn ()) p.par true x = .ok (Arr.scalar (val x)) := by
      rw [hp.fn, valueAt_blank hp.blank.symm, ← o.funFree_value, hv x hx]
    refine ⟨(List.range x.length).map fun j =>
      pd (fun y => entryA 0 (valueAt (p.fn ()) p.par true y)) x j,
      funFreeGrad_ok_iff.mpr ⟨valueAt_ok_set h2, ?_⟩⟩
    rw [agGrad, h2, py_ok_bind, if_neg (by simp [Arr.size, Arr.scalar])]
  have step : ∀ s : RepState σ R, SameFn o s.obj → s.x.length = n →
      ∃ e p s', repStep f gtol ftol xtol keep s = (e, p, .ok s') ∧ SameFn o s'.obj ∧ s'.x.length = n ∧
        s'.last ≠ none := by
    intro s hs hxl
    obtain ⟨y, r, hy, hyl⟩ := hn s.env s.obj s.x hxl
    have hk := hf s.env s.obj s.x
    unfold repStep
    rcases hq : f s.env s.obj s.x with ⟨s1, p1, q⟩
    rw [hq] at hy hk
    simp only at hy hk
    subst hy
    simp only
    have hs1 : SameFn o p1 := ⟨hk.1.trans hs.fn, hk.2.trans hs.blank⟩
    have hs2 : SameFn o (p1.funFree y () false).1 := hs1.of_same (.funFree p1 y false)
    obtain ⟨g, hg⟩ := hgrad _ y hs2 hyl
    rw [hval p1 y hs1 hyl]
    simp only
    rw [hg]
    have hd : vsub y s.x = .ok (List.zipWith (· - ·) y s.x) := by
      unfold vsub; rw [if_pos (by omega)]
    rw [hd]
    exact ⟨_, _, _, rfl, hs2.of_same (.deriv _ true y fun F => agGrad F y), hyl, by simp⟩
  have loop : ∀ (k : ℕ) (s : RepState σ R), SameFn o s.obj → s.x.length = n →
      (s.last ≠ none ∨ (0 < k ∧ s.converged = false)) →
      ∃ e p s', repLoop f gtol ftol xtol keep k s = (e, p, .ok s') ∧ s'.last ≠ none := by
    intro k
    induction k with
    | zero =>
      intro s _ _ hl
      exact ⟨_, _, s, rfl, hl.resolve_right (by simp)⟩
    | succ k ih =>
      intro s hs hxl hl
      rw [repLoop]
      split
      · rename_i hc
        exact ⟨_, _, s, rfl, hl.resolve_right (by simp [hc])⟩
      · obtain ⟨e, p, s', h1, h2, h3, h4⟩ := step s hs hxl
        rw [h1]
        exact ih s' h2 h3 (.inl h4)
  unfold repeatedlyOptimize
  simp only
  rw [hval o initX ⟨rfl, rfl⟩ hx]
  simp only
  obtain ⟨e, p, s', h1, h2⟩ := loop maxIter.toNat ⟨env, (o.funFree initX () false).1, initX, val initX, false, none, []⟩
    (SameFn.of_same ⟨rfl, rfl⟩ (.funFree o initX false)) hx (.inr ⟨by omega, rfl⟩)
  rw [h1]
  simp only
  cases hl : s'.last with
  | none => exact absurd hl h2
  | some q => exact ⟨_, rfl⟩

/-- The hypotheses of C67 and C68: the example objective and an optimization function that moves the
point. -/
example : KeepsObjective (σ := ℕ) (R := Unit) (fun s o x => (s + 1, o, .ok (x.map (· + 1), ()))) ∧
    (∀ (s : ℕ) (p : Objective Unit) (x : List ℝ), x.length = 3 → ∃ y r,
      ((fun s o x => (s + 1, o, .ok (x.map (· + 1), ())) : OptFun ℕ Unit) s p x).2.2 = .ok (y, r) ∧ y.length = 3) ∧
    ∀ x : List ℝ, x.length = 3 → (exObj.funFree x () false).2 = .ok (Arr.scalar (exDict.ftvP x).sum) := by
  refine ⟨fun s o x => ⟨rfl, rfl⟩, fun s p x hx => ⟨_, _, rfl, by simpa using hx⟩, fun x hx => ?_⟩
  rw [Objective.funFree_value]
  exact exObj_value x hx

end LRVB
