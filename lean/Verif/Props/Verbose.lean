import Verif.Model.Verbose
import Verif.Props.Precond

/-!
# C164: the log holds numbers
-/

namespace LRVB

open Classical

noncomputable section

variable {A : Type}

/-- The call asks a derivative method to log. -/
def ObjCall.VerboseDerivative : ObjCall A → Prop
  | .deriv _ _ _ v => v = true
  | .derivCond _ _ _ v => v = true
  | _ => False

theorem log_xArray (l : Logger Arr) (v : Arr) (x : List ℝ) : (l.log v x).1.xArray = l.xArray ++ [x] := by
  unfold Logger.log
  simp only
  split
  · rfl
  · split
    · rfl
    · simp only
      split <;> rfl

theorem deriv_logger (o : Objective A) {β : Type} (free : Bool) (x : List ℝ) (a : A)
    (ag : (List ℝ → Py Arr) → Py β) : (o.deriv free x a ag).1.logger = o.logger := rfl

/-- Every entry of the log is known to be a number or a placeholder. -/
def LoggedObjective.Good (l : LoggedObjective A) : Prop := l.boxed.length = l.o.logger.xArray.length

theorem LoggedObjective.value_log (l : LoggedObjective A) (x : List ℝ) (a : A) (v : Bool) :
    ((l.value x a v).1.boxed = l.boxed ∧ (l.value x a v).1.o.logger.xArray = l.o.logger.xArray) ∨
    ((l.value x a v).1.boxed = l.boxed ++ [false] ∧
      (l.value x a v).1.o.logger.xArray = l.o.logger.xArray ++ [x]) := by
  unfold LoggedObjective.value
  simp only
  have h : (l.o.funFree x a v).1.logger.xArray = l.o.logger.xArray ∨
      (l.o.funFree x a v).1.logger.xArray = l.o.logger.xArray ++ [x] := by
    unfold Objective.funFree
    simp only
    split
    · exact .inl rfl
    · split
      · exact .inl rfl
      · split
        · exact .inr (log_xArray _ _ _)
        · exact .inl rfl
  rcases h with h | h
  · exact .inl ⟨by rw [h]; simp, h⟩
  · exact .inr ⟨by rw [h]; simp, h⟩

theorem LoggedObjective.deriv_log (l : LoggedObjective A) (k : DerivKind) (x : List ℝ) (a : A) (v : Bool) :
    ((l.deriv k x a v).1.boxed = l.boxed ∧ (l.deriv k x a v).1.o.logger.xArray = l.o.logger.xArray) ∨
    (v = true ∧ (l.deriv k x a v).1.boxed = l.boxed ++ [true] ∧
      (l.deriv k x a v).1.o.logger.xArray = l.o.logger.xArray ++ [x]) := by
  unfold LoggedObjective.deriv
  simp only
  cases v with
  | false => exact .inl ⟨rfl, rfl⟩
  | true =>
    simp only [Bool.true_eq_false, if_false]
    split
    · exact .inl ⟨rfl, rfl⟩
    · split
      · exact .inr ⟨trivial, rfl, log_xArray _ _ _⟩
      · exact .inr ⟨trivial, rfl, log_xArray _ _ _⟩

/-- **C164** (partial) After every history of calls of a new objective, evaluations and derivatives, with and
without a preconditioner, failing or not, in which no derivative method was called with `verbose=True`: the
log holds numbers only.  The full claim, without the condition, is false (`C164_counterexample`). -/
theorem C164_numbers_partial (par : Param) (fn : A → Param → Py Arr) (precond : Option Arr)
    (cs : List (ObjCall A)) (h : ∀ c ∈ cs, ¬ c.VerboseDerivative) :
    ∀ l, l = LoggedObjective.run ⟨{ Objective.new par fn with precond := precond }, []⟩ cs →
      l.boxed = List.replicate l.o.logger.xArray.length false := by
  rintro l rfl
  suffices key : ∀ l : LoggedObjective A, l.boxed = List.replicate l.o.logger.xArray.length false →
      (l.run cs).boxed = List.replicate (l.run cs).o.logger.xArray.length false from
    key _ rfl
  clear par fn precond
  induction cs with
  | nil => exact fun l hl => hl
  | cons c cs ih =>
    intro l hl
    refine ih (fun c' hc' => h c' (by simp [hc'])) (l.call c) ?_
    have hc := h c (by simp)
    have hval : ∀ x a v, (l.value x a v).1.boxed =
        List.replicate (l.value x a v).1.o.logger.xArray.length false := by
      intro x a v
      rcases l.value_log x a v with ⟨h1, h2⟩ | ⟨h1, h2⟩
      · rw [h1, h2, hl]
      · rw [h1, h2, hl, List.length_append, List.replicate_add]
        rfl
    have hder : ∀ k x a v, v ≠ true → (l.deriv k x a v).1.boxed =
        List.replicate (l.deriv k x a v).1.o.logger.xArray.length false := by
      intro k x a v hv
      rcases l.deriv_log k x a v with ⟨h1, h2⟩ | ⟨h1, -⟩
      · rw [h1, h2, hl]
      · exact absurd h1 hv
    cases c with
    | value x a v => exact hval x a v
    | vector x a =>
      have : (l.o.funVector x a).1.logger = l.o.logger := by
        unfold Objective.funVector
        simp only
        split <;> rfl
      simp only [LoggedObjective.call, this, hl]
    | deriv k x a v => exact hder k x a v hc
    | vectorDeriv k x a => exact hl
    | valueCond x a v =>
      unfold LoggedObjective.call
      simp only
      split
      · exact hl
      · split
        · exact hl
        · exact hval _ a v
    | derivCond k x a v =>
      unfold LoggedObjective.call
      simp only
      split
      · exact hl
      · split
        · exact hl
        · exact hder k _ a v hc
    | reset => rfl

/-- **C164** fails for every objective and every point at which it has a value and the logger can log: after a
derivative call with `verbose=True` the last entry of the log is a differentiation placeholder, whatever the
log was before. -/
theorem C164_placeholder_fails (l : LoggedObjective A) (k : DerivKind) (x : List ℝ) (a : A) (v : Arr)
    (hv : valueAt (l.o.fn a) l.o.par true x = .ok v) :
    (l.deriv k x a true).1.boxed = l.boxed ++ [true] ∧
      (l.deriv k x a true).1.o.logger.xArray = l.o.logger.xArray ++ [x] := by
  unfold LoggedObjective.deriv
  simp only [hv, Bool.true_eq_false, if_false]
  split
  · exact ⟨rfl, log_xArray _ _ _⟩
  · exact ⟨rfl, log_xArray _ _ _⟩

theorem LoggedObjective.value_logs (l : LoggedObjective A) (x : List ℝ) (a : A) (v : Arr)
    (hv : valueAt (l.o.fn a) l.o.par true x = .ok v) :
    (l.value x a true).1 = ⟨{ l.o with par := (l.o.par.setFree x).1, logger := (l.o.logger.log v x).1 },
      l.boxed ++ [false]⟩ := by
  unfold valueAt at hv
  simp only [setPar, if_true] at hv
  cases hn : (l.o.par.setFree x).2 with
  | some e => simp [hn] at hv
  | none =>
    rw [hn] at hv
    unfold LoggedObjective.value Objective.funFree
    simp only [hn, hv, if_true]
    rw [log_xArray]
    simp

/-- **C164** fails: a new objective is evaluated with `verbose=True` at one point and its gradient is taken
with `verbose=True` at another one.  Neither call raises, and the second entry of the log is a placeholder. -/
theorem C164_counterexample : ∃ (p : Param) (fn : Unit → Param → Py Arr) (l : LoggedObjective Unit) (g : Arr),
    l = (LoggedObjective.new p fn).run [.value [4, 5, 6] () true] ∧
    (l.deriv .grad [1, 2, 3] () true).2 = .ok g ∧
    (l.deriv .grad [1, 2, 3] () true).1.o.logger.xArray = [[4, 5, 6], [1, 2, 3]] ∧
    (l.deriv .grad [1, 2, 3] () true).1.boxed = [false, true] := by
  obtain ⟨eigh, he⟩ := exists_eigh
  have hw := (exDict_built eigh).wf he
  have e0 := (LoggedObjective.new exDict exObj.fn).value_logs [4, 5, 6] () _ (exObj_value [4, 5, 6] rfl)
  have e1 : (LoggedObjective.new exDict exObj.fn).run [.value [4, 5, 6] () true] =
      ((LoggedObjective.new exDict exObj.fn).value [4, 5, 6] () true).1 := rfl
  rw [e0] at e1
  have hb : (exDict.setFree [4, 5, 6]).1.blank = exDict.blank := Param.setFree_blank _ _
  have hset : (setPar exDict [1, 2, 3] true).2 = none := by
    simp only [setPar, if_true]
    rw [exDict.setFree_ok hw _ (by rw [exDict_freeSize]; rfl)]
  have hset' := setPar_eq hb.symm hset
  have hval : valueAt (exObj.fn ()) (exDict.setFree [4, 5, 6]).1 true [1, 2, 3] =
      .ok (Arr.scalar (exDict.ftvP [1, 2, 3]).sum) := by
    rw [← exObj_value [1, 2, 3] rfl]
    unfold valueAt
    rw [hset']
  refine ⟨exDict, exObj.fn, _, Arr.vec ((List.range 3).map fun j => pd (fun y => entryA 0 (valueAt (exObj.fn ())
    (exDict.setFree [4, 5, 6]).1 true y)) [1, 2, 3] j), e1.symm, ?_, ?_, ?_⟩
  · have hlog : ((Logger.new 1 : Logger Arr).log (Arr.scalar (exDict.ftvP [4, 5, 6]).sum) [4, 5, 6]).1 =
        ⟨1, none, 1, some [4, 5, 6], some [4, 5, 6], some (Arr.scalar (exDict.ftvP [4, 5, 6]).sum),
          some (Arr.scalar (exDict.ftvP [4, 5, 6]).sum), [[4, 5, 6]],
          [Arr.scalar (exDict.ftvP [4, 5, 6]).sum], [0]⟩ := by
      simp [Logger.log, Logger.new, Logger.reset]
    have hlog2 : ((((Logger.new 1 : Logger Arr).log (Arr.scalar (exDict.ftvP [4, 5, 6]).sum) [4, 5, 6]).1).log
        (Arr.scalar (exDict.ftvP [1, 2, 3]).sum) [1, 2, 3]).2 = none := by
      rw [hlog]
      simp [Logger.log, Logger.diffOk]
    have hsz : (Arr.scalar (exDict.ftvP [1, 2, 3]).sum).size = 1 := rfl
    have i := setPar_indep (traceSet_blank (exDict.setFree [4, 5, 6]).1 [1, 2, 3] true).symm [1, 2, 3] true
    rw [hset'] at i
    unfold LoggedObjective.deriv
    simp only [LoggedObjective.new, Objective.new, hval, Bool.true_eq_false, if_false, hlog2]
    have hrun : DerivKind.grad.run [1, 2, 3] (valueAt (exObj.fn ()) (exDict.setFree [4, 5, 6]).1 true) =
        .ok (Arr.vec ((List.range 3).map fun j => pd (fun y => entryA 0 (valueAt (exObj.fn ())
          (exDict.setFree [4, 5, 6]).1 true y)) [1, 2, 3] j)) := by
      simp only [DerivKind.run, agGrad, hval, py_ok_bind, hsz, ne_eq, not_true_eq_false, if_false]
      rfl
    simp only [Objective.deriv, hrun, cacheAndEval, i.1, hset]
  · exact (C164_placeholder_fails _ .grad [1, 2, 3] () _ hval).2.trans (by
      simp [log_xArray, LoggedObjective.new, Objective.new, Logger.new, Logger.reset])
  · exact (C164_placeholder_fails _ .grad [1, 2, 3] () _ hval).1.trans (by
      simp [LoggedObjective.new])

/-- A history that meets the condition of `C164_numbers_partial`. -/
example : ∀ c ∈ ([.value [4, 5, 6] () true, .deriv .hessian [1, 2, 3] () false,
    .valueCond [1, 2, 3] () true] : List (ObjCall Unit)), ¬ c.VerboseDerivative := by
  simp [ObjCall.VerboseDerivative]

end

end LRVB
