import Verif.Model.OptUtils

/-!
# The messages of repeated optimization — `OptimizationUtils.py:114-162` with `disp`

The functions of `Model/OptUtils` for `repeatedly_optimize`, with the messages they print.
-/

namespace LRVB

open Classical

noncomputable section

/-- A message: `OptimizationUtils.py:123`, `:137-138` and `:159-160`.  The numbers are kept as numbers; how
Python prints them is not modelled. -/
inductive OptMsg where
  | initial
  | start (i : ℕ)
  | iter (i : ℕ) (xDiff fDiff gradL1 : ℝ)

/-- A message that is printed only with `disp`. -/
def OptMsg.shown (disp : Bool) (m : OptMsg) : List OptMsg := if disp then [m] else []

/-- One iteration, the `i`-th from zero: `OptimizationUtils.py:136-160`. -/
def repStepP {σ R : Type} (optFun : OptFun σ R) (gtol ftol xtol : ℝ) (keep disp : Bool) (i : ℕ)
    (s : RepState σ R) : List OptMsg × σ × Objective Unit × Py (RepState σ R) :=
  let m0 := OptMsg.shown disp (.start i)
  match optFun s.env s.obj s.x with
  | (e1, o1, .error e) => (m0, e1, o1, .error e)
  | (e1, o1, .ok (newX, objOpt)) =>
    let optResults := if keep then s.optResults ++ [objOpt] else s.optResults
    let rf := o1.funFree newX () false
    match (do scalarOf (← rf.2)) with
    | .error e => (m0, e1, rf.1, .error e)
    | .ok newF =>
      let rg := rf.1.funFreeGrad newX ()
      match rg.2 with
      | .error e => (m0, e1, rg.1, .error e)
      | .ok g =>
        match vsub newX s.x with
        | .error e => (m0, e1, rg.1, .error e)
        | .ok dx =>
          let xDiff := l1 dx
          let fDiff := |newF - s.fVal|
          let gradL1 := l1 g
          let xConv := decide (xDiff < xtol)
          let fConv := decide (fDiff < ftol)
          let gradConv := decide (gradL1 < gtol)
          (m0 ++ OptMsg.shown disp (.iter (i + 1) xDiff fDiff gradL1), e1, rg.1,
            .ok ⟨e1, rg.1, newX, newF, xConv || fConv || gradConv,
              some (xConv, fConv, gradConv, objOpt), optResults⟩)

/-- The loop: `OptimizationUtils.py:135-160`; `n` iterations are left, `i` are done. -/
def repLoopP {σ R : Type} (optFun : OptFun σ R) (gtol ftol xtol : ℝ) (keep disp : Bool) :
    ℕ → ℕ → RepState σ R → List OptMsg × σ × Objective Unit × Py (RepState σ R)
  | 0, _, s => ([], s.env, s.obj, .ok s)
  | n + 1, i, s =>
    if s.converged then ([], s.env, s.obj, .ok s)
    else
      match repStepP optFun gtol ftol xtol keep disp i s with
      | (m, e, o, .error err) => (m, e, o, .error err)
      | (m, _, _, .ok s') =>
        let r := repLoopP optFun gtol ftol xtol keep disp n (i + 1) s'
        (m ++ r.1, r.2)

/-- The part after the initial optimization: `OptimizationUtils.py:128-162`; `m` has been printed. -/
def repRestP {σ R : Type} (optFun : OptFun σ R) (maxIter : ℤ) (gtol ftol xtol : ℝ) (keep disp : Bool)
    (m : List OptMsg) (e1 : σ) (o1 : Objective Unit) (x1 : List ℝ) (results : List R) :
    List OptMsg × σ × Objective Unit × Py (RepResult R) :=
  let rf := o1.funFree x1 () false
  match (do scalarOf (← rf.2)) with
  | .error e => (m, e1, rf.1, .error e)
  | .ok f1 =>
    match repLoopP optFun gtol ftol xtol keep disp maxIter.toNat 0 ⟨e1, rf.1, x1, f1, false, none, results⟩ with
    | (m2, e2, o2, .error e) => (m ++ m2, e2, o2, .error e)
    | (m2, e2, o2, .ok s) =>
      match s.last with
      | none => (m ++ m2, e2, o2, .error .unboundLocal)
      | some (xConv, fConv, gradConv, objOpt) =>
        (m ++ m2, e2, o2, .ok ⟨s.x, s.converged, xConv, fConv, gradConv, objOpt, s.optResults⟩)

/-- `repeatedly_optimize` with its messages: `OptimizationUtils.py:114-162`. -/
def repeatedlyOptimizeP {σ R : Type} (env : σ) (o : Objective Unit) (optFun : OptFun σ R) (initX : List ℝ)
    (initFun : Option (OptFun σ R)) (maxIter : ℤ) (gtol ftol xtol : ℝ) (keep disp : Bool) :
    List OptMsg × σ × Objective Unit × Py (RepResult R) :=
  match initFun with
  | none => repRestP optFun maxIter gtol ftol xtol keep disp [] env o initX []
  | some f =>
    let m := OptMsg.shown disp .initial
    match f env o initX with
    | (e1, o1, .error e) => (m, e1, o1, .error e)
    | (e1, o1, .ok (x1, r1)) =>
      repRestP optFun maxIter gtol ftol xtol keep disp m e1 o1 x1 (if keep then [r1] else [])

end

end LRVB
