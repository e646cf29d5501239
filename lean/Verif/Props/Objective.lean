import Verif.Spec.Objective
import Verif.Lemmas.Blank
import Verif.Props.Dict

/-!
# C44, C45, C47: objectives over call histories
-/

namespace LRVB

variable {A : Type}

/-! ### C44 -/

theorem Objective.deriv_par_blank {β : Type} (o : Objective A) (free : Bool) (x : List ℝ) (a : A)
    (ag : (List ℝ → Py Arr) → Py β) : (o.deriv free x a ag).1.par.blank = o.par.blank :=
  cacheAndEval_blank _ _ _ _

theorem Objective.funFree_par (o : Objective A) (x : List ℝ) (a : A) (v : Bool) :
    (o.funFree x a v).1.par = (o.par.setFree x).1 := by
  unfold Objective.funFree
  simp only
  split
  · rfl
  · split
    · rfl
    · split_ifs <;> rfl

theorem Objective.funVector_par (o : Objective A) (x : List ℝ) (a : A) :
    (o.funVector x a).1.par = (o.par.setVector x).1 := by
  unfold Objective.funVector
  simp only
  split <;> rfl

theorem Objective.step_par_blank (o : Objective A) (op : ObjOp A) :
    (o.step op).1.par.blank = o.par.blank := by
  cases op <;> simp only [Objective.step]
  case funFree => rw [Objective.funFree_par]; exact Param.setFree_blank _ _
  case funVector => rw [Objective.funVector_par]; exact Param.setVector_blank _ _
  case funFreeGrad => exact o.deriv_par_blank _ _ _ _
  case funFreeHessian => exact o.deriv_par_blank _ _ _ _
  case funFreeJacobian => exact o.deriv_par_blank _ _ _ _
  case funFreeHvp => exact o.deriv_par_blank _ _ _ _
  case funVectorGrad => exact o.deriv_par_blank _ _ _ _
  case funVectorHessian => exact o.deriv_par_blank _ _ _ _
  case funVectorJacobian => exact o.deriv_par_blank _ _ _ _
  case funVectorHvp => exact o.deriv_par_blank _ _ _ _
  case funFreeCond =>
    unfold Objective.funFreeCond
    split
    · rfl
    · split
      · rfl
      · rw [Objective.funFree_par]; exact Param.setFree_blank _ _
  case funFreeGradCond =>
    unfold Objective.funFreeGradCond
    split
    · rfl
    · split
      · rfl
      · simp only; exact o.deriv_par_blank _ _ _ _
  case funFreeHessianCond =>
    unfold Objective.funFreeHessianCond
    split
    · rfl
    · split
      · rfl
      · simp only; exact o.deriv_par_blank _ _ _ _
  case funFreeHvpCond =>
    unfold Objective.funFreeHvpCond
    split
    · rfl
    · split
      · rfl
      · split
        · rfl
        · simp only; exact o.deriv_par_blank _ _ _ _

theorem Objective.run_par_blank (ops : List (ObjOp A)) : ∀ o : Objective A,
    (o.run ops).par.blank = o.par.blank := by
  induction ops with
  | nil => intro o; rfl
  | cons op ops ih => intro o; rw [Objective.run, ih, Objective.step_par_blank]

theorem errOf_none {α : Type} {r : Py α} (h : errOf r = none) : ∃ v, r = .ok v := by
  cases r with
  | ok v => exact ⟨v, rfl⟩
  | error e => simp [errOf] at h

theorem Objective.deriv_ok {β : Type} {o : Objective A} {free : Bool} {x : List ℝ} {a : A}
    {ag : (List ℝ → Py Arr) → Py β} {v : β} (h : (o.deriv free x a ag).2 = .ok v) :
    (setPar o.par x free).2 = none ∧ (o.deriv free x a ag).1.par = (setPar o.par x free).1 := by
  have := cacheAndEval_ok h
  exact ⟨this.2.1, this.2.2⟩

theorem Objective.funFree_ok {o : Objective A} {x : List ℝ} {a : A} {vb : Bool} {v : Arr}
    (h : (o.funFree x a vb).2 = .ok v) : (o.par.setFree x).2 = none := by
  unfold Objective.funFree at h
  simp only at h
  split at h
  · simp at h
  · next hn => exact hn

theorem Objective.funVector_ok {o : Objective A} {x : List ℝ} {a : A} {v : Arr}
    (h : (o.funVector x a).2 = .ok v) : (o.par.setVector x).2 = none := by
  unfold Objective.funVector at h
  simp only at h
  split at h
  · simp at h
  · next hn => exact hn

theorem Objective.step_ok (o : Objective A) (op : ObjOp A) (hs : (o.step op).2 = none)
    (free : Bool) (y : List ℝ) (hy : op.EvaluatesAt o free y) :
    (setPar o.par y free).2 = none ∧ (o.step op).1.par = (setPar o.par y free).1 := by
  cases op <;> simp only [ObjOp.EvaluatesAt] at hy <;> simp only [Objective.step] at hs ⊢
  case funFree =>
    obtain ⟨rfl, rfl⟩ := hy; obtain ⟨v, hv⟩ := errOf_none hs
    exact ⟨Objective.funFree_ok hv, Objective.funFree_par _ _ _ _⟩
  case funVector =>
    obtain ⟨rfl, rfl⟩ := hy; obtain ⟨v, hv⟩ := errOf_none hs
    exact ⟨Objective.funVector_ok hv, Objective.funVector_par _ _ _⟩
  case funFreeGrad => obtain ⟨rfl, rfl⟩ := hy; obtain ⟨v, hv⟩ := errOf_none hs; exact Objective.deriv_ok hv
  case funFreeHessian => obtain ⟨rfl, rfl⟩ := hy; obtain ⟨v, hv⟩ := errOf_none hs; exact Objective.deriv_ok hv
  case funFreeJacobian => obtain ⟨rfl, rfl⟩ := hy; obtain ⟨v, hv⟩ := errOf_none hs; exact Objective.deriv_ok hv
  case funFreeHvp => obtain ⟨rfl, rfl⟩ := hy; obtain ⟨v, hv⟩ := errOf_none hs; exact Objective.deriv_ok hv
  case funVectorGrad => obtain ⟨rfl, rfl⟩ := hy; obtain ⟨v, hv⟩ := errOf_none hs; exact Objective.deriv_ok hv
  case funVectorHessian => obtain ⟨rfl, rfl⟩ := hy; obtain ⟨v, hv⟩ := errOf_none hs; exact Objective.deriv_ok hv
  case funVectorJacobian => obtain ⟨rfl, rfl⟩ := hy; obtain ⟨v, hv⟩ := errOf_none hs; exact Objective.deriv_ok hv
  case funVectorHvp => obtain ⟨rfl, rfl⟩ := hy; obtain ⟨v, hv⟩ := errOf_none hs; exact Objective.deriv_ok hv
  case funFreeCond =>
    obtain ⟨rfl, P, hP, hy⟩ := hy; obtain ⟨v, hv⟩ := errOf_none hs
    simp only [Objective.funFreeCond, hP, Objective.conditionedX, hy] at hv ⊢
    exact ⟨Objective.funFree_ok hv, Objective.funFree_par _ _ _ _⟩
  case funFreeGradCond =>
    obtain ⟨rfl, P, hP, hy⟩ := hy; obtain ⟨v, hv⟩ := errOf_none hs
    simp only [Objective.funFreeGradCond, hP, Objective.conditionedX, hy] at hv ⊢
    obtain ⟨w, hw, _⟩ := py_bind_ok hv
    exact Objective.deriv_ok hw
  case funFreeHessianCond =>
    obtain ⟨rfl, P, hP, hy⟩ := hy; obtain ⟨v, hv⟩ := errOf_none hs
    simp only [Objective.funFreeHessianCond, hP, Objective.conditionedX, hy] at hv ⊢
    obtain ⟨w, hw, _⟩ := py_bind_ok hv
    exact Objective.deriv_ok hw
  case funFreeHvpCond =>
    obtain ⟨rfl, P, hP, hy⟩ := hy; obtain ⟨v, hv⟩ := errOf_none hs
    simp only [Objective.funFreeHvpCond, hP, Objective.conditionedX, hy] at hv ⊢
    split at hv
    · simp at hv
    · obtain ⟨w, hw, _⟩ := py_bind_ok hv
      exact Objective.deriv_ok hw

/-- **C44** After any sequence of calls (successful or not) ending with a successful value, gradient,
Hessian, Jacobian or Hessian-vector-product call, the parameter holds plain numbers, namely exactly
what `set_free` (for a free point) or `set_vector` (for a constrained point) of the last evaluation
point makes of the parameter the objective was created with. -/
theorem C44_parameter_holds_point (o : Objective A) (ops : List (ObjOp A)) (op : ObjOp A)
    (free : Bool) (y : List ℝ) (hy : op.EvaluatesAt (o.run ops) free y)
    (hs : ((o.run ops).step op).2 = none) :
    ((o.run ops).step op).1.par = (if free then o.par.setFree y else o.par.setVector y).1 ∧
    (if free then o.par.setFree y else o.par.setVector y).2 = none ∧
    ((o.run ops).step op).1.par.Plain := by
  obtain ⟨h1, h2⟩ := Objective.step_ok _ op hs free y hy
  have hb := o.run_par_blank ops
  have i := setPar_indep hb y free
  have e : setPar o.par y free = (if free then o.par.setFree y else o.par.setVector y) := rfl
  rw [← e]
  refine ⟨?_, i.1.trans h1, ?_⟩
  · rw [h2, i.2 h1]
  · rw [h2]; exact setPar_plain _ _ _ h1

/-- An objective on the example dictionary: the sum of the entries of its vector. -/
noncomputable def exObj : Objective Unit :=
  Objective.new exDict fun _ p => do .ok (Arr.scalar (← p.getVector).sum)

theorem exObj_value (y : List ℝ) (hy : y.length = 3) :
    valueAt (exObj.fn ()) exDict true y = .ok (Arr.scalar (exDict.ftvP y).sum) := by
  obtain ⟨eigh, he⟩ := exists_eigh
  have hw := (exDict_built eigh).wf he
  have hy' : y.length = exDict.freeSize := by rw [exDict_freeSize]; exact hy
  unfold valueAt
  simp only [setPar, if_true]
  rw [exDict.setFree_ok hw y hy']
  simp only
  rw [Param.mark_plain _ (Param.freeP_plain _ _)]
  simp only [exObj, Objective.new]
  rw [exDict.getVector_freeP hw exDict_hasParams y hy']
  rfl

/-- A gradient call after a value call at another point meets the hypotheses of C44. -/
example : ∃ (o : Objective Unit) (ops : List (ObjOp Unit)) (op : ObjOp Unit) (y : List ℝ),
    op.EvaluatesAt (o.run ops) true y ∧ ((o.run ops).step op).2 = none ∧ ops ≠ [] := by
  refine ⟨exObj, [.funFree [4, 5, 6] () true], .funFreeGrad [1, 2, 3] (), [1, 2, 3], ⟨rfl, rfl⟩, ?_,
    by simp⟩
  obtain ⟨eigh, he⟩ := exists_eigh
  have hw := (exDict_built eigh).wf he
  simp only [Objective.run, Objective.step]
  have hb : ((exObj.funFree [4, 5, 6] () true).1).par.blank = exDict.blank := by
    rw [Objective.funFree_par]; exact Param.setFree_blank _ _
  have hfn : ((exObj.funFree [4, 5, 6] () true).1).fn = exObj.fn := by
    unfold Objective.funFree
    simp only
    split
    · rfl
    · split
      · rfl
      · rfl
  have hset : (setPar exDict [1, 2, 3] true).2 = none := by
    simp only [setPar, if_true]
    rw [exDict.setFree_ok hw _ (by rw [exDict_freeSize]; rfl)]
  have hset' := setPar_eq hb.symm hset
  have hval : valueAt (((exObj.funFree [4, 5, 6] () true).1).fn ())
      ((exObj.funFree [4, 5, 6] () true).1).par true [1, 2, 3] =
      .ok (Arr.scalar (exDict.ftvP [1, 2, 3]).sum) := by
    rw [hfn, ← exObj_value [1, 2, 3] rfl]
    unfold valueAt
    rw [hset']
  simp only [Objective.funFreeGrad, Objective.deriv, agGrad, hval, py_ok_bind]
  have hsz : (Arr.scalar (exDict.ftvP [1, 2, 3]).sum).size = 1 := rfl
  simp only [hsz, ne_eq, not_true_eq_false, if_false, cacheAndEval]
  have i := setPar_indep (traceSet_blank ((exObj.funFree [4, 5, 6] () true).1).par [1, 2, 3] true).symm
    [1, 2, 3] true
  rw [hset'] at i
  rw [i.1, hset]
  rfl

/-! ### C45 -/

mutual
theorem Param.mark_true_not_plain : ∀ p : Param, p.WF → p.HasParams → ¬ (p.mark true).Plain
  | .leaf l, _, _ => by simp [Param.mark, Param.Plain]
  | .dict h es, hw, hp => by
    simp only [Param.mark, Param.Plain]
    exact Entries.mark_true_not_plain es hw.1 hp
theorem Entries.mark_true_not_plain : ∀ es : Entries, es.WF → es ≠ .nil → ¬ (es.mark true).Plain
  | .nil, _, hn => absurd rfl hn
  | .cons k p rest, hw, _ => by
    simp only [Entries.mark, Entries.Plain]
    intro h
    exact Param.mark_true_not_plain p hw.1 hw.2.1 h.1
end

/-- **C45** fails: whenever the user function raises during a gradient, Hessian, Jacobian or
Hessian-vector-product call at a point of the right size, the exception propagates and the
parameter is left holding differentiation placeholders. -/
theorem C45_counterexample {eigh : Eigh} (he : EighContract eigh) (o : Objective A)
    (hb : Built eigh o.par) (hp : o.par.HasParams) (x : List ℝ) (hx : x.length = o.par.freeSize)
    (a : A) (e : PyErr) (hraise : o.fn a (o.par.setFree x).1 = .error e) (w : List ℝ) :
    ((o.funFreeGrad x a).2 = .error e ∧ ¬ (o.funFreeGrad x a).1.par.Plain) ∧
    ((o.funFreeHessian x a).2 = .error e ∧ ¬ (o.funFreeHessian x a).1.par.Plain) ∧
    ((o.funFreeJacobian x a).2 = .error e ∧ ¬ (o.funFreeJacobian x a).1.par.Plain) ∧
    ((o.funFreeHvp x a w).2 = .error e ∧ ¬ (o.funFreeHvp x a w).1.par.Plain) := by
  have hw := hb.wf he
  have hset := o.par.setFree_ok hw x hx
  have hpl : ((o.par.freeP x).mark false) = o.par.freeP x := Param.mark_plain _ (Param.freeP_plain _ _)
  rw [hset] at hraise
  have hval : valueAt (o.fn a) o.par true x = .error e := by
    simp only [valueAt, setPar, if_true, hset, hpl]
    exact hraise
  have htr : traceSet o.par x true = (o.par.freeP x).mark true := by
    simp only [traceSet, setPar, if_true, hset]
  have e1 := o.par.freeP_erase hw x hx
  have hnp : ¬ (traceSet o.par x true).Plain := by
    rw [htr]
    exact Param.mark_true_not_plain _ ((Param.wf_congr e1).mpr hw) ((Param.hasParams_congr e1).mpr hp)
  refine ⟨?_, ?_, ?_, ?_⟩
  · simp only [Objective.funFreeGrad, Objective.deriv, agGrad, hval, py_err_bind, cacheAndEval]
    exact ⟨trivial, hnp⟩
  · simp only [Objective.funFreeHessian, Objective.deriv, agHess, hval, py_err_bind, cacheAndEval]
    exact ⟨trivial, hnp⟩
  · simp only [Objective.funFreeJacobian, Objective.deriv, agJac, hval, py_err_bind, cacheAndEval]
    exact ⟨trivial, hnp⟩
  · simp only [Objective.funFreeHvp, Objective.deriv, agHvp, hval, py_err_bind, cacheAndEval]
    exact ⟨trivial, hnp⟩

/-- The hypotheses are met by the example dictionary and a function that raises. -/
example : ∃ (eigh : Eigh) (o : Objective Unit) (x : List ℝ) (e : PyErr), EighContract eigh ∧
    Built eigh o.par ∧ o.par.HasParams ∧ x.length = o.par.freeSize ∧ o.par.Plain ∧
    o.fn () (o.par.setFree x).1 = .error e := by
  obtain ⟨eigh, he⟩ := exists_eigh
  refine ⟨eigh, Objective.new exDict fun _ _ => .error .userError, [1, 2, 3], .userError, he,
    exDict_built eigh, exDict_hasParams, ?_, ?_, rfl⟩
  · show ([1, 2, 3] : List ℝ).length = exDict.freeSize
    rw [exDict_freeSize]; rfl
  · simp [Objective.new, exDict, exSub, Param.emptyDict, Param.push, Param.Plain, Entries.Plain,
      Entries.assign, Param.name, exScalar, exVector]

/-- **C45**, the part that holds.  (i) A failing value call leaves plain numbers when there were
plain numbers before.  (ii) A derivative call at a point of the wrong size raises `ValueError` and
leaves the dictionary unchanged.  (iii) After any history of failing calls a successful call makes
the parameter plain again (C44).  Missing: derivative calls in which the user function raises, for
which the counterexample shows the opposite. -/
theorem C45_partial {eigh : Eigh} (he : EighContract eigh) (o : Objective A)
    (hb : Built eigh o.par) (hd : o.par.IsDict) (hpl : o.par.Plain) :
    (∀ x a v, (o.funFree x a v).1.par.Plain) ∧ (∀ x a, (o.funVector x a).1.par.Plain) ∧
    (∀ x a w, x.length ≠ o.par.freeSize →
      (o.funFreeGrad x a).1 = o ∧ (o.funFreeGrad x a).2 = .error .valueError ∧
      (o.funFreeHessian x a).1 = o ∧ (o.funFreeHessian x a).2 = .error .valueError ∧
      (o.funFreeJacobian x a).1 = o ∧ (o.funFreeJacobian x a).2 = .error .valueError ∧
      (o.funFreeHvp x a w).1 = o ∧ (o.funFreeHvp x a w).2 = .error .valueError) ∧
    (∀ ops op, ((o.run ops).step op).2 = none → (∃ free y, op.EvaluatesAt (o.run ops) free y) →
      ((o.run ops).step op).1.par.Plain) := by
  have hw := hb.wf he
  refine ⟨fun x a v => ?_, fun x a => ?_, fun x a w hx => ?_, fun ops op hs hy => ?_⟩
  · rw [Objective.funFree_par]
    by_cases hx : x.length = o.par.freeSize
    · rw [o.par.setFree_ok hw x hx]; exact Param.freeP_plain _ _
    · rw [(C34_wrong_length o.par hd x).1 hx]; exact hpl
  · rw [Objective.funVector_par]
    by_cases hx : x.length = o.par.vecSize
    · have := Param.setVector_plain o.par x
      rw [o.par.setVector_ok hw x hx] at this ⊢
      exact this rfl
    · rw [(C34_wrong_length o.par hd x).2 hx]; exact hpl
  · have hset := (C34_wrong_length o.par hd x).1 hx
    have hval : valueAt (o.fn a) o.par true x = .error .valueError := by
      simp only [valueAt, setPar, if_true, hset]
    have htr : traceSet o.par x true = o.par := by
      simp only [traceSet, setPar, if_true, hset]
    simp only [Objective.funFreeGrad, Objective.funFreeHessian, Objective.funFreeJacobian,
      Objective.funFreeHvp, Objective.deriv, agGrad, agHess, agJac, agHvp, hval, py_err_bind,
      cacheAndEval, htr, and_self]
  · obtain ⟨free, y, hy⟩ := hy
    exact (C44_parameter_holds_point o ops op free y hy hs).2.2

/-! ### C47 -/

theorem Logger.log_ok {V : Type} (l : Logger V) (v : V) (x : List ℝ) (m : ℕ) (hm : 0 < m)
    (hpos : 0 < l.printEvery) (hx : x.length = m) (hl : ∀ lx, l.lastX = some lx → lx.length = m) :
    l.log v x = (⟨l.printEvery, l.callback, l.iter + 1, some x, some x, some v, some v,
      l.xArray ++ [x], l.valArray ++ [v],
      if l.printEvery ∣ l.iter then l.reports ++ [l.iter] else l.reports⟩, none) := by
  obtain ⟨pe, cb, it, lx, x0, v0, lv, xa, va, rp⟩ := l
  have hbad : ¬ ∃ lx', lx = some lx' ∧ ¬ Logger.diffOk x lx' := by
    rintro ⟨lx', rfl, hd⟩
    have := hl lx' rfl
    refine hd ⟨Or.inl (by omega), ?_, ?_⟩
    · rintro rfl; simp at hx; omega
    · rintro rfl; simp at this; omega
  simp only at hpos
  simp only [Logger.log]
  rw [if_neg hbad, if_neg (by omega)]
  simp only [Nat.dvd_iff_mod_eq_zero]
  split_ifs <;> rfl

theorem Logger.logAll_eq {V : Type} (k m : ℕ) (hpos : 0 < k) (hm : 0 < m) :
    ∀ (es : List (V × List ℝ)) (l : Logger V), l.printEvery = k → (∀ e ∈ es, e.2.length = m) →
    (∀ lx, l.lastX = some lx → lx.length = m) →
    l.logAll es = ⟨k, l.callback, l.iter + es.length, (es.map Prod.snd).getLast?.or l.lastX,
      (es.map Prod.snd).getLast?.or l.x, (es.map Prod.fst).getLast?.or l.value,
      (es.map Prod.fst).getLast?.or l.lastValue, l.xArray ++ es.map Prod.snd,
      l.valArray ++ es.map Prod.fst,
      l.reports ++ (List.range' l.iter es.length).filter (k ∣ ·)⟩ := by
  intro es
  induction es with
  | nil => intro l hk _ _; subst hk; simp [Logger.logAll]
  | cons e es ih =>
    intro l hk hes hl
    rw [Logger.logAll, l.log_ok e.1 e.2 m hm (by omega) (hes e (by simp)) hl]
    refine (ih _ ?_ ?_ ?_).trans ?_
    · exact hk
    · exact fun e' he' => hes e' (by simp [he'])
    · intro lx h
      simp only [Option.some.injEq] at h
      rw [← h]; exact hes e (by simp)
    subst hk
    simp only [List.map_cons, List.length_cons, List.getLast?_cons, List.append_assoc,
      List.singleton_append, List.range'_succ, List.filter_cons, decide_eq_true_eq]
    congr 1
    · omega
    · cases (es.map Prod.snd).getLast? <;> rfl
    · cases (es.map Prod.snd).getLast? <;> rfl
    · cases (es.map Prod.fst).getLast? <;> rfl
    · cases (es.map Prod.fst).getLast? <;> rfl
    · split_ifs <;> simp

theorem filter_dvd_length (k : ℕ) (hk : 0 < k) (n : ℕ) :
    ((List.range n).filter (k ∣ ·)).length = (n + k - 1) / k := by
  induction n with
  | zero => simp [Nat.div_eq_of_lt (show k - 1 < k by omega)]
  | succ n ih =>
    rw [List.range_succ, List.filter_append, List.length_append, ih]
    have hd := Nat.div_add_mod n k
    have hlt := Nat.mod_lt n hk
    by_cases h : k ∣ n
    · obtain ⟨c, rfl⟩ := h
      have e1 : (k * c + k - 1) / k = c := by
        rw [show k * c + k - 1 = (k - 1) + k * c by omega, Nat.add_mul_div_left _ _ hk,
          Nat.div_eq_of_lt (by omega)]; omega
      have e2 : (k * c + 1 + k - 1) / k = c + 1 := by
        rw [show k * c + 1 + k - 1 = k * (c + 1) by rw [Nat.mul_add]; omega, Nat.mul_div_cancel_left _ hk]
      rw [e1, e2]; simp
    · have hm : n % k ≠ 0 := fun h0 => h (Nat.dvd_of_mod_eq_zero h0)
      have e1 : (n + k - 1) / k = n / k + 1 := by
        conv_lhs => rw [← hd]
        rw [show k * (n / k) + n % k + k - 1 = (n % k - 1) + k * (n / k + 1) by rw [Nat.mul_add]; omega,
          Nat.add_mul_div_left _ _ hk, Nat.div_eq_of_lt (by omega)]; omega
      have e2 : (n + 1 + k - 1) / k = n / k + 1 := by
        conv_lhs => rw [← hd]
        rw [show k * (n / k) + n % k + 1 + k - 1 = (n % k) + k * (n / k + 1) by rw [Nat.mul_add]; omega,
          Nat.add_mul_div_left _ _ hk, Nat.div_eq_of_lt hlt]; omega
      rw [e1, e2]; simp [h]

/-- **C47** Initialize a logger with any history and a positive rate `k`, and log any number of
evaluations at points of one (non-zero) dimension.  Then the logger holds exactly these points and
values, in order; the current and last point and value are the latest ones; the iteration number is
the number of calls; the reports since the initialization were at exactly the iteration numbers
(counted from 0) divisible by `k`, which are `⌈n / k⌉` many; and the callback and rate are those
before the initialization. -/
theorem C47_logger {V : Type} (l : Logger V) (k m : ℕ) (hk : l.printEvery = k) (hpos : 0 < k)
    (hm : 0 < m) (es : List (V × List ℝ)) (hes : ∀ e ∈ es, e.2.length = m) :
    (l.reset.logAll es).xArray = es.map Prod.snd ∧
    (l.reset.logAll es).valArray = es.map Prod.fst ∧
    (l.reset.logAll es).iter = es.length ∧
    (l.reset.logAll es).x = (es.map Prod.snd).getLast? ∧
    (l.reset.logAll es).lastX = (es.map Prod.snd).getLast? ∧
    (l.reset.logAll es).value = (es.map Prod.fst).getLast? ∧
    (l.reset.logAll es).lastValue = (es.map Prod.fst).getLast? ∧
    (l.reset.logAll es).reports = l.reports ++ (List.range es.length).filter (k ∣ ·) ∧
    ((List.range es.length).filter (k ∣ ·)).length = (es.length + k - 1) / k ∧
    (l.reset.logAll es).callback = l.callback ∧
    (l.reset.logAll es).printEvery = k := by
  rw [Logger.logAll_eq k m hpos hm es l.reset hk hes (by simp [Logger.reset])]
  rw [filter_dvd_length k hpos]
  simp [Logger.reset, List.range_eq_range']

/-- `initialize` keeps the rate and the callback and drops the history. -/
theorem C47_initialize {V : Type} (l : Logger V) :
    l.reset.printEvery = l.printEvery ∧ l.reset.callback = l.callback ∧ l.reset.xArray = [] ∧
    l.reset.valArray = [] ∧ l.reset.iter = 0 ∧ l.reset.x = none ∧ l.reset.lastX = none ∧
    l.reset.value = none ∧ l.reset.lastValue = none ∧ l.reset.reports = l.reports :=
  ⟨rfl, rfl, rfl, rfl, rfl, rfl, rfl, rfl, rfl, rfl⟩

/-- Outside the stated range: with rate 0 a call raises `ZeroDivisionError` after having extended
the history, and does not count. -/
theorem C47_rate_zero {V : Type} (l : Logger V) (v : V) (x : List ℝ) (hk : l.printEvery = 0)
    (hl : l.lastX = none) : (l.log v x).2 = some .zeroDivision ∧
      (l.log v x).1.xArray = l.xArray ++ [x] ∧ (l.log v x).1.iter = l.iter := by
  obtain ⟨pe, cb, it, lx, x0, v0, lv, xa, va, rp⟩ := l
  simp only at hk hl
  subst hk hl
  simp [Logger.log]

/-- Outside the stated range: a point whose dimension cannot be compared with the last one raises
`ValueError` after having extended the history, and does not become the last point. -/
theorem C47_dimension_change {V : Type} (l : Logger V) (v : V) (x lx : List ℝ)
    (hl : l.lastX = some lx) (h : x.length ≠ lx.length) (h1 : x.length ≠ 1) (h2 : lx.length ≠ 1) :
    (l.log v x).2 = some .valueError ∧ (l.log v x).1.xArray = l.xArray ++ [x] ∧
      (l.log v x).1.lastX = some lx := by
  obtain ⟨pe, cb, it, lx0, x0, v0, lv, xa, va, rp⟩ := l
  simp only at hl
  subst hl
  have : ¬ Logger.diffOk x lx := fun hd => by rcases hd.1 with h' | h' | h' <;> contradiction
  simp [Logger.log, this]

/-- An objective logs exactly its successful verbose value calls: the point and the value. -/
theorem C47_objective_logs (o : Objective A) (x : List ℝ) (a : A) :
    (o.funFree x a false).1.logger = o.logger ∧
    (∀ v, (o.funFree x a false).2 = .ok v →
      (o.funFree x a true).1.logger = (o.logger.log v x).1) ∧
    (∀ e, (o.funFree x a false).2 = .error e → (o.funFree x a true).1.logger = o.logger) ∧
    (o.funVector x a).1.logger = o.logger ∧ (o.funFreeGrad x a).1.logger = o.logger ∧
    (o.funFreeHessian x a).1.logger = o.logger ∧ (o.funFreeJacobian x a).1.logger = o.logger := by
  refine ⟨?_, ?_, ?_, ?_, rfl, rfl, rfl⟩
  · unfold Objective.funFree
    simp only
    split
    · rfl
    · split <;> simp
  · intro v hv
    unfold Objective.funFree at hv ⊢
    cases hn : (o.par.setFree x).2 with
    | some e => simp [hn] at hv
    | none =>
      cases hw : o.fn a ((o.par.setFree x).1.mark false) with
      | error e => simp [hn, hw] at hv
      | ok w =>
        simp only [hn, hw] at hv ⊢
        simp at hv
        subst hv
        rfl
  · intro e hv
    unfold Objective.funFree at hv ⊢
    cases hn : (o.par.setFree x).2 with
    | some e => simp only [hn]
    | none =>
      cases hw : o.fn a ((o.par.setFree x).1.mark false) with
      | error e => simp only [hn, hw]
      | ok w => simp [hn, hw] at hv
  · unfold Objective.funVector
    simp only
    split <;> rfl

/-- Five evaluations at points of dimension 2 with rate 2. -/
example : ∃ (l : Logger ℝ) (es : List (ℝ × List ℝ)), l.printEvery = 2 ∧ es.length = 5 ∧
    (∀ e ∈ es, e.2.length = 2) :=
  ⟨Logger.new 2, List.replicate 5 (1, [2, 3]), rfl, rfl, by simp⟩

end LRVB
