import Verif.Model.InterruptTwo
import Verif.Props.Interrupt
import Verif.Props.TwoObjective
import Verif.Props.ConverterRaise
import Verif.Props.Coordinates

/-!
# C186: two-parameter objectives and converters after calls that raised or were stopped
-/

namespace LRVB

variable {A : Type}

/-! ### Specification: histories -/

/-- The calls on a two-parameter objective, with both parameterizations. -/
inductive TwoCall (A : Type)
  | value (x1 x2 : List ℝ) (free1 free2 : Bool) (a : A)
  | grad1 (x1 x2 : List ℝ) (free1 free2 : Bool) (a : A)
  | grad2 (x1 x2 : List ℝ) (free1 free2 : Bool) (a : A)
  | hessian12 (x1 x2 : List ℝ) (free1 free2 : Bool) (a : A)
  | hessian21 (x1 x2 : List ℝ) (free1 free2 : Bool) (a : A)

namespace TwoCall

/-- The objective after the call, and what the call returned or raised. -/
noncomputable def run : TwoCall A → TwoObjective A → TwoObjective A × Py Arr
  | value x1 x2 f1 f2 a, o => o.evalFun x1 x2 f1 f2 a
  | grad1 x1 x2 f1 f2 a, o => ((o.funGrad1 x1 x2 f1 f2 a).1, Arr.vec <$> (o.funGrad1 x1 x2 f1 f2 a).2)
  | grad2 x1 x2 f1 f2 a, o => ((o.funGrad2 x1 x2 f1 f2 a).1, Arr.vec <$> (o.funGrad2 x1 x2 f1 f2 a).2)
  | hessian12 x1 x2 f1 f2 a, o => o.hessian12 x1 x2 f1 f2 a
  | hessian21 x1 x2 f1 f2 a, o => o.hessian21 x1 x2 f1 f2 a

/-- The states of the objective during the call. -/
noncomputable def during : TwoCall A → TwoObjective A → List (TwoObjective A)
  | value x1 x2 f1 f2 _, o => o.duringEval x1 x2 f1 f2 false false
  | grad1 x1 x2 f1 f2 a, o =>
    o.duringDeriv x1 x2 f1 f2 true false (TwoObjective.agGrad1 (o.valueAt f1 f2 a) x1 x2)
  | grad2 x1 x2 f1 f2 a, o =>
    o.duringDeriv x1 x2 f1 f2 false true (TwoObjective.agGrad2 (o.valueAt f1 f2 a) x1 x2)
  | hessian12 x1 x2 f1 f2 a, o =>
    o.duringDeriv x1 x2 f1 f2 true true (TwoObjective.agHessian12 (o.valueAt f1 f2 a) x1 x2)
  | hessian21 x1 x2 f1 f2 a, o =>
    o.duringDeriv x1 x2 f1 f2 true true (TwoObjective.agHessian21 (o.valueAt f1 f2 a) x1 x2)

end TwoCall

/-- The objective `o` can be in state `s` after a history of calls, each of which returned, raised or was stopped at
some moment. -/
inductive TwoAfter (o : TwoObjective A) : TwoObjective A → Prop
  | start : TwoAfter o o
  | finished {s} (c : TwoCall A) : TwoAfter o s → TwoAfter o (c.run s).1
  | stopped {s t} (c : TwoCall A) : TwoAfter o s → t ∈ c.during s → TwoAfter o t

/-- The converter `c` can be in state `s` after a history of conversions and Jacobians, each of which returned, raised or
was stopped at some moment. -/
inductive ConvAfter (c : Converter) : Converter → Prop
  | start : ConvAfter c c
  | converted {s} (fi fo : Bool) (x : List ℝ) : ConvAfter c s → ConvAfter c (s.convert fi fo x).1
  | differentiated {s} (fi fo : Bool) (x : List ℝ) : ConvAfter c s → ConvAfter c (s.jacobian fi fo x).1
  | stoppedConvert {s t} (fi : Bool) (x : List ℝ) : ConvAfter c s → s.DuringConvert fi false x t → ConvAfter c t
  | stoppedJacobian {s t} (fi fo : Bool) (x : List ℝ) : ConvAfter c s → s.DuringJacobian fi fo x t → ConvAfter c t

/-- A user's converter whose outcome does not depend on the values that the output parameter held before. -/
def Overwrites (conv : Param → Param → Param × Option PyErr) : Prop :=
  ∀ p q q', q.blank = q'.blank → (conv p q).2 = (conv p q').2 ∧
    ((conv p q).2 = none → (conv p q).1 = (conv p q').1)

/-! ### Two-parameter objectives -/

/-- Objectives that differ in the values held by their parameters only. -/
structure TwoSame (o s : TwoObjective A) : Prop where
  par1 : o.par1.blank = s.par1.blank
  par2 : o.par2.blank = s.par2.blank
  fn : o.fn = s.fn

theorem TwoSame.refl (o : TwoObjective A) : TwoSame o o := ⟨rfl, rfl, rfl⟩

theorem TwoSame.trans {o s t : TwoObjective A} (h : TwoSame o s) (h' : TwoSame s t) : TwoSame o t :=
  ⟨h.par1.trans h'.par1, h.par2.trans h'.par2, h.fn.trans h'.fn⟩

theorem evalFun_same (o : TwoObjective A) (x1 x2 : List ℝ) (f1 f2 : Bool) (a : A) :
    TwoSame o (o.evalFun x1 x2 f1 f2 a).1 := by
  simp only [TwoObjective.evalFun]
  split
  · exact ⟨(setPar_blank _ _ _).symm, rfl, rfl⟩
  · split <;> exact ⟨(setPar_blank _ _ _).symm, (setPar_blank _ _ _).symm, rfl⟩

theorem twoTrace_same (o : TwoObjective A) (x1 x2 : List ℝ) (f1 f2 t1 t2 : Bool) :
    TwoSame o (o.trace x1 x2 f1 f2 t1 t2) := by
  have h : ∀ (t : Bool) (p : Param) (x : List ℝ) (f : Bool),
      p.blank = (if t then (setPar p x f).1.mark true else (setPar p x f).1).blank := by
    intro t p x f
    cases t
    · exact (setPar_blank _ _ _).symm
    · exact ((Param.mark_blank _ _).trans (setPar_blank _ _ _)).symm
  simp only [TwoObjective.trace]
  split
  · exact ⟨(setPar_blank _ _ _).symm, rfl, rfl⟩
  · split
    · exact ⟨h _ _ _ _, (setPar_blank _ _ _).symm, rfl⟩
    · exact ⟨h _ _ _ _, h _ _ _ _, rfl⟩

theorem twoCache_same {β : Type} (o : TwoObjective A) (x1 x2 : List ℝ) (f1 f2 t1 t2 : Bool) (ag : Py β) :
    TwoSame o (o.cacheAndEval x1 x2 f1 f2 t1 t2 ag).1 := by
  have h := twoTrace_same o x1 x2 f1 f2 t1 t2
  simp only [TwoObjective.cacheAndEval]
  split
  · exact h
  · split
    · exact h.trans ⟨(setPar_blank _ _ _).symm, rfl, rfl⟩
    · exact h.trans ⟨(setPar_blank _ _ _).symm, (setPar_blank _ _ _).symm, rfl⟩

theorem twoRun_same (c : TwoCall A) (o : TwoObjective A) : TwoSame o (c.run o).1 := by
  cases c
  · exact evalFun_same _ _ _ _ _ _
  all_goals
    simp only [TwoCall.run, TwoObjective.funGrad1, TwoObjective.funGrad2, TwoObjective.hessian12,
      TwoObjective.hessian21]
    exact twoCache_same _ _ _ _ _ _ _ _

theorem duringEval_same (o : TwoObjective A) (x1 x2 : List ℝ) (f1 f2 t1 t2 : Bool) :
    ∀ s ∈ o.duringEval x1 x2 f1 f2 t1 t2, TwoSame o s := by
  intro s hs
  simp only [TwoObjective.duringEval, List.mem_append, List.mem_map] at hs
  obtain ⟨p, hp, rfl⟩ | hs := hs
  · exact ⟨(Param.during_blank _ _ _ _ p hp).symm, rfl, rfl⟩
  · split at hs
    · cases hs
    · obtain ⟨q, hq, rfl⟩ := List.mem_map.1 hs
      refine ⟨?_, (Param.during_blank _ _ _ _ q hq).symm, rfl⟩
      cases t1
      · exact (setPar_blank _ _ _).symm
      · exact ((Param.mark_blank _ _).trans (setPar_blank _ _ _)).symm

theorem duringDeriv_same {β : Type} (o : TwoObjective A) (x1 x2 : List ℝ) (f1 f2 t1 t2 : Bool) (ag : Py β) :
    ∀ s ∈ o.duringDeriv x1 x2 f1 f2 t1 t2 ag, TwoSame o s := by
  intro s hs
  obtain hs | hs := List.mem_append.1 hs
  · exact duringEval_same _ _ _ _ _ _ _ s hs
  · split at hs
    · cases hs
    · exact (twoTrace_same o x1 x2 f1 f2 t1 t2).trans (duringEval_same _ _ _ _ _ _ _ s hs)

theorem twoDuring_same (c : TwoCall A) (o : TwoObjective A) : ∀ s ∈ c.during o, TwoSame o s := by
  cases c
  · exact duringEval_same _ _ _ _ _ _ _
  all_goals exact duringDeriv_same _ _ _ _ _ _ _ _

theorem TwoAfter.same {o s : TwoObjective A} (h : TwoAfter o s) : TwoSame o s := by
  induction h with
  | start => exact .refl o
  | finished c _ ih => exact ih.trans (twoRun_same c _)
  | stopped c _ ht ih => exact ih.trans (twoDuring_same c _ _ ht)

/-- Calls with the same outcome on objectives that differ in the held values only. -/
def TwoTwin {β : Type} (f : TwoObjective A → TwoObjective A × Py β) : Prop :=
  ∀ o s, TwoSame o s → (f s).2 = (f o).2 ∧ ∀ v, (f o).2 = .ok v → (f s).1 = (f o).1

theorem twoTwin_eval (x1 x2 : List ℝ) (f1 f2 : Bool) (a : A) :
    TwoTwin fun o : TwoObjective A => o.evalFun x1 x2 f1 f2 a := by
  rintro ⟨p1, p2, fn⟩ ⟨q1, q2, fn'⟩ ⟨h1, h2, rfl⟩
  have i1 := setPar_indep h1 x1 f1
  have i2 := setPar_indep h2 x2 f2
  simp only [TwoObjective.evalFun]
  simp only at h1 h2 i1 i2
  rw [i1.1, i2.1]
  cases e1 : (setPar p1 x1 f1).2 with
  | some e => exact ⟨rfl, fun v hv => by cases hv⟩
  | none =>
    cases e2 : (setPar p2 x2 f2).2 with
    | some e => exact ⟨rfl, fun v hv => by cases hv⟩
    | none =>
      simp only [i1.2 e1, i2.2 e2]
      exact ⟨trivial, fun _ _ => trivial⟩

theorem twoValueAt_same {o s : TwoObjective A} (h : TwoSame o s) (f1 f2 : Bool) (a : A) :
    s.valueAt f1 f2 a = o.valueAt f1 f2 a := by
  funext x1 x2
  exact (twoTwin_eval x1 x2 f1 f2 a o s h).1

theorem twoTwin_cache {β : Type} (x1 x2 : List ℝ) (f1 f2 t1 t2 : Bool) (ag : TwoObjective A → Py β)
    (hag : ∀ o s, TwoSame o s → ag s = ag o) :
    TwoTwin fun o : TwoObjective A => o.cacheAndEval x1 x2 f1 f2 t1 t2 (ag o) := by
  intro o s h
  have hs := twoTrace_same s x1 x2 f1 f2 t1 t2
  have ho := twoTrace_same o x1 x2 f1 f2 t1 t2
  have i1 := setPar_indep (ho.par1.symm.trans (h.par1.trans hs.par1)) x1 f1
  have i2 := setPar_indep (ho.par2.symm.trans (h.par2.trans hs.par2)) x2 f2
  have hf : (s.trace x1 x2 f1 f2 t1 t2).fn = (o.trace x1 x2 f1 f2 t1 t2).fn :=
    (ho.fn.symm.trans (h.fn.trans hs.fn)).symm
  simp only [TwoObjective.cacheAndEval, hag o s h]
  cases ag o with
  | error e => exact ⟨rfl, fun v hv => by cases hv⟩
  | ok v =>
    simp only
    rw [i1.1]
    cases e1 : (setPar (o.trace x1 x2 f1 f2 t1 t2).par1 x1 f1).2 with
    | some e => exact ⟨rfl, fun v hv => by cases hv⟩
    | none =>
      simp only [i2.1, hf]
      cases e2 : (setPar (o.trace x1 x2 f1 f2 t1 t2).par2 x2 f2).2 with
      | some e => exact ⟨trivial, fun v hv => by cases hv⟩
      | none =>
        simp only [i1.2 e1, i2.2 e2]
        exact ⟨trivial, fun _ _ => trivial⟩

theorem twoTwin_map {f : TwoObjective A → TwoObjective A × Py (List ℝ)} (h : TwoTwin f) :
    TwoTwin fun o => ((f o).1, Arr.vec <$> (f o).2) := by
  intro o s hs
  obtain ⟨h1, h2⟩ := h o s hs
  refine ⟨by simp only [h1], fun v hv => ?_⟩
  simp only at hv ⊢
  cases e : (f o).2 with
  | error e' => rw [e] at hv; cases hv
  | ok w => exact h2 w e

theorem twoTwin_run (c : TwoCall A) : TwoTwin c.run := by
  cases c
  · exact twoTwin_eval _ _ _ _ _
  · exact twoTwin_map (twoTwin_cache _ _ _ _ _ _ _ fun o s h => by rw [twoValueAt_same h])
  · exact twoTwin_map (twoTwin_cache _ _ _ _ _ _ _ fun o s h => by rw [twoValueAt_same h])
  · exact twoTwin_cache _ _ _ _ _ _ _ fun o s h => by rw [twoValueAt_same h]
  · exact twoTwin_cache _ _ _ _ _ _ _ fun o s h => by rw [twoValueAt_same h]

/-- **C186** (two parameters) After any history of calls of a two-parameter objective, each of which returned, raised
or was stopped at any moment, every call returns, or raises, what it would on the object as it was at first, and when it
returns, the object is in the same state. -/
theorem C186_two_parameters (o s : TwoObjective A) (h : TwoAfter o s) (c : TwoCall A) :
    (c.run s).2 = (c.run o).2 ∧ ∀ v, (c.run o).2 = .ok v → (c.run s).1 = (c.run o).1 :=
  twoTwin_run c o s h.same

/-! ### Converters -/

/-- Converters that differ in the held values only. -/
structure ConvSame (c s : Converter) : Prop where
  parIn : c.parIn.blank = s.parIn.blank
  parOut : c.parOut.blank = s.parOut.blank
  conv : c.conv = s.conv

theorem ConvSame.refl (c : Converter) : ConvSame c c := ⟨rfl, rfl, rfl⟩

theorem ConvSame.trans {o s t : Converter} (h : ConvSame o s) (h' : ConvSame s t) : ConvSame o t :=
  ⟨h.parIn.trans h'.parIn, h.parOut.trans h'.parOut, h.conv.trans h'.conv⟩

theorem convert_same (c : Converter) (hc : ∀ p q, (c.conv p q).1.blank = q.blank) (fi fo : Bool) (x : List ℝ) :
    ConvSame c (c.convert fi fo x).1 :=
  ⟨(c.convert_parIn fi fo x).symm, (c.convert_parOut hc fi fo x).symm, (c.convert_conv fi fo x).symm⟩

theorem convTrace_same (c : Converter) (hc : ∀ p q, (c.conv p q).1.blank = q.blank) (fi fo : Bool) (x : List ℝ) :
    ConvSame c (c.trace fi fo x) := by
  refine ⟨?_, (c.trace_parOut hc fi fo x).symm, (c.trace_conv fi fo x).symm⟩
  have h := (convert_same c hc fi fo x).parIn
  simp only [Converter.trace]
  split
  · exact h
  · rw [Param.mark_blank]; exact h

theorem jacobian_same (c : Converter) (hc : ∀ p q, (c.conv p q).1.blank = q.blank) (fi fo : Bool) (x : List ℝ) :
    ConvSame c (c.jacobian fi fo x).1 := by
  refine ⟨?_, (c.jacobian_parOut hc fi fo x).symm, (c.jacobian_conv fi fo x).symm⟩
  have h := (convTrace_same c hc fi fo x).parIn
  simp only [Converter.jacobian]
  split
  · rfl
  · split
    · exact h
    · split <;> exact h.trans (setPar_blank _ _ _).symm

theorem duringConvert_same {c s : Converter} {fi box : Bool} {x : List ℝ} (h : c.DuringConvert fi box x s) :
    ConvSame c s := by
  obtain ⟨p, hp, rfl⟩ | ⟨-, q, hq, rfl⟩ := h
  · exact ⟨(Param.during_blank _ _ _ _ p hp).symm, rfl, rfl⟩
  · refine ⟨?_, hq.symm, rfl⟩
    cases box
    · exact (setPar_blank _ _ _).symm
    · exact ((Param.mark_blank _ _).trans (setPar_blank _ _ _)).symm

theorem duringJacobian_same {c s : Converter} (hc : ∀ p q, (c.conv p q).1.blank = q.blank) {fi fo : Bool}
    {x : List ℝ} (h : c.DuringJacobian fi fo x s) : ConvSame c s := by
  obtain rfl | ⟨w, -, h⟩ := h
  · exact .refl s
  · obtain h | ⟨J, -, h⟩ := h
    · exact duringConvert_same h
    · have ht := convTrace_same c hc fi fo x
      obtain ⟨p, hp, rfl⟩ | ⟨-, q, hq, rfl⟩ := h
      · exact ht.trans ⟨(Param.during_blank _ _ _ _ p hp).symm, rfl, rfl⟩
      · exact ht.trans ⟨(setPar_blank _ _ _).symm, (Param.during_blank _ _ _ _ q hq).symm, rfl⟩

theorem ConvAfter.same {c s : Converter} (hc : ∀ p q, (c.conv p q).1.blank = q.blank) (h : ConvAfter c s) :
    ConvSame c s := by
  induction h with
  | start => exact .refl c
  | converted fi fo x _ ih => exact ih.trans (convert_same _ (ih.conv ▸ hc) fi fo x)
  | differentiated fi fo x _ ih => exact ih.trans (jacobian_same _ (ih.conv ▸ hc) fi fo x)
  | stoppedConvert fi x _ ht ih => exact ih.trans (duringConvert_same ht)
  | stoppedJacobian fi fo x _ ht ih => exact ih.trans (duringJacobian_same (ih.conv ▸ hc) ht)

theorem convert_twin {c s : Converter} (hw : Overwrites c.conv) (h : ConvSame c s) (fi fo : Bool) (x : List ℝ) :
    (s.convert fi fo x).2 = (c.convert fi fo x).2 ∧
    ((setPar c.parIn x fi).2 = none → (c.conv ((setPar c.parIn x fi).1.mark false) c.parOut).2 = none →
      (s.convert fi fo x).1 = (c.convert fi fo x).1) := by
  obtain ⟨p, q, conv⟩ := c
  obtain ⟨p', q', conv'⟩ := s
  obtain ⟨h1, h2, h3⟩ := h
  simp only at h1 h2 h3 hw
  subst h3
  have i1 := setPar_indep h1 x fi
  simp only [Converter.convert]
  rw [i1.1]
  cases e1 : (setPar p x fi).2 with
  | some e => exact ⟨rfl, fun h => by cases h⟩
  | none =>
    simp only [i1.2 e1]
    obtain ⟨w1, w2⟩ := hw ((setPar p x fi).1.mark false) q q' h2
    rw [← w1]
    cases e2 : (conv ((setPar p x fi).1.mark false) q).2 with
    | some e => exact ⟨rfl, fun _ h => by cases h⟩
    | none =>
      simp only [← w2 e2]
      exact ⟨trivial, fun _ _ => trivial⟩

/-- **C186** (conversions) After any history of conversions and Jacobians, each of which returned, raised or was
stopped at any moment, every conversion with a user function that overwrites the output parameter returns, or raises,
what it would on the object as it was at first, and when it returns, both parameters are in the same state. -/
theorem C186_conversion (c s : Converter) (hc : ∀ p q, (c.conv p q).1.blank = q.blank) (hw : Overwrites c.conv)
    (h : ConvAfter c s) (fi fo : Bool) (x : List ℝ) :
    (s.convert fi fo x).2 = (c.convert fi fo x).2 ∧
    ∀ v, (c.convert fi fo x).2 = .ok v → (s.convert fi fo x).1 = (c.convert fi fo x).1 := by
  obtain ⟨h1, h2⟩ := convert_twin hw (h.same hc) fi fo x
  refine ⟨h1, fun v hv => ?_⟩
  have hi := Converter.convert_ok hv
  refine h2 hi ?_
  simp only [Converter.convert, hi] at hv
  cases e : (c.conv ((setPar c.parIn x fi).1.mark false) c.parOut).2 with
  | none => rfl
  | some e' => rw [e] at hv; cases hv

/-- **C186** (Jacobians of conversions) ... every Jacobian returns, or raises, what it would on the object as it was at first,
as long as the output parameter can be read, and when it returns, the input parameter is in the same state and the
output parameter has the vector it had before the call. -/
theorem C186_jacobian {eigh : Eigh} (he : EighContract eigh) (c s : Converter) (hb : Built eigh c.parOut)
    (hp : c.parOut.HasParams) (hc : ∀ p q, (c.conv p q).1.blank = q.blank)
    (hw : Overwrites c.conv) (h : ConvAfter c s) (v w : List ℝ) (hv : c.parOut.getVector = .ok v)
    (hs : s.parOut.getVector = .ok w) (fi fo : Bool) (x : List ℝ) (hvl : v.length = c.parOut.vecSize)
    (hwl : w.length = c.parOut.vecSize) :
    (s.jacobian fi fo x).2 = (c.jacobian fi fo x).2 ∧
    ∀ J, (c.jacobian fi fo x).2 = .ok J → (s.jacobian fi fo x).1.parIn = (c.jacobian fi fo x).1.parIn ∧
      (s.jacobian fi fo x).1.parOut.getVector = .ok w := by
  have hsame := h.same hc
  have hcs : ∀ p q, (s.conv p q).1.blank = q.blank := hsame.conv ▸ hc
  have hF : s.valueAt fi fo = c.valueAt fi fo := by
    funext y
    simp only [Converter.valueAt, (convert_twin hw hsame fi fo y).1]
  have tc := convTrace_same c hc fi fo x
  have ts := convTrace_same s hcs fi fo x
  have i1 := setPar_indep (tc.parIn.symm.trans (hsame.parIn.trans ts.parIn)) x fi
  have hw' := hb.wf he
  have s1 : (c.trace fi fo x).parOut.setVector v = (c.parOut.vecP v, none) :=
    (setPar_eq (free := false) (x := v) tc.parOut (by
      show (c.parOut.setVector v).2 = none
      rw [c.parOut.setVector_ok hw' v hvl])).trans (c.parOut.setVector_ok hw' v hvl)
  have s2 : (s.trace fi fo x).parOut.setVector w = (c.parOut.vecP w, none) :=
    (setPar_eq (free := false) (x := w) (hsame.parOut.trans ts.parOut) (by
      show (c.parOut.setVector w).2 = none
      rw [c.parOut.setVector_ok hw' w hwl])).trans (c.parOut.setVector_ok hw' w hwl)
  simp only [Converter.jacobian, hv, hs, hF]
  cases agJac (c.valueAt fi fo) x with
  | error e => exact ⟨rfl, fun J hJ => by cases hJ⟩
  | ok J =>
    simp only
    rw [i1.1]
    cases e1 : (setPar (c.trace fi fo x).parIn x fi).2 with
    | some e => exact ⟨rfl, fun J hJ => by cases hJ⟩
    | none =>
      simp only [s1, s2, i1.2 e1]
      refine ⟨trivial, fun _ _ => ⟨trivial, ?_⟩⟩
      split
      · rw [Param.mark_getVector]
        exact c.parOut.getVector_vecP hw' hp w hwl
      · exact c.parOut.getVector_vecP hw' hp w hwl

/-! ### Objectives of one parameter -/

/-- The objective `o` can be in state `s` after a history of calls, each of which returned, raised or was stopped at
some moment.  (A preconditioned call is the call at another point, `Objective.duringFunFreeCond` etc.) -/
inductive ObjAfter (o : Objective A) : Objective A → Prop
  | start : ObjAfter o o
  | finished {s} (op : ObjOp A) : ObjAfter o s → ObjAfter o (s.step op).1
  | stoppedValue {s t} (x : List ℝ) (a : A) (verbose : Bool) : ObjAfter o s → t ∈ s.duringFunFree x a verbose →
      ObjAfter o t
  | stoppedVector {s} {p : Param} (x : List ℝ) : ObjAfter o s → p ∈ s.par.during false false x →
      ObjAfter o { s with par := p }
  | stoppedDerivative {s t} {β : Type} (free : Bool) (x : List ℝ) (a : A) (ag : (List ℝ → Py Arr) → Py β) :
      ObjAfter o s → t ∈ s.duringDeriv free x a ag → ObjAfter o t

theorem funFree_fn (o : Objective A) (x : List ℝ) (a : A) (v : Bool) : (o.funFree x a v).1.fn = o.fn := by
  unfold Objective.funFree
  simp only
  split
  · rfl
  · split
    · rfl
    · split_ifs <;> rfl

theorem funVector_fn (o : Objective A) (x : List ℝ) (a : A) : (o.funVector x a).1.fn = o.fn := by
  unfold Objective.funVector
  simp only
  split <;> rfl

theorem step_fn (o : Objective A) (op : ObjOp A) : (o.step op).1.fn = o.fn := by
  cases op
  case funFree x a v => exact funFree_fn o x a v
  case funVector x a => exact funVector_fn o x a
  case funFreeCond x a v =>
    simp only [Objective.step, Objective.funFreeCond]
    split
    · rfl
    · split
      · rfl
      · exact funFree_fn _ _ _ _
  case funFreeGradCond x a =>
    simp only [Objective.step, Objective.funFreeGradCond]
    split
    · rfl
    · split <;> rfl
  case funFreeHessianCond x a =>
    simp only [Objective.step, Objective.funFreeHessianCond]
    split
    · rfl
    · split <;> rfl
  case funFreeHvpCond x a w =>
    simp only [Objective.step, Objective.funFreeHvpCond]
    split
    · rfl
    · split
      · rfl
      · split <;> rfl
  all_goals rfl

theorem ObjAfter.same {o s : Objective A} (h : ObjAfter o s) : o.par.blank = s.par.blank ∧ s.fn = o.fn := by
  induction h with
  | start => exact ⟨rfl, rfl⟩
  | finished op _ ih => exact ⟨ih.1.trans (Objective.step_par_blank _ op).symm, (step_fn _ op).trans ih.2⟩
  | stoppedValue x a v _ ht ih =>
    rename_i s t _
    simp only [Objective.duringFunFree, List.mem_append, List.mem_map] at ht
    obtain ⟨p, hp, rfl⟩ | ht := ht
    · exact ⟨ih.1.trans (Param.during_blank _ _ _ _ p hp).symm, ih.2⟩
    · split at ht
      · cases ht
      · split at ht
        · cases ht
        · split_ifs at ht with hv
          · obtain ⟨l, -, rfl⟩ := List.mem_map.1 ht
            exact ⟨ih.1.trans (Param.setFree_blank _ _).symm, ih.2⟩
          · cases ht
  | stoppedVector x _ hp ih => exact ⟨ih.1.trans (Param.during_blank _ _ _ _ _ hp).symm, ih.2⟩
  | stoppedDerivative free x a ag _ ht ih =>
    simp only [Objective.duringDeriv, List.mem_append, List.mem_map] at ht
    obtain ⟨p, hp, rfl⟩ | ht := ht
    · exact ⟨ih.1.trans (Param.during_blank _ _ _ _ p hp).symm, ih.2⟩
    · split at ht
      · cases ht
      · obtain ⟨p, hp, rfl⟩ := List.mem_map.1 ht
        exact ⟨ih.1.trans ((Param.during_blank _ _ _ _ p hp).trans (traceSet_blank _ _ _)).symm, ih.2⟩

/-- **C186** (one parameter) After any history of calls of an objective, each of which returned, raised or was stopped
at any moment, the value methods (without logging) and the derivative methods return, or raise, what they would on the
object as it was at first, and when they return, the parameter is in the same state. -/
theorem C186_objective (o s : Objective A) (h : ObjAfter o s) (x : List ℝ) (a : A) :
    ((s.funFree x a false).2 = (o.funFree x a false).2 ∧
      ∀ v, (o.funFree x a false).2 = .ok v → (s.funFree x a false).1.par = (o.funFree x a false).1.par) ∧
    ((s.funVector x a).2 = (o.funVector x a).2 ∧
      ∀ v, (o.funVector x a).2 = .ok v → (s.funVector x a).1.par = (o.funVector x a).1.par) ∧
    ∀ {β : Type} (free : Bool) (ag : (List ℝ → Py Arr) → Py β),
      (s.deriv free x a ag).2 = (o.deriv free x a ag).2 ∧
      ∀ v, (o.deriv free x a ag).2 = .ok v → (s.deriv free x a ag).1.par = (o.deriv free x a ag).1.par := by
  obtain ⟨hb, hf⟩ := h.same
  refine ⟨?_, ?_, fun free ag => ?_⟩
  · have i := setPar_indep hb x true
    have i1 : (s.par.setFree x).2 = (o.par.setFree x).2 := i.1
    have i2 : (o.par.setFree x).2 = none → (s.par.setFree x).1 = (o.par.setFree x).1 := i.2
    rw [Objective.funFree_par, Objective.funFree_par]
    unfold Objective.funFree
    simp only [i1, hf]
    cases e : (o.par.setFree x).2 with
    | some e => exact ⟨rfl, fun v hv => by cases hv⟩
    | none =>
      simp only [i2 e]
      refine ⟨?_, fun _ _ => trivial⟩
      cases o.fn a ((o.par.setFree x).1.mark false) <;> rfl
  · have i := setPar_indep hb x false
    have i1 : (s.par.setVector x).2 = (o.par.setVector x).2 := i.1
    have i2 : (o.par.setVector x).2 = none → (s.par.setVector x).1 = (o.par.setVector x).1 := i.2
    rw [Objective.funVector_par, Objective.funVector_par]
    unfold Objective.funVector
    simp only [i1, hf]
    cases e : (o.par.setVector x).2 with
    | some e => exact ⟨rfl, fun v hv => by cases hv⟩
    | none =>
      simp only [i2 e]
      exact ⟨trivial, fun _ _ => trivial⟩
  · have e : valueAt (s.fn a) s.par free = valueAt (o.fn a) o.par free := by
      funext y
      rw [hf, valueAt_blank hb.symm]
    have main : (s.deriv free x a ag).2 = (o.deriv free x a ag).2 := by
      unfold Objective.deriv
      simp only [e]
      unfold cacheAndEval
      cases ag (valueAt (o.fn a) o.par free) with
      | error e => rfl
      | ok v =>
        simp only
        have i := setPar_indep (p := traceSet o.par x free) (q := traceSet s.par x free)
          (by rw [traceSet_blank, traceSet_blank]; exact hb) x free
        rw [i.1]
        cases (setPar (traceSet o.par x free) x free).2 <;> rfl
    refine ⟨main, fun v hv => ?_⟩
    have h1 := Objective.deriv_ok hv
    have h2 := Objective.deriv_ok (main.trans hv)
    rw [h1.2, h2.2]
    exact (setPar_indep hb x free).2 h1.1

/-! ### Examples -/

/-- A parameter that can be built may hold placeholders in the middle of a derivative call. -/
theorem exists_boxed {eigh : Eigh} (he : EighContract eigh) {p : Param} (hb : Built eigh p) (hp : p.HasParams)
    (x : List ℝ) (hx : x.length = p.freeSize) : ∃ q ∈ p.during true true x, ¬ q.Plain := by
  have hw := hb.wf he
  have hset : (setPar p x true).2 = none := by
    simp only [setPar, if_true]
    rw [p.setFree_ok hw x hx]
  obtain ⟨q, hq, hl⟩ := p.mem_during_last true x true hset
  refine ⟨q, hq, ?_⟩
  rw [Param.plain_iff_leaves, hl, ← Param.plain_iff_leaves]
  simp only [setPar, if_true]
  rw [p.setFree_ok hw x hx]
  have e1 := p.freeP_erase hw x hx
  exact Param.mark_true_not_plain _ ((Param.wf_congr e1).mpr hw) ((Param.hasParams_congr e1).mpr hp)

/-- A two-parameter objective that was stopped in the middle of a cross Hessian: placeholders are left behind.
`C186_two_parameters` applies to this state. -/
example : ∃ s, TwoAfter exTwo s ∧ ¬ s.par1.Plain := by
  obtain ⟨eigh, he⟩ := exists_eigh
  obtain ⟨q, hq, hn⟩ := exists_boxed he (exDict_built eigh) exDict_hasParams [1, 2, 3] (by rw [exDict_freeSize]; rfl)
  refine ⟨{ exTwo with par1 := q }, .stopped (.hessian12 [1, 2, 3] [4, 5, 6] true true ()) .start ?_, hn⟩
  exact List.mem_append_left _ (List.mem_append_left _ (List.mem_map.2 ⟨q, hq, rfl⟩))

/-- The same for an objective of one parameter. -/
example : ∃ s, ObjAfter exObj s ∧ ¬ s.par.Plain := by
  obtain ⟨eigh, he⟩ := exists_eigh
  obtain ⟨q, hq, hn⟩ := exists_boxed he (exDict_built eigh) exDict_hasParams [1, 2, 3] (by rw [exDict_freeSize]; rfl)
  refine ⟨{ exObj with par := q }, .stoppedDerivative true [1, 2, 3] () (fun F => agGrad F [1, 2, 3]) .start ?_, hn⟩
  exact List.mem_append_left _ (List.mem_map.2 ⟨q, hq, rfl⟩)

theorem overwrites_doubling : Overwrites doubling := by
  intro p q q' h
  unfold doubling
  cases p.getVector with
  | error e => exact ⟨rfl, fun h => by cases h⟩
  | ok v =>
    have i := Param.setVector_indep q q' (v.map (2 * ·)) h
    exact ⟨i.1.symm, fun hn => (i.2 hn).symm⟩

/-- Doubling overwrites the output; a Jacobian stopped while the converter runs can leave any number, here
7, in the output parameter.  `C186_conversion` and `C186_jacobian` apply. -/
example : Overwrites exDouble.conv ∧ (∀ p q, (exDouble.conv p q).1.blank = q.blank) ∧
    (∀ eigh, Built eigh exDouble.parOut) ∧ exDouble.parOut.HasParams ∧
    ∃ s v, ConvAfter exDouble s ∧ s.parOut.getVector = .ok [7] ∧ exDouble.parOut.getVector = .ok v ∧ v.length = 1 := by
  have hw : (scPar (Flt.fin 0)).WF := by simp [scPar, Param.WF, Kind.Legal]
  have hg := (scPar (Flt.fin 0)).getVector_vecP hw trivial [7] rfl
  have e1 := scPar_getVector (Flt.fin 0) (by simp) true 3
  have hb : ∀ e, Built e (scPar (Flt.fin 0)) := fun e =>
    .leaf ⟨_, [], .scalar (name := "s") (lb := Flt.fin 0) (ub := Flt.pinf) (val := some (Arr.scalar 1))
      (by simp [mkScalar, checkBoundsScalar, Leaf.set]), rfl⟩ trivial
  have hv : exDouble.parOut.getVector = .ok [1] := rfl
  refine ⟨overwrites_doubling, ?_, hb, trivial, ⟨(setPar (scPar (Flt.fin 0)) [3] true).1.mark true, (scPar (Flt.fin 0)).vecP [7], doubling⟩,
    [1], .stoppedJacobian true false [3] .start (Or.inr ⟨[1], hv, Or.inl (Or.inr ⟨e1.1, _, ?_, rfl⟩)⟩), hg, hv, rfl⟩
  · intro p q
    simp only [exDouble]
    unfold doubling
    split
    · rfl
    · exact Param.setVector_blank _ _
  · have := (scPar (Flt.fin 0)).setVector_ok hw [7] rfl
    have h2 := Param.setVector_blank (scPar (Flt.fin 0)) [7]
    rw [this] at h2
    exact h2

end LRVB
