import Verif.Model.InterruptSens
import Verif.Props.FailedRebase

/-!
# C177: interrupted calls of the sensitivity objects

The states in which a stopped call may leave an object are in `Model/InterruptSens.lean`.
-/

namespace LRVB

open scoped ContDiff Matrix
open Flt Relation

noncomputable section

variable {n m : ℕ} {F G : (Fin n → ℝ) × (Fin m → ℝ) → ℝ}

theorem stagesOf_all {σ : Type} (P : σ → Prop) {r : σ × Option PyErr} {k : σ → List σ} (h1 : P r.1)
    (h2 : r.2 = none → ∀ s ∈ k r.1, P s) : ∀ s ∈ stagesOf r k, P s := by
  intro s hs
  unfold stagesOf at hs
  rcases List.mem_cons.mp hs with rfl | hs
  · exact h1
  · cases hr : r.2 with
    | some e => rw [hr] at hs; exact absurd hs (List.not_mem_nil)
    | none => rw [hr] at hs; exact h2 hr s hs

theorem stages_end {σ : Type} (f : σ → σ × Option PyErr) (s : σ) :
    (stagesOf (f s) fun _ => []).getLast? = some (f s).1 := by
  unfold stagesOf
  split <;> rfl

theorem stages_last {σ : Type} {k : σ → List σ} {k' : σ → σ × Option PyErr}
    (h : ∀ s, (k s).getLast? = some (k' s).1) (f : σ → σ × Option PyErr) (s : σ) :
    (stagesOf (f s) k).getLast? = some (andThen (f s) k').1 := by
  unfold stagesOf andThen
  cases hr : (f s).2 with
  | some e => rfl
  | none =>
    have := h (f s).1
    simp only
    cases hk : k (f s).1 with
    | nil => rw [hk] at this; cases this
    | cons a l => rw [hk] at this; rw [List.getLast?_cons_cons, this]

/-! ### The linear approximation -/

namespace LinApprox

theorem SamePars.keeps {T s : LinApprox} (h : SamePars T s) : Keeps T s := by
  obtain ⟨p, q, h1, h2, rfl⟩ := h
  exact ⟨rfl, rfl, rfl, rfl, h1, h2⟩

theorem keeps_setParToBase (T : LinApprox) : Keeps T T.setParToBase.1 :=
  Keeps.andThen ⟨rfl, rfl, rfl, rfl, setPar_blank _ _ _, rfl⟩ fun _ =>
    ⟨rfl, rfl, rfl, rfl, rfl, setPar_blank _ _ _⟩

theorem keeps_setHess (T : LinApprox) (H : Option Arr) : Keeps T (T.setHess H).1 := by
  unfold setHess
  split
  · exact ⟨rfl, rfl, rfl, rfl, rfl, rfl⟩
  · have hb : (T.objective.funFreeHessian T.base.inputVal0 ()).1.par.blank = T.objective.par.blank :=
      Objective.deriv_par_blank _ _ _ _ _
    simp only
    split <;> exact ⟨rfl, rfl, rfl, rfl, hb, rfl⟩

theorem keeps_setChol (T : LinApprox) : Keeps T T.setChol.1 := by
  unfold setChol
  split
  · exact Keeps.refl _
  · exact ⟨rfl, rfl, rfl, rfl, rfl, rfl⟩

theorem keeps_setCross (T : LinApprox) : Keeps T T.setCross.1 := by
  have hb := T.joint.cacheAndEval_blank T.base.inputVal0 T.base.hyperVal0 true false true true
    (TwoObjective.agHessian12 (T.joint.valueAt true false ()) T.base.inputVal0 T.base.hyperVal0)
  unfold setCross
  simp only
  split <;> exact ⟨rfl, rfl, rfl, rfl, hb.1, hb.2⟩

theorem keeps_setSens (T : LinApprox) : Keeps T T.setSens.1 := by
  unfold setSens
  split
  · exact Keeps.refl _
  · exact ⟨rfl, rfl, rfl, rfl, rfl, rfl⟩

theorem keeps_during {T s : LinApprox} {x e : List ℝ} {H : Option Arr} (h : DuringSetBase T x e H s) :
    Keeps T s := by
  obtain ⟨T', h1, h2⟩ := h
  refine Keeps.trans ?_ h2.keeps
  unfold setBaseStages at h1
  rcases List.mem_cons.mp h1 with rfl | h1
  · exact Keeps.refl _
  rcases List.mem_cons.mp h1 with rfl | h1
  · exact ⟨rfl, rfl, rfl, rfl, rfl, rfl⟩
  rcases List.mem_cons.mp h1 with rfl | h1
  · exact ⟨rfl, rfl, rfl, rfl, rfl, rfl⟩
  have h0 : Keeps T { T with base := { T.base with inputVal0 := x, hyperVal0 := e } } :=
    ⟨rfl, rfl, rfl, rfl, rfl, rfl⟩
  have k1 := h0.trans (keeps_setParToBase _)
  refine stagesOf_all (Keeps T) k1 (fun _ => ?_) T' h1
  refine stagesOf_all (Keeps T) (k1.trans (keeps_setHess _ H)) fun _ => ?_
  refine stagesOf_all (Keeps T) ((k1.trans (keeps_setHess _ H)).trans (keeps_setChol _)) fun _ => ?_
  refine stagesOf_all (Keeps T)
    (((k1.trans (keeps_setHess _ H)).trans (keeps_setChol _)).trans (keeps_setCross _)) fun _ => ?_
  refine stagesOf_all (Keeps T) ((((k1.trans (keeps_setHess _ H)).trans (keeps_setChol _)).trans
    (keeps_setCross _)).trans (keeps_setSens _)) fun _ s hs => absurd hs (List.not_mem_nil)

/-- A call of `set_base_values` that returned, raised or was stopped. -/
def Step (T s : LinApprox) : Prop :=
  ∃ x e H, s = (T.setBaseValues x e H).1 ∨ DuringSetBase T x e H s

theorem keeps_steps {T s : LinApprox} (h : ReflTransGen Step T s) : Keeps T s := by
  induction h with
  | refl => exact Keeps.refl _
  | tail _ hs ih =>
    obtain ⟨x, e, H, rfl | hd⟩ := hs
    · exact ih.trans (keeps_setBaseValues _ _ _ _)
    · exact ih.trans (keeps_during hd)

/-- The last of the states is the one in which the call leaves the object. -/
theorem setBaseStages_getLast (T : LinApprox) (x e : List ℝ) (H : Option Arr) :
    (T.setBaseStages x e H).getLast? = some (T.setBaseValues x e H).1 :=
  stages_last (stages_last (stages_last (stages_last (stages_end setSens) setCross) setChol)
    fun T => T.setHess H) setParToBase { T with base := { T.base with inputVal0 := x, hyperVal0 := e } }

/-- What a stopped `set_base_values` may have changed. -/
theorem during_visible {T s : LinApprox} {x e : List ℝ} {H : Option Arr} (h : DuringSetBase T x e H s) :
    (s.sens = T.sens ∧
      (s.base.inputVal0 = T.base.inputVal0 ∧ s.base.hyperVal0 = T.base.hyperVal0 ∨
        s.base.inputVal0 = x ∧ s.base.hyperVal0 = T.base.hyperVal0 ∨
        s.base.inputVal0 = x ∧ s.base.hyperVal0 = e)) ∨
    ((T.setBaseValues x e H).2 = none ∧ SamePars (T.setBaseValues x e H).1 s) := by
  obtain ⟨T', h1, hsp⟩ := h
  have hsp' := hsp
  obtain ⟨p, q, -, -, rfl⟩ := hsp
  unfold setBaseStages at h1
  rcases List.mem_cons.mp h1 with rfl | h1
  · exact Or.inl ⟨rfl, Or.inl ⟨rfl, rfl⟩⟩
  rcases List.mem_cons.mp h1 with rfl | h1
  · exact Or.inl ⟨rfl, Or.inr (Or.inl ⟨rfl, rfl⟩)⟩
  rcases List.mem_cons.mp h1 with rfl | h1
  · exact Or.inl ⟨rfl, Or.inr (Or.inr ⟨rfl, rfl⟩)⟩
  let P : LinApprox → Prop := fun T' => T'.sens = T.sens ∧ T'.base.inputVal0 = x ∧ T'.base.hyperVal0 = e
  have p0 : ∀ T', P T' → P T'.setParToBase.1 := by
    intro T' h
    unfold LinApprox.setParToBase andThen
    dsimp only
    split <;> exact h
  have p1 : ∀ T', P T' → P (T'.setHess H).1 := by
    intro T' h
    unfold LinApprox.setHess
    cases H with
    | some H => exact h
    | none =>
      dsimp only
      split <;> exact h
  have p2 : ∀ T', P T' → P T'.setChol.1 := by
    intro T' h
    unfold LinApprox.setChol
    split <;> exact h
  have p3 : ∀ T', P T' → P T'.setCross.1 := by
    intro T' h
    unfold LinApprox.setCross
    dsimp only
    split <;> exact h
  have hT : P { T with base := { T.base with inputVal0 := x, hyperVal0 := e } } := ⟨rfl, rfl, rfl⟩
  have main : P T' ∨ ((T.setBaseValues x e H).2 = none ∧ T' = (T.setBaseValues x e H).1) := by
    refine stagesOf_all (fun T' => P T' ∨ ((T.setBaseValues x e H).2 = none ∧
      T' = (T.setBaseValues x e H).1)) (Or.inl (p0 _ hT)) (fun r1 => ?_) T' h1
    refine stagesOf_all _ (Or.inl (p1 _ (p0 _ hT))) fun r2 => ?_
    refine stagesOf_all _ (Or.inl (p2 _ (p1 _ (p0 _ hT)))) fun r3 => ?_
    refine stagesOf_all _ (Or.inl (p3 _ (p2 _ (p1 _ (p0 _ hT))))) fun r4 => ?_
    refine stagesOf_all _ ?_ fun _ s hs => absurd hs (List.not_mem_nil)
    have hrun : T.setBaseValues x e H = LinApprox.setSens (LinApprox.setCross (LinApprox.setChol
        (LinApprox.setHess (LinApprox.setParToBase
        { T with base := { T.base with inputVal0 := x, hyperVal0 := e } }).1 H).1).1).1 := by
      unfold setBaseValues
      simp only [andThen]
      simp only at r1 r2 r3 r4
      rw [r1]; simp only
      rw [r2]; simp only
      rw [r3]; simp only
      rw [r4]
    cases h5 : (LinApprox.setSens (LinApprox.setCross (LinApprox.setChol
        (LinApprox.setHess (LinApprox.setParToBase
        { T with base := { T.base with inputVal0 := x, hyperVal0 := e } }).1 H).1).1).1).2 with
    | none => exact Or.inr ⟨by rw [hrun, h5], by rw [hrun]⟩
    | some err =>
      refine Or.inl ?_
      have h4 := p3 _ (p2 _ (p1 _ (p0 _ hT)))
      revert h5
      unfold LinApprox.setSens
      split
      · exact fun _ => h4
      · intro h5; cases h5
  rcases main with h | ⟨h, rfl⟩
  · exact Or.inl ⟨h.1, Or.inr (Or.inr h.2)⟩
  · exact Or.inr ⟨h, hsp'⟩

end LinApprox

/-- **C177** for `ParametricSensitivityLinearApproximation`: take any constructed object and call
`set_base_values` any number of times with any arguments, where each call returns, raises, or is stopped
at any moment.  Then call it with base values of positive curvature and let it return: the object holds
the linear response at these base values, and the parameters hold them, as plain numbers. -/
theorem C177_linear_approximation (hF : ContDiff ℝ 2 F) (hG : ContDiff ℝ 2 G) (h : (Fin n → ℝ) → ℝ)
    (hFG : ∀ u v, F (u, v) = G (u, v) + h u) (hn : 0 < n)
    (objFn : Param → Param → Py Arr) (hyperFn : Option (Param → Param → Py Arr))
    (inputPar hyperPar : Param) (hev : Evaluates inputPar hyperPar objFn true false F)
    (hevG : Evaluates inputPar hyperPar (hyperFn.getD objFn) true false G)
    (x0 e0 : List ℝ) (hess0 : Option Arr) (T0 : LinApprox)
    (hnew : LinApprox.new objFn inputPar hyperPar x0 e0 true false hess0 hyperFn = .ok T0)
    (T1 : LinApprox) (hsteps : ReflTransGen LinApprox.Step T0 T1)
    (x e : List ℝ) (hx : x.length = n) (he : e.length = m)
    (hpc : PositiveCurvature F (toVec n x) (toVec m e)) :
    ∃ T, T1.setBaseValues x e none = (T, none) ∧
      LinearResponse F x e T.dinputDhyper T.predictInput ∧
      inputPar.setFree x = (T.inputPar, none) ∧ hyperPar.setVector e = (T.hyperPar, none) ∧
      T.inputPar.Plain ∧ T.hyperPar.Plain := by
  obtain ⟨k1, k2, k3, k4, k5, k6⟩ := LinApprox.keeps_new hnew
  obtain ⟨r1, r2, r3, r4, r5, r6⟩ := LinApprox.keeps_steps hsteps
  have b1 := r5.trans k5
  have b2 := r6.trans k6
  obtain ⟨s1, s2⟩ := TwoObjective.evalFun_ok (hev x e hx he)
  simp only at s1 s2
  obtain ⟨l, hl⟩ := LinApprox.setBase_ok (T := T1) (r1.trans k1)
    (r2.trans k2) hF (by rw [r3, k3]; exact Taylor.evaluates_blank hev b1.symm b2.symm) hG
    (by rw [r4, k4]; exact Taylor.evaluates_blank hevG b1.symm b2.symm) hn hx he none rfl
    (hessArr_posDef hF hpc)
  rw [setPar_eq b1.symm s1, setPar_eq b2.symm s2] at hl
  refine ⟨_, hl, ?_, Prod.ext rfl s1, Prod.ext rfl s2,
    setPar_plain _ _ _ s1, setPar_plain _ _ _ s2⟩
  refine linearResponse_of hF hx he hpc ?_
  simp only [LinApprox.dinputDhyper, Option.getD_none]
  rw [crossArr_eq hF hG h hFG]

/-- **C177**: until a stopped `set_base_values(x, e)` has finished, `get_dinput_dhyper` is what it was
before the call, and the predictions use it at the old base values, the new ones, or the new input with the
old hyperparameter. -/
theorem C177_linear_visible (T s : LinApprox) (x e : List ℝ) (H : Option Arr)
    (h : LinApprox.DuringSetBase T x e H s) :
    (s.dinputDhyper = T.dinputDhyper ∧
      ∃ x' e', (x' = T.base.inputVal0 ∧ e' = T.base.hyperVal0 ∨ x' = x ∧ e' = T.base.hyperVal0 ∨
        x' = x ∧ e' = e) ∧
      ∀ new, s.predictInput new = (do
        let d ← vsub new e'
        vadd x' (← T.dinputDhyper.mulVec d))) ∨
    ((T.setBaseValues x e H).2 = none ∧ s.dinputDhyper = (T.setBaseValues x e H).1.dinputDhyper ∧
      s.predictInput = (T.setBaseValues x e H).1.predictInput) := by
  rcases LinApprox.during_visible h with ⟨h1, h2⟩ | ⟨h1, h2⟩
  · refine Or.inl ⟨h1, s.base.inputVal0, s.base.hyperVal0, h2, fun new => ?_⟩
    rw [LinApprox.predictInput, h1]
    rfl
  · obtain ⟨p, q, -, -, rfl⟩ := h2
    exact Or.inr ⟨h1, rfl, rfl⟩

/-! ### ParametricSensitivity -/

namespace Sens

/-- What no method changes, of what the theorem needs. -/
structure Keeps (S S' : Sens) : Prop where
  conv : S'.conv = S.conv
  obj : S'.objFn = S.objFn
  hyp : S'.hyperFn = S.hyperFn
  b1 : S'.inputPar.blank = S.inputPar.blank

theorem Keeps.refl (S : Sens) : Keeps S S := ⟨rfl, rfl, rfl, rfl⟩

theorem Keeps.trans {S S' S'' : Sens} (h : Keeps S S') (h' : Keeps S' S'') : Keeps S S'' :=
  ⟨h'.conv.trans h.conv, h'.obj.trans h.obj, h'.hyp.trans h.hyp, h'.b1.trans h.b1⟩

theorem SamePars.keeps {S s : Sens} (h : SamePars S s) : Keeps S s := by
  obtain ⟨p, o, q, h1, -, -, rfl⟩ := h
  exact ⟨rfl, rfl, rfl, h1⟩

theorem keeps_setInput (x : Option (List ℝ)) (S : Sens) : Keeps S (S.setInput x).1 := by
  unfold setInput
  split
  · exact ⟨rfl, rfl, rfl, rfl⟩
  · split <;> exact ⟨rfl, rfl, rfl, rfl⟩

theorem keeps_setHess (H : Option Arr) (S : Sens) : Keeps S (S.setHess H).1 := by
  unfold setHess
  split
  · exact ⟨rfl, rfl, rfl, rfl⟩
  · have hb : (S.objective.funFreeHessian S.optInput ()).1.par.blank = S.objective.par.blank :=
      Objective.deriv_par_blank _ _ _ _ _
    simp only
    split <;> exact ⟨rfl, rfl, rfl, hb⟩

theorem keeps_setChol (S : Sens) : Keeps S S.setChol.1 := by
  unfold setChol
  split <;> exact ⟨rfl, rfl, rfl, rfl⟩

theorem _root_.LRVB.Converter.jacobian_parIn (c : Converter) (freeIn freeOut : Bool) (x : List ℝ) :
    (c.jacobian freeIn freeOut x).1.parIn.blank = c.parIn.blank := by
  have ht : (c.trace freeIn freeOut x).parIn.blank = c.parIn.blank := by
    unfold Converter.trace
    simp only
    split
    · exact c.convert_parIn _ _ _
    · simp only [Param.mark_blank]
      exact c.convert_parIn _ _ _
  unfold Converter.jacobian
  split
  · rfl
  · simp only
    split
    · exact ht
    · split
      · exact (setPar_blank _ _ _).trans ht
      · exact (setPar_blank _ _ _).trans ht

theorem keeps_setDout (S : Sens) : Keeps S S.setDout.1 := by
  have hb := S.converter.jacobian_parIn true false S.optInput
  unfold setDout
  simp only
  split <;> exact ⟨rfl, rfl, rfl, hb⟩

theorem keeps_setHyper (S : Sens) : Keeps S S.setHyper.1 := by
  unfold setHyper
  split <;> exact ⟨rfl, rfl, rfl, rfl⟩

theorem keeps_setCross (S : Sens) : Keeps S S.setCross.1 := by
  have hb := S.joint.cacheAndEval_blank S.optInput S.optHyper true false true true
    (TwoObjective.agHessian12 (S.joint.valueAt true false ()) S.optInput S.optHyper)
  unfold setCross
  simp only
  split <;> exact ⟨rfl, rfl, rfl, hb.1⟩

theorem keeps_setOutput (S : Sens) : Keeps S S.setOutput.1 := by
  unfold setOutput
  split <;> exact ⟨rfl, rfl, rfl, rfl⟩

theorem keeps_setSens (S : Sens) : Keeps S S.setSens.1 := by
  unfold setSens
  split <;> exact ⟨rfl, rfl, rfl, rfl⟩

theorem keeps_stages {f : Sens → Sens × Option PyErr} {k : Sens → List Sens}
    (hf : ∀ S, Keeps S (f S).1) (hk : ∀ S, ∀ s ∈ k S, Keeps S s) :
    ∀ S, ∀ s ∈ stagesOf (f S) k, Keeps S s := fun S =>
  stagesOf_all (Keeps S) (hf S) fun _ s hs => (hf S).trans (hk _ s hs)

theorem keeps_during {S s : Sens} {x : Option (List ℝ)} {H : Option Arr}
    (h : DuringSetOptimal S x H s) : Keeps S s := by
  obtain ⟨S', h1, h2⟩ := h
  refine Keeps.trans ?_ h2.keeps
  unfold setOptimalStages at h1
  rcases List.mem_cons.mp h1 with rfl | h1
  · exact Keeps.refl _
  exact keeps_stages (keeps_setInput x) (keeps_stages (keeps_setHess H) (keeps_stages keeps_setChol
    (keeps_stages keeps_setDout (keeps_stages keeps_setHyper (keeps_stages keeps_setCross
    (keeps_stages keeps_setOutput (keeps_stages keeps_setSens
      fun _ s hs => absurd hs (List.not_mem_nil)))))))) S S' h1

theorem keeps_last {S s : Sens} {l : List Sens} (h : ∀ s ∈ l, Keeps S s) (hl : l.getLast? = some s) :
    Keeps S s := h s (List.mem_of_getLast? hl)

/-- The last of the states is the one in which the call leaves the object. -/
theorem setOptimalStages_getLast (S : Sens) (x : Option (List ℝ)) (H : Option Arr) :
    (S.setOptimalStages x H).getLast? = some (S.setOptimal x H).1 :=
  stages_last (stages_last (stages_last (stages_last (stages_last (stages_last (stages_last
    (stages_end setSens) setOutput) setCross) setHyper) setDout) setChol) fun S => S.setHess H)
    (fun S => S.setInput x) S

theorem keeps_setOptimal (S : Sens) (x : Option (List ℝ)) (H : Option Arr) :
    Keeps S (S.setOptimal x H).1 :=
  keeps_during ⟨_, List.mem_of_getLast? (S.setOptimalStages_getLast x H), _, _, _, rfl, rfl, rfl, rfl⟩

/-- A call of `set_optimal_input_par` that returned, raised or was stopped, or a change of the values of
the parameters, by the user or by an evaluation. -/
def Step (S s : Sens) : Prop :=
  (∃ x H, s = (S.setOptimal x H).1 ∨ DuringSetOptimal S x H s) ∨ SamePars S s

theorem keeps_steps {S s : Sens} (h : ReflTransGen Step S s) : Keeps S s := by
  induction h with
  | refl => exact Keeps.refl _
  | tail _ hs ih =>
    rcases hs with ⟨x, H, rfl | hd⟩ | hd
    · exact ih.trans (keeps_setOptimal _ _ _)
    · exact ih.trans (keeps_during hd)
    · exact ih.trans hd.keeps

theorem keeps_new {objFn : Param → Param → Py Arr} {inputPar outputPar hyperPar : Param}
    {conv : Param → Param → Param × Option PyErr} {x : Option (List ℝ)} {H : Option Arr}
    {hyperFn : Option (Param → Param → Py Arr)} {S : Sens}
    (h : Sens.new objFn inputPar outputPar hyperPar conv x H hyperFn = .ok S) :
    S.conv = conv ∧ S.objFn = objFn ∧ S.hyperFn = hyperFn.getD objFn ∧
      S.inputPar.blank = inputPar.blank := by
  have hk := keeps_setOptimal ⟨inputPar, outputPar, hyperPar, conv, objFn, hyperFn.getD objFn, [], [], [],
    ⟨[0, 0], []⟩, ⟨[0, 0], []⟩, ⟨[0, 0], []⟩, ⟨[0, 0], []⟩, ⟨[0, 0], []⟩⟩ x H
  unfold Sens.new at h
  simp only at h
  split at h
  · exact absurd h (by simp)
  · simp only [Except.ok.injEq] at h
    rw [h] at hk
    exact ⟨hk.conv, hk.obj, hk.hyp, hk.b1⟩

end Sens

/-- **C177** for `ParametricSensitivity`: take any constructed object, call `set_optimal_input_par` any
number of times with any arguments, where each call returns, raises, or is stopped at any moment, and
change the values of the parameters in between.  Then set the hyperparameter to `e` and the output
parameter to any value, call `set_optimal_input_par(x)` at an `x` of positive curvature and let it return:
`get_dinput_dhyper` and the predictions are the linear response at `(x, e)`, and `get_doutput_dhyper` is
the derivative of the output. -/
theorem C177_parametric_sensitivity {K : (Fin n → ℝ) → ℕ → ℝ} {eigh : Eigh}
    (objFn : Param → Param → Py Arr) (hyperFn : Option (Param → Param → Py Arr))
    (inputPar outputPar0 hyperPar0 outputPar hyperPar : Param)
    (conv : Param → Param → Param × Option PyErr)
    (x0 : Option (List ℝ)) (H0 : Option Arr) (S0 : Sens)
    (hnew : Sens.new objFn inputPar outputPar0 hyperPar0 conv x0 H0 hyperFn = .ok S0)
    (S1 : Sens) (hsteps : ReflTransGen Sens.Step S0 S1) (x e : List ℝ)
    (hS : SensSetting F G K eigh objFn inputPar outputPar hyperPar conv (some x) hyperFn x e)
    (hpc : PositiveCurvature F (toVec n x) (toVec m e)) :
    ∃ S, ({ S1 with outputPar := outputPar, hyperPar := hyperPar } : Sens).setOptimal (some x) none =
        (S, none) ∧
      LinearResponse F x e S.dinputDhyper S.predictInput ∧
      ∃ J, S.doutputDhyper = .ok J ∧ IsMat J outputPar.vecSize m ∧
        ∀ opt, ContinuousAt opt (toVec m e) → opt (toVec m e) = toVec n x →
          OptimumMap F (toVec m e) opt →
          ∀ i < outputPar.vecSize, ∃ B : (Fin m → ℝ) →L[ℝ] ℝ,
            HasFDerivAt (fun v => K (opt v) i) B (toVec m e) ∧
            ∀ j : Fin m, J.at2 i j = B (Pi.single j 1) := by
  obtain ⟨k1, k2, k3, k4⟩ := Sens.keeps_new hnew
  obtain ⟨r1, r2, r3, r4⟩ := Sens.keeps_steps hsteps
  have b := (r4.trans k4).symm
  obtain ⟨h, hFG⟩ := hS.part
  obtain ⟨l, w, q, w1, w2, w3, w4, -, hl⟩ := Sens.setOptimal_ok hS.contract
    (S := { S1 with outputPar := outputPar, hyperPar := hyperPar }) hS.smoothF
    (by simp only; rw [r2, k2]; exact Taylor.evaluates_blank hS.evF b rfl) hS.smoothG
    (by simp only; rw [r3, k3]; exact Taylor.evaluates_blank hS.evG b rfl) hS.pos hS.lenX hS.lenE
    (by simp only; rw [r1, k1]; exact hS.assigns) hS.built hS.params hS.proper hS.outPos
    hS.smoothK (by simp only; rw [r1, k1]; exact converts_blank hS.converts b rfl)
    hS.holdsE.1 hS.holdsE.2 (optInput := some x) (Or.inl rfl) none rfl (hessArr_posDef hS.smoothF hpc)
  refine ⟨_, hl, ?_⟩
  have h2 : sensArr n m ((none : Option Arr).getD (hessArr F (toVec n x) (toVec m e)))
      (crossArr G (toVec n x) (toVec m e)) = sensArr n m (hessArr F (toVec n x) (toVec m e))
      (crossArr F (toVec n x) (toVec m e)) := by
    rw [Option.getD_none, crossArr_eq hS.smoothF hS.smoothG h hFG]
  have hLR := linearResponse_of hS.smoothF hS.lenX hS.lenE hpc h2
  refine ⟨hLR, ?_⟩
  have hsh := hLR.1.2
  refine ⟨_, matmul_ok rfl hsh, ⟨Arr.ofFn2_WF _ _ _, rfl⟩, ?_⟩
  intro opt hc h0 ho i hi
  obtain ⟨A, hA, hent, -⟩ := hLR.2 opt hc h0 ho
  have hKi := (hS.smoothK i hi (opt (toVec m e))).hasFDerivAt
  refine ⟨_, HasFDerivAt.comp (toVec m e) hKi hA, fun j => ?_⟩
  rw [Arr.at2_ofFn2 _ _ _ hi j.2, ContinuousLinearMap.comp_apply, h0, Finset.sum_range]
  have hexp : A (Pi.single j 1) = ∑ k : Fin n, A (Pi.single j 1) k • basis n k := basis_expand _
  rw [hexp, map_sum]
  refine Finset.sum_congr rfl fun k _ => ?_
  rw [Arr.at2_ofFn2 _ _ _ hi k.2, hent k j, map_smul, smul_eq_mul, mul_comm]

/-- A case: `set_optimal_input_par([7])` is stopped after its first statement and repeated at the optimum. -/
example (eigh : Eigh) (he : EighContract eigh) :
    ∃ S0 S1, Sens.new (scFn exH) (scPar ninf) (scPar ninf) ((scPar ninf).vecP [0]) doubling (some [0]) none
        none = .ok S0 ∧ ReflTransGen Sens.Step S0 S1 ∧ S1.optInput = [7] ∧
      SensSetting exHF exHF (fun u _ => 2 * u 0) eigh (scFn exH) (scPar ninf) (scPar ninf)
        ((scPar ninf).vecP [0]) doubling (some [0]) none [0] [0] ∧
      PositiveCurvature exHF (toVec 1 [0]) (toVec 1 [0]) := by
  obtain ⟨S0, h, -⟩ := C51_parametric_sensitivity (doubling_setting eigh he) exHF_case.2.2
  refine ⟨S0, { S0 with optInput := [7] }, h, .single (Or.inl ⟨some [7], none, Or.inr
    ⟨{ S0 with optInput := [7] }, ?_, S0.inputPar, S0.outputPar, S0.hyperPar, rfl, rfl, rfl, rfl⟩⟩), rfl,
    doubling_setting eigh he, exHF_case.2.2⟩
  unfold Sens.setOptimalStages
  exact List.mem_cons_of_mem _ (List.mem_cons_self ..)

/-! ### The Taylor expansion -/

namespace Taylor

/-- A function computing the derivative of order `k + 1` of every optimum path, as in `Ready`. -/
def GoodAt (F : (Fin n → ℝ) × (Fin m → ℝ) → ℝ) (k : ℕ) (f : EtaFun) : Prop :=
  (∀ (A : (Fin n → ℝ) →L[ℝ] (Fin n → ℝ)) (c : Fin n → ℝ) b d η,
    Path (fun z => gradF F z + (A z.1 + c)) b d η →
      f b b.inputVal0 b.hyperVal0 d = .ok (List.ofFn (iteratedDeriv (k + 1) η 0))) ∧
    (k = 0 → First (gradF F) f)

/-- What every operation on the object keeps, also when it is stopped: the derivative functions present
are good, but there may be fewer than the order declares. -/
structure Part (F : (Fin n → ℝ) × (Fin m → ℝ) → ℝ) (fi fh : Bool) (T : Taylor) : Prop where
  hfi : T.inputIsFree = fi
  hfh : T.hyperIsFree = fh
  same : T.hyperFn = T.objFn
  ev : Evaluates T.inputPar T.hyperPar T.objFn fi fh F
  good : ∀ k f, T.dkList[k]? = some f → GoodAt F k f

theorem Part.withPars {fi fh : Bool} {T T' : Taylor} (h : Part F fi fh T)
    (h1 : T'.inputIsFree = T.inputIsFree) (h2 : T'.hyperIsFree = T.hyperIsFree)
    (h3 : T'.objFn = T.objFn) (h4 : T'.hyperFn = T.hyperFn)
    (h6 : T'.dkList = T.dkList) (b1 : T'.inputPar.blank = T.inputPar.blank)
    (b2 : T'.hyperPar.blank = T.hyperPar.blank) : Part F fi fh T' := by
  refine ⟨h1.trans h.hfi, h2.trans h.hfh, by rw [h3, h4, h.same], ?_, ?_⟩
  · rw [h3]
    exact evaluates_blank h.ev b1.symm b2.symm
  · rw [h6]
    exact h.good

theorem Part.samePars {fi fh : Bool} {T s : Taylor} (h : Part F fi fh T) (hs : SamePars T s) :
    Part F fi fh s := by
  obtain ⟨p, q, h1, h2, rfl⟩ := hs
  exact h.withPars rfl rfl rfl rfl rfl h1 h2

theorem taylorTerms_length (ts : List DTerm) : ∀ (j : ℕ) (L : List (List DTerm)),
    taylorTerms ts j = .ok L → L.length = j + 1
  | 0, L, h => by
    simp only [taylorTerms, Except.ok.injEq] at h
    rw [← h]; rfl
  | j + 1, L, h => by
    rw [taylorTerms] at h
    obtain ⟨a, -, h⟩ := py_bind_ok h
    obtain ⟨b, hb, h⟩ := py_bind_ok h
    simp only [Except.ok.injEq] at h
    rw [← h, List.length_cons, taylorTerms_length a j b hb]

/-- The derivative functions at each moment of the loop are the first ones of the final list. -/
theorem orderStages_prefix : ∀ (k : ℕ) (terms : List DTerm) (T : Taylor) (L : List (List DTerm)),
    taylorTerms terms k = .ok L → ∀ s ∈ T.orderStages terms k, ∃ j tl,
      s = { T with termsList := tl, dkList := T.dkList ++ (L.take j).map dkinputFromTerms } := by
  intro k
  induction k with
  | zero =>
    intro terms T L hL s hs
    simp only [taylorTerms, Except.ok.injEq] at hL
    simp only [orderStages, List.mem_singleton] at hs
    exact ⟨1, T.termsList, by rw [hs, ← hL]; rfl⟩
  | succ k ih =>
    intro terms T L hL s hs
    rw [taylorTerms] at hL
    obtain ⟨next, hnext, hL⟩ := py_bind_ok hL
    obtain ⟨more, hmore, hL⟩ := py_bind_ok hL
    simp only [Except.ok.injEq] at hL
    subst hL
    simp only [orderStages, hnext] at hs
    rcases List.mem_cons.mp hs with rfl | hs
    · exact ⟨1, T.termsList, rfl⟩
    rcases List.mem_cons.mp hs with rfl | hs
    · exact ⟨1, _, rfl⟩
    obtain ⟨j, tl, rfl⟩ := ih next _ more hmore s hs
    exact ⟨j + 1, tl, by simp⟩

/-- The last of the states is the one in which the loop leaves the object. -/
theorem orderStages_getLast : ∀ (k : ℕ) (terms : List DTerm) (T : Taylor) (L : List (List DTerm)),
    taylorTerms terms k = .ok L → (T.orderStages terms k).getLast? = some
      { T with termsList := T.termsList ++ L.tail, dkList := T.dkList ++ L.map dkinputFromTerms } := by
  intro k
  induction k with
  | zero =>
    intro terms T L hL
    simp only [taylorTerms, Except.ok.injEq] at hL
    subst hL
    simp [orderStages]
  | succ k ih =>
    intro terms T L hL
    rw [taylorTerms] at hL
    obtain ⟨next, hnext, hL⟩ := py_bind_ok hL
    obtain ⟨more, hmore, hL⟩ := py_bind_ok hL
    simp only [Except.ok.injEq] at hL
    subst hL
    have h1 := ih next
      { T with termsList := T.termsList ++ [next], dkList := T.dkList ++ [dkinputFromTerms terms] } more hmore
    have h2 : next :: more.tail = more := by
      have := taylorTerms_head next k more hmore
      cases more with
      | nil => cases this
      | cons a l => simp only [List.getElem?_cons_zero, Option.some.injEq] at this; rw [this]; rfl
    simp only [orderStages, hnext]
    rw [List.getLast?_cons_cons]
    generalize hl : orderStages _ next k = l at h1 ⊢
    cases l with
    | nil => cases h1
    | cons a l =>
      rw [List.getLast?_cons_cons, h1]
      simp only [List.append_assoc, List.singleton_append, List.tail_cons, List.map_cons, h2]

/-- What `set_order` computes when it returns. -/
theorem setOrder_terms {T T' : Taylor} {order : ℕ} (h : T.setOrder order = (T', none)) :
    ∃ evalG terms L, generateArray ({ T with order := order } : Taylor).objectiveGradient (order + 1) =
        .ok evalG ∧ getTaylorBaseTerms evalG = .ok terms ∧ taylorTerms terms (order - 1) = .ok L ∧
      T' = { T with order := order, termsList := L, dkList := L.map dkinputFromTerms } := by
  unfold setOrder at h
  simp only at h
  split at h
  · cases h
  · next L hL =>
    obtain ⟨evalG, h1, hL⟩ := py_bind_ok hL
    obtain ⟨terms, h2, hL⟩ := py_bind_ok hL
    simp only [Prod.mk.injEq, and_true] at h
    exact ⟨evalG, terms, L, h1, h2, hL, h.symm⟩

/-- The last of the states is the one in which `set_order` leaves the object. -/
theorem setOrderStages_getLast {T T' : Taylor} {order : ℕ} (h : T.setOrder order = (T', none)) :
    (T.setOrderStages order).getLast? = some T' := by
  obtain ⟨evalG, terms, L, h1, h2, h3, rfl⟩ := setOrder_terms h
  have h4 := orderStages_getLast (order - 1) terms
    { T with order := order, termsList := [terms], dkList := [] } L h3
  have h5 : terms :: L.tail = L := by
    have := taylorTerms_head terms _ L h3
    cases L with
    | nil => cases this
    | cons a l => simp only [List.getElem?_cons_zero, Option.some.injEq] at this; rw [this]; rfl
  simp only [setOrderStages, h1, py_ok_bind, h2]
  generalize hl : orderStages _ terms (order - 1) = l at h4 ⊢
  cases l with
  | nil => cases h4
  | cons a l =>
    rw [List.getLast?_cons_cons, List.getLast?_cons_cons, List.getLast?_cons_cons,
      List.getLast?_cons_cons, h4]
    simp only [List.singleton_append, List.nil_append, h5]

/-- With order 0 the base terms cannot be built. -/
theorem setOrder_zero (f : DFun) : (do
    let evalG ← generateArray f (0 + 1)
    getTaylorBaseTerms evalG) = .error .assertionError := by
  rw [generateArray_eq f (Nat.succ_pos 0), py_ok_bind]
  simp [getTaylorBaseTerms, DTerm.new, getIdx, totalOrder, bind, Except.bind]

theorem Part.setOrder_complete (hF : ContDiff ℝ ∞ F) {fi fh : Bool} {T : Taylor} (h : Part F fi fh T)
    {order : ℕ} (ho : 1 ≤ order) :
    ∃ L, T.setOrder order = ({ T with
      order := order, termsList := L, dkList := L.map dkinputFromTerms }, none) ∧
      L.length = order ∧ (∀ k f, (L.map dkinputFromTerms)[k]? = some f → GoodAt F k f) ∧
      Inv F fi fh { T with order := order, termsList := L, dkList := L.map dkinputFromTerms } := by
  have hev : Evaluates T.inputPar T.hyperPar T.hyperFn T.inputIsFree T.hyperIsFree F := by
    rw [h.same, h.hfi, h.hfh]; exact h.ev
  obtain ⟨L, e, hr⟩ := setOrder_ready hF T hev order ho
  obtain ⟨-, terms, L', -, -, h3, h4⟩ := setOrder_terms e
  have hLL : L = L' := by
    have := congrArg Taylor.termsList h4
    exact this
  subst hLL
  have hlen : L.length = order := by rw [taylorTerms_length _ _ _ h3]; omega
  rw [e] at hr
  refine ⟨L, e, hlen, ?_, ⟨h.hfi, h.hfh, h.same, h.ev, hr⟩⟩
  intro k f hf
  have hk : k < order := by
    have := (List.getElem?_eq_some_iff.mp hf).1
    simpa [hlen] using this
  obtain ⟨f', h1, h2⟩ := hr k hk
  unfold getIdx at h1
  simp only at h1
  rw [hf] at h1
  cases h1
  exact h2

/-- A stopped `set_order`. -/
theorem Part.duringOrder (hF : ContDiff ℝ ∞ F) {fi fh : Bool} {T s : Taylor} (h : Part F fi fh T)
    {order : ℕ} (hs : DuringSetOrder T order s) : Part F fi fh s ∧ s.base = T.base := by
  unfold DuringSetOrder setOrderStages at hs
  rcases List.mem_cons.mp hs with rfl | hs
  · exact ⟨h, rfl⟩
  rcases List.mem_cons.mp hs with rfl | hs
  · exact ⟨h.withPars rfl rfl rfl rfl rfl rfl rfl, rfl⟩
  by_cases ho : 1 ≤ order
  swap
  · obtain rfl : order = 0 := by omega
    rw [setOrder_zero] at hs
    exact absurd hs (List.not_mem_nil)
  obtain ⟨L, e, hlen, hgood, -⟩ := h.setOrder_complete hF ho
  obtain ⟨evalG, terms, L', h1, h2, h3, h4⟩ := setOrder_terms e
  have hLL : L = L' := congrArg Taylor.termsList h4
  subst hLL
  simp only [h1, py_ok_bind, h2] at hs
  rcases List.mem_cons.mp hs with rfl | hs
  · exact ⟨h.withPars rfl rfl rfl rfl rfl rfl rfl, rfl⟩
  rcases List.mem_cons.mp hs with rfl | hs
  · exact ⟨⟨h.hfi, h.hfh, h.same, h.ev, fun k f hf => by simp at hf⟩, rfl⟩
  obtain ⟨j, tl, rfl⟩ := orderStages_prefix _ _ _ L h3 s hs
  refine ⟨⟨h.hfi, h.hfh, h.same, h.ev, fun k f hf => ?_⟩, rfl⟩
  simp only [List.nil_append, List.map_take] at hf
  rw [List.getElem?_take] at hf
  split at hf
  · exact hgood k f hf
  · cases hf

/-- A stopped `set_base_values`. -/
theorem Part.duringBase {fi fh : Bool} {T s : Taylor} (h : Part F fi fh T)
    {x e : List ℝ} {H : Option Arr} (hs : DuringSetBase T x e H s) : Part F fi fh s := by
  obtain ⟨T', h1, h2⟩ := hs
  refine Part.samePars ?_ h2
  unfold setBaseStages at h1
  rcases List.mem_cons.mp h1 with rfl | h1
  · exact h
  rcases List.mem_cons.mp h1 with rfl | h1
  · exact h.withPars rfl rfl rfl rfl rfl rfl rfl
  rcases List.mem_cons.mp h1 with rfl | h1
  · exact h.withPars rfl rfl rfl rfl rfl rfl rfl
  have h0 : Part F fi fh { T with base := { T.base with inputVal0 := x, hyperVal0 := e } } :=
    h.withPars rfl rfl rfl rfl rfl rfl rfl
  have hH : ∀ {T : Taylor} {H : Arr}, Part F fi fh T → ∀ s ∈ T.hessStages H, Part F fi fh s := by
    intro T H hT s hs
    unfold hessStages at hs
    rcases List.mem_cons.mp hs with rfl | hs
    · exact hT.withPars rfl rfl rfl rfl rfl rfl rfl
    · obtain ⟨b, c, h4⟩ := setHess_shape T H
      rw [List.mem_singleton.mp hs, h4]
      exact hT.withPars rfl rfl rfl rfl rfl rfl rfl
  have h3 : Part F fi fh (setParToBase
      { T with base := { T.base with inputVal0 := x, hyperVal0 := e } }).1 := by
    obtain ⟨p, q, g1, g2, g3⟩ := setParToBase_shape
      ({ T with base := { T.base with inputVal0 := x, hyperVal0 := e } } : Taylor)
    rw [g1]
    exact h0.withPars rfl rfl rfl rfl rfl g2 g3
  refine stagesOf_all (Part F fi fh) h3 (fun _ s hs => ?_) T' h1
  cases H with
  | some H => exact hH h3 s hs
  | none =>
    have hb : ∀ o : Objective Unit, (o.funFreeHessian x ()).1.par.blank = o.par.blank :=
      fun o => o.deriv_par_blank _ _ _ _
    have h5 : ∀ T : Taylor, Part F fi fh T →
        Part F fi fh { T with inputPar := (T.objective.funFreeHessian x ()).1.par } := fun T hT =>
      hT.withPars rfl rfl rfl rfl rfl (hb T.objective) rfl
    simp only at hs
    rcases List.mem_cons.mp hs with rfl | hs
    · exact h5 _ h3
    · split at hs
      · exact absurd hs (List.not_mem_nil)
      · exact hH (h5 _ h3) s hs

/-- A completed call. -/
theorem Part.step (hF : ContDiff ℝ ∞ F) {fi fh : Bool} {T : Taylor} (h : Part F fi fh T) (op : Op) :
    Part F fi fh (T.step op) := by
  cases op with
  | setBase x e H =>
    obtain ⟨p, q, b, c, h1, h2, h3⟩ := T.setBaseValues_shape x e H
    rw [Taylor.step, h1]
    exact h.withPars rfl rfl rfl rfl rfl h2 h3
  | setOrder k =>
    rw [Taylor.step]
    by_cases hk : 1 ≤ k
    · obtain ⟨L, e, -, hg, -⟩ := h.setOrder_complete hF hk
      rw [e]
      exact ⟨h.hfi, h.hfh, h.same, h.ev, hg⟩
    · obtain rfl : k = 0 := by omega
      have hz : (T.setOrder 0).1 = { T with order := 0 } := by
        unfold setOrder
        simp only
        split
        · rfl
        · next L hL =>
          obtain ⟨evalG, h1, hL⟩ := py_bind_ok hL
          obtain ⟨terms, h2, hL⟩ := py_bind_ok hL
          have := setOrder_zero ({ T with order := 0 } : Taylor).objectiveGradient
          rw [h1, py_ok_bind, h2] at this
          cases this
      rw [hz]
      exact h.withPars rfl rfl rfl rfl rfl rfl rfl
  | evaluateDk d k =>
    obtain ⟨p, q, h1, h2, h3⟩ := T.evaluateDk_shape d k
    rw [Taylor.step, h1]
    exact h.withPars rfl rfl rfl rfl rfl h2 h3
  | evaluateSeries d a mo =>
    obtain ⟨p, q, h1, h2, h3⟩ := T.evaluateSeries_shape d a mo
    rw [Taylor.step, h1]
    exact h.withPars rfl rfl rfl rfl rfl h2 h3

/-- A method call that returned, raised or was stopped, but not `set_base_values`. -/
def StepKeep (T s : Taylor) : Prop :=
  (∃ op, op.keepsBase ∧ s = T.step op) ∨ (∃ k, DuringSetOrder T k s) ∨ DuringEvaluate T s

/-- A method call that returned, raised or was stopped. -/
def Step (T s : Taylor) : Prop :=
  StepKeep T s ∨ ∃ x e H, s = (T.setBaseValues x e H).1 ∨ DuringSetBase T x e H s

theorem Part.stepKeep (hF : ContDiff ℝ ∞ F) {fi fh : Bool} {T s : Taylor} (h : Part F fi fh T)
    (hs : StepKeep T s) : Part F fi fh s ∧ s.base = T.base := by
  rcases hs with ⟨op, hop, rfl⟩ | ⟨k, hk⟩ | hd
  · exact ⟨h.step hF op, T.step_base op hop⟩
  · exact h.duringOrder hF hk
  · refine ⟨h.samePars hd, ?_⟩
    obtain ⟨p, q, -, -, rfl⟩ := hd
    rfl

theorem Part.steps (hF : ContDiff ℝ ∞ F) {fi fh : Bool} {T s : Taylor} (h : Part F fi fh T)
    (hs : ReflTransGen Step T s) : Part F fi fh s := by
  induction hs with
  | refl => exact h
  | tail _ hs ih =>
    rcases hs with hs | ⟨x, e, H, rfl | hs⟩
    · exact (ih.stepKeep hF hs).1
    · exact ih.step hF (.setBase x e H)
    · exact ih.duringBase hs

theorem Part.stepsKeep (hF : ContDiff ℝ ∞ F) {fi fh : Bool} {T s : Taylor} (h : Part F fi fh T)
    (hs : ReflTransGen StepKeep T s) : Part F fi fh s ∧ s.base = T.base := by
  induction hs with
  | refl => exact ⟨h, rfl⟩
  | tail _ hs ih =>
    have := ih.1.stepKeep hF hs
    exact ⟨this.1, this.2.trans ih.2⟩

/-- A constructed object. -/
theorem Part.of_new (hF : ContDiff ℝ ∞ F) {objFn : Param → Param → Py Arr} {inputPar hyperPar : Param}
    {fi fh : Bool} (hev : Evaluates inputPar hyperPar objFn fi fh F) {x e : List ℝ} {order : ℕ}
    {hess0 : Option Arr} {T : Taylor}
    (h : Taylor.new objFn inputPar hyperPar x e order fi fh hess0 none = .ok T) : Part F fi fh T := by
  have hI : Part F fi fh (⟨inputPar, hyperPar, fi, fh, objFn, objFn,
      ⟨⟨[0, 0], []⟩, [], []⟩, ⟨[0, 0], []⟩, 0, [], []⟩ : Taylor) :=
    ⟨rfl, rfl, rfl, hev, fun k f hf => by simp at hf⟩
  have h2 := (hI.step hF (.setBase x e none)).step hF (.setOrder order)
  unfold Taylor.new at h
  simp only [Option.getD_none] at h
  split at h
  · exact absurd h (by simp)
  · split at h
    · exact absurd h (by simp)
    · simp only [Except.ok.injEq] at h
      rw [← h]
      exact h2

/-- The derivatives, for an object based at `(x, e)`: right, or missing. -/
theorem Part.evaluateDk (hF : ContDiff ℝ ∞ F) (hn : 0 < n) (hm : 0 < m) {fi fh : Bool} {T : Taylor}
    (hT : Part F fi fh T) {x e : List ℝ} (hB : Based F x e T) (hx : x.length = n) (he : e.length = m)
    (hpc : PositiveCurvature F (toVec n x) (toVec m e)) {d : List ℝ} (hd : d.length = m)
    {η : ℝ → Fin n → ℝ} (hη : OptimumPath F (toVec n x) (toVec m e) (toVec m d) η) {k : ℕ} (hk : 1 ≤ k)
    (hko : k ≤ T.order) :
    (T.evaluateDk d k).2 = .ok (List.ofFn (iteratedDeriv k η 0)) ∨
      (T.evaluateDk d k).2 = .error .indexError := by
  cases hf : T.dkList[k - 1]? with
  | none =>
    right
    rw [Taylor.evaluateDk, if_neg (by omega), if_neg (by omega), Int.toNat_natCast, getIdx, hf]
  | some f =>
    left
    obtain ⟨s1, s2⟩ := TwoObjective.evalFun_ok (hT.ev x e hx he)
    simp only at s1 s2
    have hη' : OptimumPath F (toVec n T.base.inputVal0) (toVec m T.base.hyperVal0) (toVec m d) η := by
      rw [hB.hx, hB.he]; exact hη
    have hpd := hessArr_posDef (hF.of_le two_le_infty) hpc
    obtain ⟨η', hp, hit⟩ := hη'.path hF hn hm (by rw [hB.hx, hx]) (by rw [hB.he, he]) hd hB.shape
      (by rw [hB.hx, hB.he]; exact hB.hess) (by rw [hB.hess]; exact hpd.det_pos.ne')
    have hv := (hT.good _ _ hf).1 0 0 T.base d η' (by simpa using hp)
    rw [show k - 1 + 1 = k by omega, hit] at hv
    rw [evaluateDk_of (f := f) (by rw [getIdx, hf]) hv (by rw [hB.hx, hT.hfi]; exact s1)
      (by rw [hB.he, hT.hfh]; exact s2) hk hko]

/-- The loop of `evaluate_taylor_series`, when derivatives may be missing. -/
theorem seriesLoop_or {d : List ℝ} (v : ℕ → Fin n → ℝ) (P : Taylor → Prop)
    (hP : ∀ T, P T → ∀ k : ℤ, P (T.evaluateDk d k).1) :
    ∀ (ks : List ℕ) (T : Taylor) (acc : Fin n → ℝ), P T →
      (∀ T, P T → ∀ k ∈ ks, (T.evaluateDk d k).2 = .ok (List.ofFn (v k)) ∨
        (T.evaluateDk d k).2 = .error .indexError) →
      P (T.seriesLoop d ks (List.ofFn acc)).1 ∧ ((T.seriesLoop d ks (List.ofFn acc)).2 =
        .ok (List.ofFn (acc + (ks.map fun k => (1 / (k.factorial : ℝ)) • v k).sum)) ∨
      (T.seriesLoop d ks (List.ofFn acc)).2 = .error .indexError) := by
  intro ks
  induction ks with
  | nil =>
    intro T acc hT _
    exact ⟨hT, Or.inl (by simp [seriesLoop])⟩
  | cons k ks ih =>
    intro T acc hT h
    have hadd : vadd (List.ofFn acc) (vscale (1 / (k.factorial : ℝ)) (List.ofFn (v k))) =
        .ok (List.ofFn (acc + (1 / (k.factorial : ℝ)) • v k)) := by
      rw [vscale_ofFn, vadd, if_pos (by simp)]
      congr 1
      apply List.ext_getElem <;> simp
    have hrec := ih (T.evaluateDk d k).1 (acc + (1 / (k.factorial : ℝ)) • v k) (hP T hT k)
      (fun T hT k hk => h T hT k (List.mem_cons_of_mem _ hk))
    unfold seriesLoop
    rcases h T hT k (List.mem_cons_self ..) with h1 | h1
    · simp only [h1, py_ok_bind, hadd]
      rw [List.map_cons, List.sum_cons, ← add_assoc]
      exact hrec
    · simp only [h1]
      exact ⟨hP T hT k, Or.inr rfl⟩

/-- The sum that the loop adds up. -/
theorem taylorPoly_eq (η : ℝ → Fin n → ℝ) {deg : ℕ} (hdeg : 1 ≤ deg) :
    iteratedDeriv 1 η 0 + (((List.range (deg - 1)).map (· + 2)).map fun k =>
      (1 / (k.factorial : ℝ)) • iteratedDeriv k η 0).sum = taylorPoly η deg := by
  rw [taylorPoly, List.map_map]
  change _ + ((List.range (deg - 1)).map fun j => (1 / ((j + 2).factorial : ℝ)) •
    iteratedDeriv (j + 2) η 0).sum = _
  rw [sum_map_range (fun j => (1 / ((j + 2).factorial : ℝ)) • iteratedDeriv (j + 2) η 0)]
  obtain ⟨c, rfl⟩ := Nat.exists_eq_add_of_le' hdeg
  rw [Nat.add_sub_cancel, show Finset.Icc 1 (c + 1) = Finset.Ico 1 (c + 2) by ext; simp; omega,
    Finset.sum_eq_sum_Ico_succ_bot (by omega), Finset.sum_Ico_eq_sum_range]
  simp only [Nat.factorial_one, Nat.cast_one, div_one, one_smul]
  congr 1
  refine Finset.sum_congr (by congr 1) fun j _ => ?_
  rw [show 1 + 1 + j = j + 2 by omega]

/-- The Taylor series, for an object based at `(x, e)`: right, or missing. -/
theorem Part.evaluateSeries (hF : ContDiff ℝ ∞ F) (hn : 0 < n) (hm : 0 < m) {fi fh : Bool} {T : Taylor}
    (hT : Part F fi fh T) {x e : List ℝ} (hB : Based F x e T) (hx : x.length = n) (he : e.length = m)
    (hpc : PositiveCurvature F (toVec n x) (toVec m e)) {d : List ℝ} (hd : d.length = m)
    {η : ℝ → Fin n → ℝ} (hη : OptimumPath F (toVec n x) (toVec m e) (toVec m d) η) {deg : ℕ}
    (hdeg : 1 ≤ deg) (hdo : deg ≤ T.order) (off : Bool) (mo : Option ℤ) (hmo : mo.getD T.order = deg) :
    (T.evaluateSeries d off mo).2 =
        .ok (List.ofFn ((if off then toVec n x else 0) + taylorPoly η deg)) ∨
      (T.evaluateSeries d off mo).2 = .error .indexError := by
  obtain ⟨order, h4⟩ : ∃ order, T.order = order := ⟨_, rfl⟩
  rw [h4] at hdo
  let P : Taylor → Prop := fun S => Part F fi fh S ∧ Based F x e S ∧ S.order = order
  have hP : ∀ S, P S → ∀ k : ℤ, P (S.evaluateDk d k).1 := by
    intro S hS k
    refine ⟨hS.1.step hF (.evaluateDk d k), hS.2.1.of_base (S.step_base (.evaluateDk d k) trivial), ?_⟩
    obtain ⟨p, q, g2, -, -⟩ := S.evaluateDk_shape d k
    rw [g2]
    exact hS.2.2
  have hstep : ∀ S, P S → ∀ k : ℕ, 1 ≤ k → k ≤ order →
      (S.evaluateDk d k).2 = .ok (List.ofFn (iteratedDeriv k η 0)) ∨
        (S.evaluateDk d k).2 = .error .indexError := fun S hS k hk hko =>
    hS.1.evaluateDk hF hn hm hS.2.1 hx he hpc hd hη hk (by rw [hS.2.2]; exact hko)
  have hPT : P T := ⟨hT, hB, h4⟩
  have hcond : ¬ (mo.getD (T.order : ℤ) ≤ 0) ∧ ¬ ((T.order : ℤ) < mo.getD (T.order : ℤ)) := by
    rw [hmo, h4]; omega
  have hloop := seriesLoop_or (fun k => iteratedDeriv k η 0) P hP
    ((List.range (deg - 1)).map (· + 2)) (T.evaluateDk d 1).1 (iteratedDeriv 1 η 0) (hP T hPT 1) (by
      intro S hS k hk
      obtain ⟨j, hj, rfl⟩ := List.mem_map.mp hk
      have := List.mem_range.mp hj
      exact hstep S hS (j + 2) (by omega) (by omega))
  rw [taylorPoly_eq η hdeg] at hloop
  unfold Taylor.evaluateSeries
  simp only [hcond.1, hcond.2, if_false]
  rw [hmo, Int.toNat_natCast]
  have h1 := hstep T hPT 1 le_rfl (by omega)
  rw [Nat.cast_one] at h1
  rcases h1 with h1 | h1
  swap
  · right
    simp only [h1]
  simp only [h1]
  have hadd : vadd (List.ofFn (taylorPoly η deg)) x = .ok (List.ofFn (toVec n x + taylorPoly η deg)) := by
    rw [vadd, if_pos (by simp [hx])]
    congr 1
    apply List.ext_getElem
    · simp [hx]
    · intro i hi1 hi2
      simp only [List.getElem_zipWith, List.getElem_ofFn, Pi.add_apply]
      rw [add_comm]
      congr 1
      have hix : i < x.length := by simp [hx] at hi2; omega
      simp [toVec, hix]
  rcases hloop.2 with h2 | h2
  · left
    simp only [h2, hloop.1.2.1.hx]
    cases off with
    | true => simp only [if_true]; exact hadd
    | false => simp
  · right
    simp only [h2]

end Taylor

open Taylor in
/-- **C177** for `ParametricSensitivityTaylorExpansion`: take any constructed object and call its methods
in any order with any arguments, where each call returns, raises, or is stopped at any moment.  Then let
`set_base_values` at base values of positive curvature return, and call the other methods in the same way.
An evaluation up to the declared order is then right, or it raises `IndexError` because a stopped
`set_order` had not come to that order; an order out of range raises `ValueError`.  Once a `set_order`
returns, every evaluation up to its order is right. -/
theorem C177_taylor (hF : ContDiff ℝ ∞ F) (hn : 0 < n) (hm : 0 < m)
    (objFn : Param → Param → Py Arr) (inputPar hyperPar : Param) (hyperIsFree : Bool)
    (hev : Evaluates inputPar hyperPar objFn true hyperIsFree F)
    (x0 e0 : List ℝ) (order0 : ℕ) (hess0 : Option Arr) (T0 : Taylor)
    (hnew : Taylor.new objFn inputPar hyperPar x0 e0 order0 true hyperIsFree hess0 none = .ok T0)
    (T1 : Taylor) (hbefore : ReflTransGen Taylor.Step T0 T1)
    (x e : List ℝ) (hx : x.length = n) (he : e.length = m)
    (hpc : PositiveCurvature F (toVec n x) (toVec m e)) :
    ∃ T2, T1.setBaseValues x e none = (T2, none) ∧
      ∀ T, ReflTransGen Taylor.StepKeep T2 T →
        (∀ (d : List ℝ) (k : ℤ), k ≤ 0 ∨ (T.order : ℤ) < k →
          (T.evaluateDk d k).2 = .error .valueError ∧
          ∀ off, (T.evaluateSeries d off (some k)).2 = .error .valueError) ∧
        ∀ d : List ℝ, d.length = m → ∀ η, OptimumPath F (toVec n x) (toVec m e) (toVec m d) η →
          (∀ k : ℕ, 1 ≤ k → k ≤ T.order →
            ((T.evaluateDk d k).2 = .ok (List.ofFn (iteratedDeriv k η 0)) ∨
              (T.evaluateDk d k).2 = .error .indexError) ∧
            ∀ off, (T.evaluateSeries d off (some k)).2 =
                .ok (List.ofFn ((if off then toVec n x else 0) + taylorPoly η k)) ∨
              (T.evaluateSeries d off (some k)).2 = .error .indexError) ∧
          ∀ order : ℕ, 1 ≤ order → ∃ T', T.setOrder order = (T', none) ∧ T'.order = order ∧
            ∀ k : ℕ, 1 ≤ k → k ≤ order →
              (T'.evaluateDk d k).2 = .ok (List.ofFn (iteratedDeriv k η 0)) ∧
              (T'.evaluateSeries d true (some k)).2 = .ok (List.ofFn (toVec n x + taylorPoly η k)) ∧
              (T'.evaluateSeries d false (some k)).2 = .ok (List.ofFn (taylorPoly η k)) := by
  have hP := (Part.of_new hF hev hnew).steps hF hbefore
  obtain ⟨l, e1⟩ := setBase_computed hF hP.hfi hP.hfh hP.ev hn hx he hpc
  have hP1 := hP.step hF (.setBase x e none)
  rw [Taylor.step, e1] at hP1
  refine ⟨_, e1, fun T hT => ?_⟩
  obtain ⟨hP2, hbase⟩ := hP1.stepsKeep hF hT
  have hB : Based F x e T := Based.of_base (T := { T1 with
      inputPar := (setPar T1.inputPar x true).1, hyperPar := (setPar T1.hyperPar e hyperIsFree).1,
      base := ⟨hessArr F (toVec n x) (toVec m e), x, e⟩, chol := l }) ⟨rfl, rfl, rfl, rfl⟩ hbase
  refine ⟨fun d k hk => ?_, fun d hd η hη => ⟨fun k hk hko => ⟨?_, fun off => ?_⟩, fun order ho => ?_⟩⟩
  · have := T.order_range d k hk
    exact ⟨by rw [this.1], fun off => by rw [this.2 off]⟩
  · exact hP2.evaluateDk hF hn hm hB hx he hpc hd hη hk hko
  · exact hP2.evaluateSeries hF hn hm hB hx he hpc hd hη hk hko off (some k) rfl
  · obtain ⟨L, e2, -, -, hI⟩ := hP2.setOrder_complete hF ho
    have hB' : Based F x e { T with
        order := order, termsList := L, dkList := L.map dkinputFromTerms } := hB.of_base rfl
    refine ⟨_, e2, rfl, fun k hk hko => ⟨?_, ?_⟩⟩
    · obtain ⟨T', g, -⟩ := hB'.evaluateDk hF hn hm hI hx he hpc hd hη hk hko
      rw [g]
    · exact hB'.evaluateSeries hF hn hm hI hx he hpc hd hη hk hko (some k) rfl

open Taylor in
/-- A case of `C177_taylor`: the objective is `x² / 2 + x³ / 6 - ε x`, and a `set_order(3)` is stopped just
before its loop, so that the first derivative is missing.  The hypotheses of the theorem are met. -/
example : ∃ T0 T1, Taylor.new (scFn exH) (scPar ninf) (scPar ninf) [0] [0] 1 true false none none =
      .ok T0 ∧ (∃ v, (T0.evaluateDk [1] 1).2 = .ok v) ∧ ReflTransGen Taylor.Step T0 T1 ∧ T1.order = 3 ∧
      (T1.evaluateDk [1] 1).2 = .error .indexError ∧
      Evaluates (scPar ninf) (scPar ninf) (scFn exH) true false exHF ∧
      PositiveCurvature exHF (toVec 1 [0]) (toVec 1 [0]) := by
  obtain ⟨T0, h1, h2⟩ := C55_derivatives_exist exHF_smooth one_pos one_pos (scFn exH) (scPar ninf)
    (scPar ninf) false exHF_case.1 [0] [0] rfl rfl exHF_case.2.1 exHF_case.2.2 1 le_rfl none
  obtain ⟨η, -, h3⟩ := h2 [1] rfl
  obtain ⟨L, e, -⟩ := (Part.of_new exHF_smooth exHF_case.1 h1).setOrder_complete exHF_smooth
    (order := 3) (by omega)
  obtain ⟨evalG, terms, L', g1, g2, g3, -⟩ := setOrder_terms e
  refine ⟨T0, { T0 with order := 3, termsList := [terms], dkList := [] }, h1,
    ⟨_, by simpa using h3 1 le_rfl le_rfl⟩, .single (Or.inl (Or.inr (Or.inl ⟨3, ?_⟩))), rfl, ?_,
    exHF_case.1, exHF_case.2.2⟩
  · unfold DuringSetOrder setOrderStages
    simp only [g1, py_ok_bind, g2]
    simp
  · simp [Taylor.evaluateDk, getIdx]

/-- A case of `C177_linear_approximation`: for `x² / 2 - ε x`, a `set_base_values` at the input 5 is stopped
after its first statement.  The prediction at `ε = 0` is then 5 instead of 0, until the call is repeated. -/
example : ∃ T0 T1, LinApprox.new (scFn exQ) (scPar ninf) (scPar ninf) [0] [0] true false none none =
      .ok T0 ∧ T0.predictInput [0] = .ok [0] ∧ ReflTransGen LinApprox.Step T0 T1 ∧
      T1.predictInput [0] = .ok [5] ∧
      ∃ T2, T1.setBaseValues [0] [0] none = (T2, none) ∧ T2.predictInput [0] = .ok [0] := by
  have hsm : ContDiff ℝ 2 exQF := exQF_smooth.of_le two_le_infty
  have hev := scFn_real exQ true false
  have hz : toVec 1 [(0 : ℝ)] - toVec 1 [(0 : ℝ)] = 0 := sub_self _
  have key : ∀ (T : LinApprox) (a : ℝ), T.sens.shape = [1, 1] → T.base.inputVal0 = [a] →
      T.base.hyperVal0 = [0] → T.predictInput [0] = .ok [a] := by
    intro T a h1 h2 h3
    have := predict_eq h1 (x := [a]) (e := [0]) (new := [0]) rfl rfl rfl
    rw [LinApprox.predictInput, h2, h3, this, hz, Matrix.mulVec_zero, add_zero]
    rfl
  have hmat := sensArr_isMat (n := 1) (m := 1) (hessArr exQF (toVec 1 [0]) (toVec 1 [0]))
    (crossArr exQF (toVec 1 [0]) (toVec 1 [0]))
  obtain ⟨l, hl⟩ := LinApprox.setBase_ok (T := ⟨scPar ninf, scPar ninf, true, false, scFn exQ,
      scFn exQ, ⟨⟨[0, 0], []⟩, [], []⟩, ⟨[0, 0], []⟩, ⟨[0, 0], []⟩, ⟨[0, 0], []⟩⟩) rfl rfl
      hsm hev hsm hev one_pos (x := [0]) (e := [0]) rfl rfl none rfl (hessArr_posDef hsm (exQF_curv 0 0))
  rw [Option.getD_none] at hl
  obtain ⟨T0, hT0⟩ : ∃ T, T = (LinApprox.setBaseValues ⟨scPar ninf, scPar ninf, true, false, scFn exQ,
      scFn exQ, ⟨⟨[0, 0], []⟩, [], []⟩, ⟨[0, 0], []⟩, ⟨[0, 0], []⟩, ⟨[0, 0], []⟩⟩ [0] [0] none).1 := ⟨_, rfl⟩
  have hnew : LinApprox.new (scFn exQ) (scPar ninf) (scPar ninf) [0] [0] true false none none =
      .ok T0 := by
    simp only [LinApprox.new, Option.getD_none]
    rw [hl] at hT0 ⊢
    rw [hT0]
  rw [hl] at hT0
  have hstep : ReflTransGen LinApprox.Step T0
      { T0 with base := { T0.base with inputVal0 := [5] } } := by
    refine .single ⟨[5], [0], none, Or.inr ⟨{ T0 with base := { T0.base with inputVal0 := [5] } }, ?_,
      T0.inputPar, T0.hyperPar, rfl, rfl, rfl⟩⟩
    unfold LinApprox.setBaseStages
    exact List.mem_cons_of_mem _ (List.mem_cons_self ..)
  refine ⟨T0, _, hnew, key T0 0 ?_ ?_ ?_, hstep, key _ 5 ?_ rfl ?_, ?_⟩
  · rw [hT0]; exact hmat.2
  · rw [hT0]
  · rw [hT0]
  · rw [hT0]; exact hmat.2
  · rw [hT0]
  · obtain ⟨T2, h1, h2, -⟩ := C177_linear_approximation hsm hsm 0 (fun u v => by simp) one_pos (scFn exQ)
      none (scPar ninf) (scPar ninf) hev hev [0] [0] none T0 hnew _ hstep [0] [0] rfl rfl (exQF_curv 0 0)
    refine ⟨T2, h1, key T2 0 h2.1.2 ?_ ?_⟩
    all_goals
      obtain ⟨k1, k2, k3, k4, k5, k6⟩ := LinApprox.keeps_steps hstep
      obtain ⟨j1, j2, j3, j4, j5, j6⟩ := LinApprox.keeps_new hnew
      obtain ⟨l', hl'⟩ := LinApprox.setBase_ok (T := { T0 with base := { T0.base with inputVal0 := [5] } })
        j1 j2 hsm (by simp only; rw [j3]; exact Taylor.evaluates_blank hev j5.symm j6.symm) hsm
        (by simp only; rw [j4]; exact Taylor.evaluates_blank hev j5.symm j6.symm)
        one_pos (x := [0]) (e := [0]) rfl rfl none rfl (hessArr_posDef hsm (exQF_curv 0 0))
      rw [h1] at hl'
      have hT2 : T2 = _ := congrArg Prod.fst hl'
      rw [hT2]

end

end LRVB
