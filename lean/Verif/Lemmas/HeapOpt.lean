import Verif.Lemmas.HeapObj
import Verif.Model.HeapOpt

/-!
# Optimization with references and without
-/

namespace LRVB

open Classical

noncomputable section

/-- A state whose objective has the value `v`, with no object twice in the parameter. -/
structure Stands (depth : ℕ) (w : World Unit) (v : Objective Unit) : Prop where
  wf : w.WF
  view : w.view depth = some v
  nodup : (w.st.foot depth w.o.par).Nodup

/-- From `w` the program gets to `w'`, where the objective has the value `v'`. -/
structure Gets (depth : ℕ) (w w' : World Unit) (v' : Objective Unit) : Prop where
  step : World.Step w w'
  view : w'.view depth = some v'

variable {depth : ℕ} {w w' w'' : World Unit} {v v' v'' : Objective Unit}

theorem Stands.gets (h : Stands depth w v) (h' : Gets depth w w' v') : Stands depth w' v' :=
  ⟨h'.step.wf, h'.view, by rw [h'.step.skel.foot, h'.step.par]; exact h.nodup⟩

theorem Gets.trans (h : Gets depth w w' v') (h' : Gets depth w' w'' v'') : Gets depth w w'' v'' :=
  ⟨h.step.trans h'.step, h'.view⟩

theorem Stands.refl (h : Stands depth w v) : Gets depth w w v := ⟨.refl h.wf, h.view⟩

theorem Stands.newVec (h : Stands depth w v) (y : List ℝ) : Gets depth w ⟨(w.st.newVec y).1, w.o⟩ v :=
  ⟨withVec_step h.wf y, newVec_view h.wf h.view y⟩

private theorem map_vec_inj {a b : Py (List ℝ)} (h : Arr.vec <$> a = Arr.vec <$> b) : a = b := by
  cases a with
  | error e =>
    cases b with
    | error e' => simpa using h
    | ok b => simp [Functor.map, Except.map] at h
  | ok a =>
    cases b with
    | error e' => simp [Functor.map, Except.map] at h
    | ok b =>
      simp only [Functor.map, Except.map, Except.ok.injEq, Arr.vec, Arr.mk.injEq] at h
      rw [h.2]

theorem gets_call (h : Stands depth w v) (c : OCall Unit) (hc : ∀ r ∈ c.args, r.Alive w.st.mem) :
    Gets depth w (c.run depth w).1 (c.runValue w.st.mem.vals v).1 :=
  ⟨ocall_step h.wf c hc, (ocall_refine h.wf h.view h.nodup c hc).1⟩

private theorem args1 {x : List ℕ} {m : Mem} (hx : ∀ k ∈ x, k < m.next) : ∀ r ∈ [Ref.vec x], r.Alive m := by
  intro r hr
  rw [List.mem_singleton.1 hr]
  exact hx

private theorem args2 {x y : List ℕ} {m : Mem} (hx : ∀ k ∈ x, k < m.next) (hy : ∀ k ∈ y, k < m.next) :
    ∀ r ∈ [Ref.vec x, Ref.vec y], r.Alive m := by
  intro r hr
  simp only [List.mem_cons, List.not_mem_nil, or_false] at hr
  rcases hr with rfl | rfl
  · exact hx
  · exact hy

section calls

variable {x y : List ℕ}

theorem gets_funFree (h : Stands depth w v) (hx : ∀ k ∈ x, k < w.st.mem.next) (b : Bool) :
    Gets depth w (w.funFree depth x () b).1 (v.funFree (w.st.mem.vals x) () b).1 ∧
      (w.funFree depth x () b).2 = (v.funFree (w.st.mem.vals x) () b).2 :=
  ⟨gets_call h (.funFree x () b) (args1 hx), (ocall_refine h.wf h.view h.nodup (.funFree x () b) (args1 hx)).2⟩

theorem gets_grad (h : Stands depth w v) (hx : ∀ k ∈ x, k < w.st.mem.next) :
    Gets depth w (w.grad depth true x ()).1 (v.funFreeGrad (w.st.mem.vals x) ()).1 ∧
      (w.grad depth true x ()).2 = (v.funFreeGrad (w.st.mem.vals x) ()).2 :=
  ⟨gets_call h (.grad true x ()) (args1 hx),
    map_vec_inj (ocall_refine h.wf h.view h.nodup (.grad true x ()) (args1 hx)).2⟩

theorem gets_hvp (h : Stands depth w v) (hx : ∀ k ∈ x, k < w.st.mem.next) (hy : ∀ k ∈ y, k < w.st.mem.next) :
    Gets depth w (w.hvp depth true x () y).1 (v.funFreeHvp (w.st.mem.vals x) () (w.st.mem.vals y)).1 ∧
      (w.hvp depth true x () y).2 = (v.funFreeHvp (w.st.mem.vals x) () (w.st.mem.vals y)).2 :=
  ⟨gets_call h (.hvp true x () y) (args2 hx hy),
    map_vec_inj (ocall_refine h.wf h.view h.nodup (.hvp true x () y) (args2 hx hy)).2⟩

theorem gets_funFreeCond (h : Stands depth w v) (hx : ∀ k ∈ x, k < w.st.mem.next) (b : Bool) :
    Gets depth w (w.funFreeCond depth x () b).1 (v.funFreeCond (w.st.mem.vals x) () b).1 ∧
      (w.funFreeCond depth x () b).2 = (v.funFreeCond (w.st.mem.vals x) () b).2 :=
  ⟨gets_call h (.funFreeCond x () b) (args1 hx),
    (ocall_refine h.wf h.view h.nodup (.funFreeCond x () b) (args1 hx)).2⟩

theorem gets_gradCond (h : Stands depth w v) (hx : ∀ k ∈ x, k < w.st.mem.next) :
    Gets depth w (w.gradCond depth x ()).1 (v.funFreeGradCond (w.st.mem.vals x) ()).1 ∧
      (w.gradCond depth x ()).2 = (v.funFreeGradCond (w.st.mem.vals x) ()).2 :=
  ⟨gets_call h (.gradCond x ()) (args1 hx),
    map_vec_inj (ocall_refine h.wf h.view h.nodup (.gradCond x ()) (args1 hx)).2⟩

theorem gets_hvpCond (h : Stands depth w v) (hx : ∀ k ∈ x, k < w.st.mem.next) (hy : ∀ k ∈ y, k < w.st.mem.next) :
    Gets depth w (w.hvpCond depth x () y).1 (v.funFreeHvpCond (w.st.mem.vals x) () (w.st.mem.vals y)).1 ∧
      (w.hvpCond depth x () y).2 = (v.funFreeHvpCond (w.st.mem.vals x) () (w.st.mem.vals y)).2 :=
  ⟨gets_call h (.hvpCond x () y) (args2 hx hy),
    map_vec_inj (ocall_refine h.wf h.view h.nodup (.hvpCond x () y) (args2 hx hy)).2⟩

end calls

/-! ### The optimizer -/

/-- The same function with references and without. -/
def Sim1 {β : Type} (depth : ℕ) (f : World Unit → List ℕ → World Unit × Py β)
    (F : Objective Unit → List ℝ → Objective Unit × Py β) : Prop :=
  ∀ w v x, Stands depth w v → (∀ k ∈ x, k < w.st.mem.next) →
    Gets depth w (f w x).1 (F v (w.st.mem.vals x)).1 ∧ (f w x).2 = (F v (w.st.mem.vals x)).2

/-- The same for two arguments. -/
def Sim2 {β : Type} (depth : ℕ) (f : World Unit → List ℕ → List ℕ → World Unit × Py β)
    (F : Objective Unit → List ℝ → List ℝ → Objective Unit × Py β) : Prop :=
  ∀ w v x y, Stands depth w v → (∀ k ∈ x, k < w.st.mem.next) → (∀ k ∈ y, k < w.st.mem.next) →
    Gets depth w (f w x y).1 (F v (w.st.mem.vals x) (w.st.mem.vals y)).1 ∧
      (f w x y).2 = (F v (w.st.mem.vals x) (w.st.mem.vals y)).2

theorem Sim1.newVec {β : Type} {f : World Unit → List ℕ → World Unit × Py β}
    {F : Objective Unit → List ℝ → Objective Unit × Py β} (hf : Sim1 depth f F) (h : Stands depth w v) (x : List ℝ) :
    Gets depth w (f ⟨(w.st.newVec x).1, w.o⟩ (w.st.newVec x).2).1 (F v x).1 ∧
      (f ⟨(w.st.newVec x).1, w.o⟩ (w.st.newVec x).2).2 = (F v x).2 := by
  obtain ⟨h1, h2⟩ := hf _ v _ (h.gets (h.newVec x)) (newVec_alive w.st x)
  rw [show (⟨(w.st.newVec x).1, w.o⟩ : World Unit).st.mem.vals (w.st.newVec x).2 = x from newVec_vals _ _] at h1 h2
  exact ⟨(h.newVec x).trans h1, h2⟩

theorem Sim2.newVec {β : Type} {f : World Unit → List ℕ → List ℕ → World Unit × Py β}
    {F : Objective Unit → List ℝ → List ℝ → Objective Unit × Py β} (hf : Sim2 depth f F) (h : Stands depth w v)
    (x y : List ℝ) :
    Gets depth w (f ⟨((w.st.newVec x).1.newVec y).1, w.o⟩ (w.st.newVec x).2 ((w.st.newVec x).1.newVec y).2).1
        (F v x y).1 ∧
      (f ⟨((w.st.newVec x).1.newVec y).1, w.o⟩ (w.st.newVec x).2 ((w.st.newVec x).1.newVec y).2).2 =
        (F v x y).2 := by
  have g1 := h.newVec x
  have s1 := h.gets g1
  have g2 := s1.newVec y
  have s2 := s1.gets g2
  have hx : ∀ k ∈ (w.st.newVec x).2, k < ((w.st.newVec x).1.newVec y).1.mem.next :=
    fun k hk => lt_of_lt_of_le (newVec_alive w.st x k hk) g2.step.le.1
  obtain ⟨h1, h2⟩ := hf _ v _ _ s2 hx (newVec_alive (w.st.newVec x).1 y)
  have e1 : ((w.st.newVec x).1.newVec y).1.mem.vals (w.st.newVec x).2 = x :=
    (g2.step.le.vals (newVec_alive w.st x)).trans (newVec_vals _ _)
  have e2 : ((w.st.newVec x).1.newVec y).1.mem.vals ((w.st.newVec x).1.newVec y).2 = y := newVec_vals _ _
  simp only [e1, e2] at h1 h2
  exact ⟨(g1.trans g2).trans h1, h2⟩

theorem runHeap_sim {fn : World Unit → List ℕ → World Unit × Py Arr}
    {jac : World Unit → List ℕ → World Unit × Py (List ℝ)}
    {hessp : Option (World Unit → List ℕ → List ℕ → World Unit × Py (List ℝ))}
    {fnV : Objective Unit → List ℝ → Objective Unit × Py Arr}
    {jacV : Objective Unit → List ℝ → Objective Unit × Py (List ℝ)}
    {hesspV : Option (Objective Unit → List ℝ → List ℝ → Objective Unit × Py (List ℝ))}
    (h1 : Sim1 depth fn fnV) (h2 : Sim1 depth jac jacV)
    (h3 : (hessp = none ∧ hesspV = none) ∨ ∃ f F, hessp = some f ∧ hesspV = some F ∧ Sim2 depth f F) :
    ∀ (opt : Optimizer) {w : World Unit} {v : Objective Unit}, Stands depth w v →
      Gets depth w (opt.runHeap fn jac hessp w).1 (opt.run fnV jacV hesspV v).1 ∧
        (opt.runHeap fn jac hessp w).2 = (opt.run fnV jacV hesspV v).2 := by
  intro opt
  induction opt with
  | done r => intro w v h; exact ⟨h.refl, rfl⟩
  | fail e => intro w v h; exact ⟨h.refl, rfl⟩
  | value x k ih =>
    intro w v h
    obtain ⟨g1, g2⟩ := h1.newVec h x
    simp only [Optimizer.runHeap, Optimizer.run, g2]
    cases hv : (fnV v x).2 with
    | error e => exact ⟨g1, rfl⟩
    | ok a =>
      obtain ⟨g3, g4⟩ := ih a (h.gets g1)
      exact ⟨g1.trans g3, g4⟩
  | grad x k ih =>
    intro w v h
    obtain ⟨g1, g2⟩ := h2.newVec h x
    simp only [Optimizer.runHeap, Optimizer.run, g2]
    cases hv : (jacV v x).2 with
    | error e => exact ⟨g1, rfl⟩
    | ok a =>
      obtain ⟨g3, g4⟩ := ih a (h.gets g1)
      exact ⟨g1.trans g3, g4⟩
  | hvp x u k ih =>
    intro w v h
    rcases h3 with ⟨rfl, rfl⟩ | ⟨f, F, rfl, rfl, hf⟩
    · exact ⟨h.refl, rfl⟩
    · obtain ⟨g1, g2⟩ := hf.newVec h x u
      simp only [Optimizer.runHeap, Optimizer.run, g2]
      cases hv : (F v x u).2 with
      | error e => exact ⟨g1, rfl⟩
      | ok a =>
        obtain ⟨g3, g4⟩ := ih a (h.gets g1)
        exact ⟨g1.trans g3, g4⟩

end

end LRVB
