import Verif.Lemmas.TaylorObj

/-! Objectives of a scalar input and a scalar hyperparameter, used in examples. -/

namespace LRVB

open Flt

noncomputable section

/-- `ScalarParam(lb)`. -/
def scPar (lb : Flt) : Param := .leaf ⟨"s", .scalar lb pinf, Arr.scalar 1, false⟩

/-- The functor computing `h(input, hyper)` from the two parameters. -/
def scFn (h : ℝ → ℝ → ℝ) (p q : Param) : Py Arr := do
  let x ← p.getVector
  let e ← q.getVector
  .ok (Arr.scalar (h (x.getD 0 0) (e.getD 0 0)))

theorem scPar_getVector (lb : Flt) (hlb : lb < pinf) (free : Bool) (x : ℝ) :
    (setPar (scPar lb) [x] free).2 = none ∧ ((setPar (scPar lb) [x] free).1.mark false).getVector =
      .ok [if free then Leaf.constrainFn lb pinf x else x] := by
  have hw : (scPar lb).WF := by simpa [scPar, Param.WF, Kind.Legal] using hlb
  cases free
  · simp only [setPar]
    rw [if_neg (by simp), (scPar lb).setVector_ok hw [x] rfl]
    refine ⟨rfl, ?_⟩
    change ((scPar lb).vecP [x]).getVector = _
    rw [(scPar lb).getVector_vecP hw trivial [x] rfl]
    simp
  · simp only [setPar]
    rw [if_pos trivial, (scPar lb).setFree_ok hw [x] rfl]
    refine ⟨rfl, ?_⟩
    rw [Param.mark_plain _ (Param.freeP_plain _ _), (scPar lb).getVector_freeP hw trivial [x] rfl]
    simp [scPar, Param.ftvP, ftv]

/-- What the objective computes, in any parameterization. -/
theorem scFn_evaluates (lb1 lb2 : Flt) (h1 : lb1 < pinf) (h2 : lb2 < pinf) (fi fh : Bool)
    (h : ℝ → ℝ → ℝ) :
    Evaluates (n := 1) (m := 1) (scPar lb1) (scPar lb2) (scFn h) fi fh fun z =>
      h (if fi then Leaf.constrainFn lb1 pinf (z.1 0) else z.1 0)
        (if fh then Leaf.constrainFn lb2 pinf (z.2 0) else z.2 0) := by
  intro y1 y2 hy1 hy2
  obtain ⟨a, rfl⟩ := List.length_eq_one_iff.mp hy1
  obtain ⟨b, rfl⟩ := List.length_eq_one_iff.mp hy2
  obtain ⟨s1, g1⟩ := scPar_getVector lb1 h1 fi a
  obtain ⟨s2, g2⟩ := scPar_getVector lb2 h2 fh b
  simp only [TwoObjective.evalFun, s1, s2, scFn, g1, g2, py_ok_bind]
  simp [toVec]

theorem constrainFn_real (x : ℝ) : Leaf.constrainFn ninf pinf x = x := by
  simp [Leaf.constrainFn, constrainReal, constrain]

theorem ninf_lt_pinf : ninf < pinf := by simp

/-- Unconstrained scalars. -/
theorem scFn_real (h : ℝ → ℝ → ℝ) (fi fh : Bool) :
    Evaluates (n := 1) (m := 1) (scPar ninf) (scPar ninf) (scFn h) fi fh fun z => h (z.1 0) (z.2 0) := by
  have := scFn_evaluates ninf ninf ninf_lt_pinf ninf_lt_pinf fi fh h
  simpa only [constrainFn_real, ite_self] using this

theorem scalar_crit {h : ℝ → ℝ} {x : ℝ} (hd : HasDerivAt h 0 x) :
    fderiv ℝ (fun u : Fin 1 → ℝ => h (u 0)) (toVec 1 [x]) = 0 := by
  have h1 : HasFDerivAt (fun u : Fin 1 → ℝ => u 0) (ContinuousLinearMap.proj (R := ℝ) 0) (toVec 1 [x]) :=
    (ContinuousLinearMap.proj (R := ℝ) (φ := fun _ : Fin 1 => ℝ) 0).hasFDerivAt
  have h0 : toVec 1 [x] 0 = x := rfl
  have h2 := HasDerivAt.comp_hasFDerivAt (h₂ := h) (toVec 1 [x]) (by rw [h0]; exact hd) h1
  have h3 : fderiv ℝ (fun u : Fin 1 → ℝ => h (u 0)) (toVec 1 [x]) = _ := h2.fderiv
  rw [h3]; simp

theorem scalar_curv {h h1 : ℝ → ℝ} {x c : ℝ} (hd : ∀ s, HasDerivAt h (h1 s) s) (hd2 : HasDerivAt h1 c x)
    (hc : 0 < c) (u : Fin 1 → ℝ) (hu : u ≠ 0) :
    0 < iteratedDeriv 2 (fun t : ℝ => h ((toVec 1 [x] + t • u) 0)) 0 := by
  have hu0 : u 0 ≠ 0 := by
    intro h0
    apply hu
    funext i
    rw [Subsingleton.elim i 0, h0]; rfl
  have hl : ∀ t : ℝ, HasDerivAt (fun t : ℝ => x + t * u 0) (u 0) t := by
    intro t
    simpa using ((hasDerivAt_id t).mul_const (u 0)).const_add x
  have e0 : (fun t : ℝ => h ((toVec 1 [x] + t • u) 0)) = fun t => h (x + t * u 0) := by
    funext t
    simp [toVec]
  have e1 : deriv (fun t : ℝ => h (x + t * u 0)) = fun t => h1 (x + t * u 0) * u 0 := by
    funext t
    exact (HasDerivAt.comp t (hd _) (hl t)).deriv
  rw [e0, iteratedDeriv_succ, iteratedDeriv_one, e1]
  have h2 : HasDerivAt (fun t : ℝ => h1 (x + t * u 0) * u 0) (c * u 0 * u 0) 0 := by
    have : HasDerivAt h1 c (x + 0 * u 0) := by simpa using hd2
    exact (HasDerivAt.comp (0 : ℝ) this (hl 0)).mul_const (u 0)
  rw [h2.deriv, mul_assoc]
  exact mul_pos hc (mul_self_pos.mpr hu0)

end

end LRVB
