import Verif.Props.Dirichlet

/-!
# Gamma parameters: C85
-/

namespace LRVB

open Arr ExpFam Families MeasureTheory ProbabilityTheory

noncomputable section

/-- **C85** The methods of `GammaParam` return the mean, the mean of the logarithm and the
differential entropy of the gamma distribution with the held shape and rate (the sum of the entropies
when arrays are held). -/
theorem C85_gamma_moments (p : Param) (s : List ℕ) (a r : Arr) (h : HoldsGammas p s a r) :
    gammaE p = .ok (ofFn s fun idx => ∫ x, x ∂gammaMeasure (a.get idx) (r.get idx)) ∧
    gammaELog p = .ok (ofFn s fun idx => ∫ x, Real.log x ∂gammaMeasure (a.get idx) (r.get idx)) ∧
    gammaParEntropy p = .ok (((indexProduct s).map fun idx =>
      diffEntropy (gammaPDFReal (a.get idx) (r.get idx))).sum) := by
  have ha := h.shape_arr
  have hr := h.rate_arr
  refine ⟨?_, ?_, ?_⟩
  · unfold gammaE
    rw [h.shape.item, h.rate.item, py_ok_bind, py_ok_bind, div_eq hr.ne_zero]
    conv_lhs => rw [arr_eq ha.1, arr_eq hr.1]
    rw [bin_ofFn]
    congr 1
    refine ofFn_congr fun idx hi => ?_
    rw [integral_gammaMeasure (ha.2 idx hi) (hr.2 idx hi), gamma_mean (ha.2 idx hi) (hr.2 idx hi)]
  · unfold gammaELog getELogGamma minus
    rw [h.shape.item, h.rate.item, py_ok_bind, py_ok_bind]
    conv_lhs => rw [arr_eq ha.1, arr_eq hr.1]
    rw [digamma_ofFn ha.2, log_ofFn hr.2, py_ok_bind, py_ok_bind, bin_ofFn]
    congr 1
    refine ofFn_congr fun idx hi => ?_
    rw [integral_gammaMeasure (ha.2 idx hi) (hr.2 idx hi),
      gamma_log_mean (ha.2 idx hi) (hr.2 idx hi)]
  · unfold gammaParEntropy gammaEntropy minus mul add
    rw [h.shape.item, h.rate.item, py_ok_bind, py_ok_bind]
    conv_lhs => rw [arr_eq ha.1, arr_eq hr.1]
    rw [digamma_ofFn ha.2, log_ofFn hr.2, gammaln_ofFn ha.2]
    simp only [py_ok_bind, bin_ofFn, bin_scalar_left]
    rw [show (ofFn (ofFn s a.get).shape fun idx => (1 : ℝ) - (ofFn s a.get).get idx) =
      ofFn s fun idx => 1 - a.get idx from
        ofFn_congr (s := s) fun idx hi => by rw [get_ofFn _ hi]]
    simp only [py_ok_bind, bin_ofFn, sumAll_ofFn]
    congr 2
    refine List.map_congr_left fun idx hi => ?_
    have hi := mem_indexProduct.1 hi
    rw [diffEntropy, entropy_gamma (ha.2 idx hi) (hr.2 idx hi)]

/-- **C85** The hypotheses hold: after any history of calls on a `GammaParam` constructed with
nonnegative lower bounds, `set_free` with two numbers succeeds and leaves a positive shape and a
positive rate. -/
theorem C85_after_set_free (name : String) (minShape minRate : ℝ) (h1 : 0 ≤ minShape)
    (h2 : 0 ≤ minRate) (ops : List ParamOp) :
    ∃ p, mkGamma name minShape minRate = .ok p ∧ p.freeSize = 2 ∧ ∀ x, x.length = 2 →
      ∃ q a r, (p.run ops).setFree x = (q, none) ∧ HoldsGammas q [1] a r := by
  have b1 : (Flt.fin minShape : Flt) < Flt.pinf := by simp
  have b2 : (Flt.fin minRate : Flt) < Flt.pinf := by simp
  have hne : ("shape" : String) ≠ "rate" := by decide
  obtain ⟨l1, m1, n1, k1⟩ := mkScalar_kind (name := "shape") b1
  obtain ⟨l2, m2, n2, k2⟩ := mkScalar_kind (name := "rate") b2
  have hp := pair_push name (l1 := l1) (l2 := l2) (by rw [n1, n2]; exact hne)
  rw [n1, n2, k1, k2] at hp
  refine ⟨_, by unfold mkGamma; rw [m1, m2]; rfl, hp.freeSize, fun x hx => ?_⟩
  obtain ⟨q, a, b, e1, e2, e3, e4, e5⟩ := (hp.run ops).setFree hne
    (P1 := fun a => Inside a [1] (Flt.fin minShape) Flt.pinf)
    (P2 := fun a => Inside a [1] (Flt.fin minRate) Flt.pinf)
    (fun l hk x hx => setFree_scalar hk b1 hx) (fun l hk x hx => setFree_scalar hk b2 hx)
    (x := x) (by rw [(hp.run ops).freeSize]; exact hx)
  exact ⟨q, a, b, e1, e2, e4, e3.pos h1, e5.pos h2⟩

/-- A `GammaParam`, after a call that fails and `set_free`. -/
example : ∃ p q a r, mkGamma "g" 0 0.5 = .ok p ∧
    (p.run [.setFree [1]]).setFree [0.3, -2] = (q, none) ∧ HoldsGammas q [1] a r := by
  obtain ⟨p, h1, -, h2⟩ := C85_after_set_free "g" 0 0.5 le_rfl (by norm_num) [.setFree [1]]
  obtain ⟨q, a, r, h3, h4⟩ := h2 [0.3, -2] rfl
  exact ⟨p, q, a, r, h1, h3, h4⟩

end

end LRVB
