import Verif.Props.Normal

/-!
# C122: moments of a constant
-/

namespace LRVB

open Arr Families MeasureTheory ProbabilityTheory

noncomputable section

/-- **C122** After any history of calls on a `UVNMomentParamArray`, `set_from_constant(par)` with an array
parameter of the same shape succeeds, and then the mean is the value of that parameter, the second moment
its square, the variance zero and the mean of the exponential the exponential of the value: the moments of
a random variable that is equal to the value. -/
theorem C122_set_from_constant (name : String) (sh : List ℕ) (minInfo : ℝ) (s0 : Shaped)
    (hs : mkUVNMomentArray name sh minInfo = .ok s0) (ops : List ParamOp) (l : Leaf) (lb ub : Flt)
    (hl : l.kind = .array sh lb ub) (ha : IsArr l.get sh) :
    ∃ q, setFromConstant ⟨s0.par.run ops, s0.shape⟩ l = (q, none) ∧ q.shape = sh ∧
      momE q.par = .ok l.get ∧
      momEOuter q.par = .ok (ofFn sh fun idx => ∫ x, x ^ 2 ∂Measure.dirac (l.get.get idx)) ∧
      momVar q.par = .ok (ofFn sh fun idx => Var[fun x => x; Measure.dirac (l.get.get idx)]) ∧
      momEExp q.par = .ok (ofFn sh fun idx => ∫ x, Real.exp x ∂Measure.dirac (l.get.get idx)) := by
  have b1 : (Flt.ninf : Flt) < Flt.pinf := by simp
  have b2 : (Flt.fin minInfo : Flt) < Flt.pinf := by simp
  have hne : ("e" : String) ≠ "e2" := by decide
  obtain ⟨l1, m1, n1, k1⟩ := mkArray_kind (name := "e") (s := sh) b1
  obtain ⟨l2, m2, n2, k2⟩ := mkArray_kind (name := "e2") (s := sh) b2
  have hp := pair_push name (l1 := l1) (l2 := l2) (by rw [n1, n2]; exact hne)
  rw [n1, n2, k1, k2] at hp
  unfold mkUVNMomentArray at hs
  rw [m1, m2] at hs
  simp only [py_ok_bind, Except.ok.injEq] at hs
  subst hs
  have hsq : l.get.map (· ^ 2) = ofFn sh fun idx => l.get.get idx ^ 2 := map_arr ha _
  obtain ⟨q, r, s1, s2, s3, s4⟩ := (hp.run ops).set_array hne ha.2
    (show (ofFn sh fun idx => l.get.get idx ^ 2).shape = sh from rfl)
  have hvar : momVar r = .ok (ofFn sh fun _ => 0) := by
    unfold momVar minus
    rw [s3.item, s4.item, py_ok_bind, py_ok_bind, hsq, bin_ofFn]
    congr 1
    exact ofFn_congr fun idx hi => by ring
  refine ⟨⟨r, sh⟩, ?_, rfl, s3.item, ?_, ?_, ?_⟩
  · unfold setFromConstant
    rw [hl]
    simp only [ne_eq, not_true_eq_false, if_false, setTwo, s1, hsq, s2]
  · refine (s4.item).trans ?_
    congr 1
    exact ofFn_congr fun idx hi => by rw [integral_dirac]
  · rw [hvar]
    congr 1
    exact ofFn_congr fun idx hi => by rw [variance_dirac]
  · show momEExp r = _
    unfold momEExp
    rw [s3.item, hvar, py_ok_bind, py_ok_bind, arr_eq ha, getELognormal_ofFn]
    congr 1
    exact ofFn_congr fun idx hi => by rw [integral_dirac, get_ofFn _ hi]; simp

/-- **C122** With a parameter of another shape the call raises and changes nothing. -/
theorem C122_other_shape (s : Shaped) (l : Leaf) (sh : List ℕ) (lb ub : Flt) (hl : l.kind = .array sh lb ub)
    (hne : sh ≠ s.shape) : setFromConstant s l = (s, some .assertionError) := by
  unfold setFromConstant
  rw [hl]
  simp [hne]

/-- The hypotheses: a parameter of shape `(2,)` holding 1 and 3. -/
example : ∃ (s0 : Shaped) (l : Leaf) (lb ub : Flt), mkUVNMomentArray "m" [2] 0 = .ok s0 ∧
    l.kind = .array [2] lb ub ∧ IsArr l.get [2] ∧ l.get.get [1] = 3 := by
  have b1 : (Flt.ninf : Flt) < Flt.pinf := by simp
  have b2 : (Flt.fin 0 : Flt) < Flt.pinf := by simp
  obtain ⟨l3, m3, n3, k3⟩ := mkArray_kind (name := "e") (s := [2]) b1
  obtain ⟨l4, m4, -, -⟩ := mkArray_kind (name := "e2") (s := [2]) b2
  refine ⟨_, { l3 with val := ⟨[2], [1, 3]⟩ }, _, _, by unfold mkUVNMomentArray; rw [m3, m4]; rfl, k3, ⟨rfl, rfl⟩, ?_⟩
  simp [Leaf.get, Arr.get, flat]

end

end LRVB
