import Verif.Lemmas.Round6
import Verif.Props.Round

/-!
# C109 with bounds
-/

namespace LRVB

open Flt

noncomputable section

/-- **C109** for parameters with a lower bound: in double precision the round trip is accurate, as long as the
increment `exp(x)` to the bound is not lost. -/
theorem C109_lower_partial (expR logR : ℝ → Flt) (sumR : List ℝ → Flt)
    (c : FloatContract (Binary64.ops expR logR sumR) (2 ^ 1024) (2 ^ (-1075 : ℤ))) (x lb : ℝ)
    (hx1 : -700 ≤ x) (hx2 : x ≤ 700) (hl : |lb| ≤ 2 ^ 1000) (hk : |lb| * Real.exp (-x) ≤ 2 ^ 45) :
    ∃ v y, (Binary64.ops expR logR sumR).constrain (fin x) (fin lb) pinf = .ok (fin v) ∧
      (Binary64.ops expR logR sumR).unconstrainScalar (fin v) (fin lb) pinf = .ok (fin y) ∧
      |y - x| ≤ 2 ^ (-48 : ℤ) * (|x| + 1 + |lb| * Real.exp (-x)) := by
  obtain ⟨e, v, a, y, he, hv, hlv, ha, ha0, hy, -, herr⟩ := Binary64.shift_error c hx1 hx2 hl hk
  clear hl
  set o := Binary64.ops expR logR sumR with ho
  have h1 : o.exp (fin x) = fin e := he
  have h2 : o.add (fin e) (fin lb) = fin v := hv
  have h3 : o.sub (fin v) (fin lb) = fin a := ha
  have h4 : o.log (fin a) = fin y := by
    show (if 0 < a then o.logR a else Flt.log (fin a)) = fin y
    rw [if_pos ha0]
    exact hy
  refine ⟨v, y, ?_, ?_, herr⟩
  · simp only [FloatOps.constrain, Flt.eq, h1, h2]
    simp
  · simp only [FloatOps.unconstrainScalar, FloatOps.unconstrain, Flt.eq, h3, h4]
    simp [hlv.le]

/-- **C109** for parameters with an upper bound. -/
theorem C109_upper_partial (expR logR : ℝ → Flt) (sumR : List ℝ → Flt)
    (c : FloatContract (Binary64.ops expR logR sumR) (2 ^ 1024) (2 ^ (-1075 : ℤ))) (x ub : ℝ)
    (hr : Binary64.Rep x) (hx1 : -700 ≤ x) (hx2 : x ≤ 700) (hl : |ub| ≤ 2 ^ 1000)
    (hk : |ub| * Real.exp x ≤ 2 ^ 45) :
    ∃ v y, (Binary64.ops expR logR sumR).constrain (fin x) ninf (fin ub) = .ok (fin v) ∧
      (Binary64.ops expR logR sumR).unconstrainScalar (fin v) ninf (fin ub) = .ok (fin y) ∧
      |y - x| ≤ 2 ^ (-48 : ℤ) * (|x| + 1 + |ub| * Real.exp x) := by
  obtain ⟨e, v, a, y, he, hv, hlv, ha, ha0, hy, hry, herr⟩ := Binary64.shift_error c (x := -x) (l := -ub)
    (by linarith) (by linarith) (by rwa [abs_neg]) (by rwa [abs_neg, neg_neg])
  clear hl
  set o := Binary64.ops expR logR sumR with ho
  have h0 : o.mul (fin (-1)) (fin x) = fin (-x) := by
    show Binary64.rnd (-1 * x) = fin (-x)
    rw [neg_one_mul]
    exact c.rnd_rep (c.neg hr)
  have h1 : o.exp (fin (-x)) = fin e := he
  have h2 : o.sub (fin ub) (fin e) = fin (-v) := by
    show Binary64.rnd (ub + -e) = fin (-v)
    rw [show ub + -e = -(e + -ub) by ring]
    have := c.rnd_neg (x := e + -ub)
    rw [show o.rnd (e + -ub) = fin v from hv] at this
    exact this
  have h3 : o.sub (fin ub) (fin (-v)) = fin a := by
    show Binary64.rnd (ub + - -v) = fin a
    rw [show ub + - -v = v - -ub by ring]
    exact ha
  have h4 : o.log (fin a) = fin y := by
    show (if 0 < a then o.logR a else Flt.log (fin a)) = fin y
    rw [if_pos ha0]
    exact hy
  have h5 : o.mul (fin (-1)) (fin y) = fin (-y) := by
    show Binary64.rnd (-1 * y) = fin (-y)
    rw [neg_one_mul]
    exact c.rnd_rep (c.neg hry)
  refine ⟨-v, -y, ?_, ?_, ?_⟩
  · simp only [FloatOps.constrain, Flt.eq, h0, h1, h2]
    simp
  · simp only [FloatOps.unconstrainScalar, FloatOps.unconstrain, Flt.eq, h3, h4, h5]
    have : -v ≤ ub := by linarith
    simp [this]
  · rw [abs_neg, abs_neg, neg_neg] at herr
    rw [show -y - x = -(y - -x) by ring, abs_neg]
    exact herr

/-- **C109** for parameters with two bounds: in double precision the round trip is accurate up to the condition
number of the transform, as long as the value can be told from the bounds. -/
theorem C109_two_sided_partial (expR logR : ℝ → Flt) (sumR : List ℝ → Flt)
    (c : FloatContract (Binary64.ops expR logR sumR) (2 ^ 1024) (2 ^ (-1075 : ℤ))) (x lb ub : ℝ)
    (hw : 2 ^ (-900 : ℤ) ≤ ub - lb) (hM : max |lb| |ub| ≤ 2 ^ (900 : ℤ))
    (hk : max |lb| |ub| / (ub - lb) * ((1 + Real.exp x) * (1 + Real.exp (-x))) ≤ 2 ^ 45) :
    ∃ v y, (Binary64.ops expR logR sumR).constrain (fin x) (fin lb) (fin ub) = .ok (fin v) ∧
      lb < v ∧ v < ub ∧
      (Binary64.ops expR logR sumR).unconstrainScalar (fin v) (fin lb) (fin ub) = .ok (fin y) ∧
      |y - x| ≤ 2 ^ (-45 : ℤ) *
        (|x| + |Real.log (ub - lb)| + max |lb| |ub| / (ub - lb) * ((1 + Real.exp x) * (1 + Real.exp (-x)))) := by
  obtain ⟨w', e, p, q, d, v, a, b, ya, yb, y, h1, h2, h3, h4, hq, h5, h6, hlv, hvu, h7, ha0, h8, hb0, h9, h10, h11,
    herr⟩ := Binary64.logit_error c hw hM hk
  have hlu : lb < ub := hlv.trans hvu
  clear hw hM
  set o := Binary64.ops expR logR sumR with ho
  have k1 : o.sub (fin ub) (fin lb) = fin w' := h1
  have k2 : o.exp (fin x) = fin e := h2
  have k3 : o.mul (fin w') (fin e) = fin p := h3
  have k4 : o.add (fin 1) (fin e) = fin q := h4
  have k5 : o.div (fin p) (fin q) = fin d := by
    show o.round (Flt.div (fin p) (fin q)) = fin d
    simp only [Flt.div, if_neg hq.ne']
    exact h5
  have k6 : o.add (fin d) (fin lb) = fin v := h6
  have k7 : o.sub (fin v) (fin lb) = fin a := h7
  have k8 : o.sub (fin ub) (fin v) = fin b := h8
  have k9 : o.log (fin a) = fin ya := by
    show (if 0 < a then o.logR a else Flt.log (fin a)) = fin ya
    rw [if_pos ha0]
    exact h9
  have k10 : o.log (fin b) = fin yb := by
    show (if 0 < b then o.logR b else Flt.log (fin b)) = fin yb
    rw [if_pos hb0]
    exact h10
  have k11 : o.sub (fin ya) (fin yb) = fin y := h11
  refine ⟨v, y, ?_, hlv, hvu, ?_, herr⟩
  · simp only [FloatOps.constrain, Flt.eq, k1, k2, k3, k4, k5, k6]
    simp [hlu]
  · simp only [FloatOps.unconstrainScalar, FloatOps.unconstrain, Flt.eq, k7, k8, k9, k10, k11]
    simp [hlv.le, hvu.le, hlu]

/-- **C109** for probabilities: with the bounds 0 and 1 the error is small for all negative free values too. -/
theorem C109_unit_interval_partial (expR logR : ℝ → Flt) (sumR : List ℝ → Flt)
    (c : FloatContract (Binary64.ops expR logR sumR) (2 ^ 1024) (2 ^ (-1075 : ℤ))) (x : ℝ)
    (hx1 : -700 ≤ x) (hx2 : x ≤ 30) :
    ∃ v y, (Binary64.ops expR logR sumR).constrain (fin x) (fin 0) (fin 1) = .ok (fin v) ∧ 0 < v ∧ v < 1 ∧
      (Binary64.ops expR logR sumR).unconstrainScalar (fin v) (fin 0) (fin 1) = .ok (fin y) ∧
      |y - x| ≤ 2 ^ (-47 : ℤ) * (|x| + 1 + Real.exp x) := by
  obtain ⟨e, q, v, a, b, ya, yb, y, h2, hre, h4, hq, h5, hrv, hlv, hvu, h7, ha0, h8, hb0, h9, h10, h11,
    herr⟩ := Binary64.unit_error c hx1 hx2
  set o := Binary64.ops expR logR sumR with ho
  have k1 : o.sub (fin 1) (fin 0) = fin 1 := by
    show Binary64.rnd (1 + -0) = fin 1
    rw [neg_zero, add_zero]
    exact c.rnd_rep c.one
  have k2 : o.exp (fin x) = fin e := h2
  have k3 : o.mul (fin 1) (fin e) = fin e := by
    show Binary64.rnd (1 * e) = fin e
    rw [one_mul]
    exact c.rnd_rep hre
  have k4 : o.add (fin 1) (fin e) = fin q := h4
  have k5 : o.div (fin e) (fin q) = fin v := by
    show o.round (Flt.div (fin e) (fin q)) = fin v
    simp only [Flt.div, if_neg hq.ne']
    exact h5
  have k6 : o.add (fin v) (fin 0) = fin v := by
    show Binary64.rnd (v + 0) = fin v
    rw [add_zero]
    exact c.rnd_rep hrv
  have k7 : o.sub (fin v) (fin 0) = fin a := h7
  have k8 : o.sub (fin 1) (fin v) = fin b := h8
  have k9 : o.log (fin a) = fin ya := by
    show (if 0 < a then o.logR a else Flt.log (fin a)) = fin ya
    rw [if_pos ha0]
    exact h9
  have k10 : o.log (fin b) = fin yb := by
    show (if 0 < b then o.logR b else Flt.log (fin b)) = fin yb
    rw [if_pos hb0]
    exact h10
  have k11 : o.sub (fin ya) (fin yb) = fin y := h11
  refine ⟨v, y, ?_, hlv, hvu, ?_, herr⟩
  · simp only [FloatOps.constrain, Flt.eq, k1, k2, k3, k4, k5, k6]
    simp
  · simp only [FloatOps.unconstrainScalar, FloatOps.unconstrain, Flt.eq, k7, k8, k9, k10, k11]
    simp [hlv.le, hvu.le]

/-- The hypotheses: a lower bound 1 and free value 2, an upper bound 5 and free value -3, the bounds -1 and 3 and
free value 2. -/
example : ((-700 : ℝ) ≤ 2 ∧ |(1 : ℝ)| ≤ 2 ^ 1000 ∧ |(1 : ℝ)| * Real.exp (-2) ≤ 2 ^ 45) ∧
    (|(5 : ℝ)| ≤ 2 ^ 1000 ∧ |(5 : ℝ)| * Real.exp (-3) ≤ 2 ^ 45 ∧ Binary64.Rep (-3)) ∧
    ((2 : ℝ) ^ (-900 : ℤ) ≤ 3 - -1 ∧ max |(-1 : ℝ)| |3| ≤ 2 ^ (900 : ℤ) ∧
      max |(-1 : ℝ)| |3| / (3 - -1) * ((1 + Real.exp 2) * (1 + Real.exp (-2))) ≤ 2 ^ 45) := by
  have h0 : ∀ x : ℝ, x ≤ 0 → Real.exp x ≤ 1 := fun x hx => Real.exp_le_one_iff.2 hx
  have h1 : (2 : ℝ) ^ 3 ≤ 2 ^ 1000 := pow_le_pow_right₀ one_le_two (by norm_num)
  have h2 : (2 : ℝ) ^ (3 : ℤ) ≤ 2 ^ (900 : ℤ) := Binary64.zpow_le (by norm_num)
  have h3 : (2 : ℝ) ^ (-900 : ℤ) ≤ 2 ^ (0 : ℤ) := Binary64.zpow_le (by norm_num)
  have e2 : Real.exp 2 ≤ 9 := by
    have h := Real.exp_one_lt_d9
    have h' := Real.exp_pos 1
    have : Real.exp 2 = Real.exp 1 * Real.exp 1 := by rw [← Real.exp_add]; norm_num
    rw [this]
    nlinarith
  have a := h0 (-2) (by norm_num)
  have b := h0 (-3) (by norm_num)
  refine ⟨⟨by norm_num, le_trans (by norm_num) h1, ?_⟩, ⟨le_trans (by norm_num) h1, ?_, ?_⟩,
    h3.trans (by norm_num), le_trans (by norm_num) h2, ?_⟩
  · clear h1 h2 h3; rw [abs_one]; norm_num; linarith
  · clear h1 h2 h3; rw [abs_of_pos (by norm_num)]; norm_num; linarith
  · exact ⟨-3, 0, by norm_num, by norm_num, by norm_num, by norm_num⟩
  · clear h1 h2 h3
    rw [show max |(-1 : ℝ)| |3| = 3 by norm_num]
    have := mul_le_mul (show 1 + Real.exp 2 ≤ 10 by linarith) (show 1 + Real.exp (-2) ≤ 2 by linarith)
      (by positivity) (by norm_num)
    norm_num at this ⊢
    linarith

end

end LRVB
