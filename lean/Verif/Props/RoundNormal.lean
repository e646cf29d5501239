import Verif.Lemmas.Round10
import Verif.Lemmas.NormalDist
import Verif.Props.RoundLogistic

/-!
# C134: log-normal moments in floating point
-/

namespace LRVB

open Classical Flt ProbabilityTheory MeasureTheory

noncomputable section

/-- **C134** In double precision `get_e_lognormal(mu, sigma_sq)` is the mean of the log-normal distribution up to a
relative error of `2^-39`, unless it is close to overflow or underflow. -/
theorem C134_mean (expR logR : ℝ → Flt) (sumR : List ℝ → Flt)
    (c : FloatContract (Binary64.ops expR logR sumR) (2 ^ 1024) (2 ^ (-1075 : ℤ))) (mu s : ℝ) (hs : 0 ≤ s)
    (h : |mu| + s / 2 ≤ 700) :
    ∃ r, (Binary64.ops expR logR sumR).getELognormal (fin mu) (fin s) = fin r ∧ 0 < r ∧
      |r - ∫ x, Real.exp x ∂gaussianReal mu s.toNNReal| ≤
        2 ^ (-39 : ℤ) * ∫ x, Real.exp x ∂gaussianReal mu s.toNNReal := by
  obtain ⟨e, e1, e2, -, e3⟩ := Binary64.lognormal_rel c (mu := mu) (s := s) (B := 700)
    (by rwa [abs_of_nonneg hs]) le_rfl
  rw [integral_exp_gaussianReal, Real.coe_toNNReal _ hs]
  refine ⟨e, e1, e2, e3.trans (mul_le_mul_of_nonneg_right ?_ (Real.exp_pos _).le)⟩
  rw [Binary64.ulp_eq]
  norm_num

/-- The variance of a log-normal distribution. -/
theorem lognormal_variance {mu s : ℝ} (hs : 0 ≤ s) :
    Var[Real.exp; gaussianReal mu s.toNNReal] = (Real.exp s - 1) * Real.exp (2 * mu + s) := by
  rw [variance_exp_gaussianReal, Real.coe_toNNReal _ hs, pow_two, ← Real.exp_add]
  ring_nf

open Binary64 in
/-- **C134** `get_var_lognormal(mu, sigma_sq)` is the variance up to a relative error of `2^-39 (1 + 1 / sigma_sq)`:
the smaller `sigma_sq` the less of it is right. -/
theorem C134_variance_partial (expR logR : ℝ → Flt) (sumR : List ℝ → Flt)
    (c : FloatContract (Binary64.ops expR logR sumR) (2 ^ 1024) (2 ^ (-1075 : ℤ))) (mu s : ℝ) (hs : 0 < s)
    (h : |mu| + s ≤ 300) :
    ∃ r, (Binary64.ops expR logR sumR).getVarLognormal (fin mu) (fin s) = fin r ∧
      |r - Var[Real.exp; gaussianReal mu s.toNNReal]| ≤
        2 ^ (-39 : ℤ) * (1 + 1 / s) * Var[Real.exp; gaussianReal mu s.toNNReal] := by
  have hm := abs_nonneg mu
  have hu := ulp_pos
  have hu1 := ulp_le
  rw [lognormal_variance hs.le]
  obtain ⟨q, q1, q2, q3, q4⟩ := lognormal_square c (mu := mu) (s := s) (by rwa [abs_of_pos hs])
  obtain ⟨E, E1, E2, E3, -, E4⟩ := exp_error c (x := s) (by linarith) (by linarith)
  change |E - Real.exp s| ≤ ulp * Real.exp s at E4
  have hlo := exp_lower (x := s + (2 * mu + s)) (by
    have := neg_abs_le mu
    linarith)
  have hhi := exp_upper (x := s + (2 * mu + s)) (by
    have := le_abs_self mu
    linarith)
  have hhi2 := exp_upper (x := s) (by linarith)
  rw [Real.exp_add] at hlo hhi
  have hG : 1 ≤ Real.exp s := Real.one_le_exp hs.le
  have hG2 : Real.exp s ≤ (1 + 1 / s) * (Real.exp s - 1) := by
    have h1 : (1 + 1 / s) * (Real.exp s - 1) - Real.exp s = (Real.exp s - (s + 1)) / s := by field_simp; ring
    have h2 := Real.add_one_le_exp s
    have : 0 ≤ (Real.exp s - (s + 1)) / s := div_nonneg (by linarith) hs.le
    linarith
  have hQ0 := Real.exp_pos (2 * mu + s)
  set Q := Real.exp (2 * mu + s) with hQ
  set G := Real.exp s with hGd
  obtain ⟨E5, E6⟩ := abs_le.1 E4
  have hE : |E + -1| ≤ 2 * G := by
    rw [abs_le]
    constructor <;> nlinarith
  have h2G : 2 * G < 2 ^ 1023 := lt_of_le_of_lt (mul_le_mul_of_nonneg_left hhi2 zero_le_two)
    (by rw [two_mul_zpow]; exact zpow_lt_max (by norm_num))
  obtain ⟨f, f1, f2, f3⟩ := rnd_error (x := E + -1) (lt_of_le_of_lt hE h2G)
  clear h2G hhi2
  change |f - (E + -1)| ≤ ulp * |E + -1| + ulp / 256 at f3
  have f4 : |f - (G - 1)| ≤ 4 * ulp * G := by
    have h1 : |f - (G - 1)| ≤ |f - (E + -1)| + |E - G| := by
      have := abs_add_le (f - (E + -1)) (E - G)
      rwa [show f - (E + -1) + (E - G) = f - (G - 1) by ring] at this
    have h2 : ulp * |E + -1| ≤ ulp * (2 * G) := mul_le_mul_of_nonneg_left hE hu.le
    nlinarith
  have hW : G * Q ≤ (1 + 1 / s) * ((G - 1) * Q) := by
    rw [← mul_assoc]
    exact mul_le_mul_of_nonneg_right hG2 hQ0.le
  have hV0 : 0 ≤ (G - 1) * Q := mul_nonneg (by linarith) hQ0.le
  have hVW : (G - 1) * Q ≤ G * Q := mul_le_mul_of_nonneg_right (by linarith) hQ0.le
  have q5 : q ≤ 2 * Q := by
    have := (abs_le.1 q4).2
    have h5 : ulp ≤ 1 / 100000000 := by rw [ulp_eq]; norm_num
    nlinarith
  have p1 : |f * q - (G - 1) * Q| ≤ 4858 * ulp * (G * Q) := by
    have h1 : f * q - (G - 1) * Q = (f - (G - 1)) * q + (G - 1) * (q - Q) := by ring
    have h2 : |f * q - (G - 1) * Q| ≤ |f - (G - 1)| * q + (G - 1) * |q - Q| := by
      rw [h1]
      refine (abs_add_le _ _).trans (le_of_eq ?_)
      rw [abs_mul, abs_mul, abs_of_pos q2, abs_of_nonneg (show 0 ≤ G - 1 by linarith)]
    have h3 : |f - (G - 1)| * q ≤ 4 * ulp * G * (2 * Q) := mul_le_mul f4 q5 q2.le (by positivity)
    have h4 : (G - 1) * |q - Q| ≤ G * (4850 * ulp * Q) := mul_le_mul (by linarith) q4 (abs_nonneg _) (by linarith)
    nlinarith
  have hGQ : 0 < G * Q := by positivity
  have p2 : |f * q| ≤ 4 * (G * Q) := by
    have h1 := abs_sub_abs_le_abs_sub (f * q) ((G - 1) * Q)
    rw [abs_of_nonneg hV0] at h1
    have h5 : 4858 * ulp ≤ 1 := by rw [ulp_eq]; norm_num
    have h6 : 4858 * ulp * (G * Q) ≤ 1 * (G * Q) := mul_le_mul_of_nonneg_right h5 hGQ.le
    linarith
  have p3 : 4 * (G * Q) < 2 ^ 1023 := by
    refine lt_of_le_of_lt (mul_le_mul_of_nonneg_left hhi (by norm_num)) ?_
    rw [show (4 : ℝ) * 2 ^ (1011 : ℤ) = 2 * (2 * 2 ^ (1011 : ℤ)) by ring, two_mul_zpow, two_mul_zpow]
    exact zpow_lt_max (by norm_num)
  obtain ⟨r, r1, -, r3⟩ := rnd_error0 (x := f * q) (lt_of_le_of_lt p2 p3)
  clear p3
  have p4 : (2 : ℝ) ^ (-1074 : ℤ) ≤ ulp * (G * Q) := by
    refine le_trans ?_ (mul_le_mul_of_nonneg_left hlo hu.le)
    unfold ulp
    rw [← zpow_add₀ two_ne_zero]
    exact zpow_le (by norm_num)
  refine ⟨r, ?_, ?_⟩
  · have k1 : (Binary64.ops expR logR sumR).exp (fin s) = fin E := E1
    have k2 : (Binary64.ops expR logR sumR).sub (fin E) (fin 1) = fin f := f1
    unfold FloatOps.getVarLognormal
    rw [k1, k2, q1]
    exact r1
  · have h1 : |r - (G - 1) * Q| ≤ |r - f * q| + |f * q - (G - 1) * Q| := by
      have := abs_add_le (r - f * q) (f * q - (G - 1) * Q)
      rwa [sub_add_sub_cancel] at this
    have h2 : ulp * |f * q| ≤ ulp * (4 * (G * Q)) := mul_le_mul_of_nonneg_left p2 hu.le
    have h3 : |r - (G - 1) * Q| ≤ 8192 * ulp * (G * Q) := by
      generalize (2 : ℝ) ^ (-1074 : ℤ) = τ at *
      have : 0 ≤ ulp * (G * Q) := by positivity
      nlinarith
    refine h3.trans ?_
    rw [show (2 : ℝ) ^ (-39 : ℤ) = 8192 * ulp by rw [ulp_eq]; norm_num, mul_assoc _ (1 + 1 / s)]
    exact mul_le_mul_of_nonneg_left hW (by positivity)

open Binary64 in
/-- **C134** is false for the variance: for every `sigma_sq` up to `2^-54` the result has no correct digit (it is
zero, or more than twice too large, depending on how `np.exp` rounds). -/
theorem C134_small_counterexample (expR logR : ℝ → Flt) (sumR : List ℝ → Flt)
    (c : FloatContract (Binary64.ops expR logR sumR) (2 ^ 1024) (2 ^ (-1075 : ℤ))) (mu s : ℝ) (hs : 0 < s)
    (hs1 : s ≤ 2 ^ (-54 : ℤ)) (h : |mu| ≤ 299) :
    ∃ r, (Binary64.ops expR logR sumR).getVarLognormal (fin mu) (fin s) = fin r ∧
      0 < Var[Real.exp; gaussianReal mu s.toNNReal] ∧
      (r = 0 ∨ 2 * Var[Real.exp; gaussianReal mu s.toNNReal] ≤ r) := by
  have hu := ulp_pos
  have hu1 : ulp ≤ 1 / 100000000 := by rw [ulp_eq]; norm_num
  have h54 : (2 : ℝ) ^ (-54 : ℤ) = ulp / 4 := by rw [ulp_eq]; norm_num
  have hs2 := hs1
  rw [h54] at hs2
  rw [lognormal_variance hs.le]
  obtain ⟨q, q1, q2, q3, q4⟩ := lognormal_square c (mu := mu) (s := s) (by rw [abs_of_pos hs]; linarith)
  have hQ0 := Real.exp_pos (2 * mu + s)
  have hG : s < Real.exp s - 1 := by linarith [Real.add_one_lt_exp hs.ne']
  have hG2 : Real.exp s - 1 ≤ 2 * s := by
    have := Real.abs_exp_sub_one_le (x := s) (by rw [abs_of_pos hs]; linarith)
    rw [abs_of_pos hs] at this
    linarith [(abs_le.1 this).2]
  have hG3 : Real.exp s - 1 ≤ 5 / 4 * s := by
    have h1 := Real.abs_exp_sub_one_sub_id_le (x := s) (by rw [abs_of_pos hs]; linarith)
    have := (abs_le.1 h1).2
    nlinarith
  have hlo := exp_lower (x := 2 * mu + s) (by
    have := (abs_le.1 h).1
    linarith)
  have hhi := exp_upper (x := 2 * mu + s) (by
    have := (abs_le.1 h).2
    linarith)
  set Q := Real.exp (2 * mu + s) with hQ
  set G := Real.exp s with hGd
  have hpos : 0 < (G - 1) * Q := mul_pos (by linarith) hQ0
  rcases expm1_small c hs hs1 with h1 | h1
  · refine ⟨0, ?_, hpos, Or.inl rfl⟩
    unfold FloatOps.getVarLognormal
    rw [h1, q1]
    show rnd (0 * q) = fin 0
    rw [zero_mul]
    exact c.rnd_rep c.zero
  · obtain ⟨q5, q6⟩ := abs_le.1 q4
    have hq : 9 / 10 * Q ≤ q := by nlinarith
    have hq2 : q ≤ 2 * Q := by nlinarith
    obtain ⟨r, r1, -, r3⟩ := rnd_rel (x := ulp * q) (by
        have e1 : (2 : ℝ) ^ (-1022 : ℤ) ≤ ulp * (9 / 10 * 2 ^ (-960 : ℤ)) := by
          have : (2 : ℝ) ^ (-1022 : ℤ) * 2 ≤ ulp * 2 ^ (-960 : ℤ) := by
            unfold ulp
            rw [mul_comm, two_mul_zpow, ← zpow_add₀ two_ne_zero]
            exact zpow_le (by norm_num)
          have h0 : 0 < ulp * (2 : ℝ) ^ (-960 : ℤ) := by positivity
          generalize (2 : ℝ) ^ (-1022 : ℤ) = a at *
          generalize (2 : ℝ) ^ (-960 : ℤ) = b at *
          nlinarith
        have hlo' : (2 : ℝ) ^ (-960 : ℤ) ≤ Q := by
          rw [hQ, ← Real.log_le_iff_le_exp (two_zpow_pos _), Real.log_zpow]
          have := Real.log_two_gt_d9
          have := (abs_le.1 h).1
          push_cast
          linarith
        refine e1.trans (mul_le_mul_of_nonneg_left (le_trans ?_ hq) hu.le)
        exact mul_le_mul_of_nonneg_left hlo' (by norm_num)) (by
        have e1 : ulp * q ≤ 2 * 2 ^ (1011 : ℤ) := by
          have : ulp * q ≤ 1 * q := mul_le_mul_of_nonneg_right (by linarith) q2.le
          refine (this.trans (by linarith : 1 * q ≤ 2 * Q)).trans (mul_le_mul_of_nonneg_left hhi zero_le_two)
        refine lt_of_le_of_lt e1 ?_
        rw [two_mul_zpow]; exact zpow_lt_max (by norm_num))
    refine ⟨r, ?_, hpos, Or.inr ?_⟩
    · unfold FloatOps.getVarLognormal
      rw [h1, q1]
      exact r1
    · unfold Binary64.Rel at r3
      have r4 := (abs_le.1 r3).1
      have h2 : ulp * (9 / 10 * Q) ≤ ulp * q := mul_le_mul_of_nonneg_left hq hu.le
      have h3 : 0 ≤ ulp * q := by positivity
      have h4 : 1 * ulp * (ulp * q) ≤ 1 / 100 * (ulp * q) :=
        mul_le_mul_of_nonneg_right (by linarith) h3
      have h5 : (G - 1) * Q ≤ 5 / 4 * (ulp / 4) * Q := mul_le_mul_of_nonneg_right (by linarith) hQ0.le
      nlinarith

open Binary64 in
/-- **C134** is false for the variance: for a large mean and a small `sigma_sq` the square overflows, although the
variance is moderate: with `mu = 500` and `sigma_sq = 2^-1000` it is less than `2^500`, but the result is not
finite. -/
theorem C134_overflow_counterexample (expR logR : ℝ → Flt) (sumR : List ℝ → Flt)
    (c : FloatContract (Binary64.ops expR logR sumR) (2 ^ 1024) (2 ^ (-1075 : ℤ))) :
    (∀ r, (Binary64.ops expR logR sumR).getVarLognormal (fin 500) (fin (2 ^ (-1000 : ℤ))) ≠ fin r) ∧
      Var[Real.exp; gaussianReal 500 ((2 : ℝ) ^ (-1000 : ℤ)).toNNReal] ≤ 2 ^ 500 := by
  have hs : (0 : ℝ) < 2 ^ (-1000 : ℤ) := two_zpow_pos _
  have hs1 : (2 : ℝ) ^ (-1000 : ℤ) ≤ 2 ^ (-54 : ℤ) := zpow_le (by norm_num)
  have hs2 : (2 : ℝ) ^ (-1000 : ℤ) ≤ 1 / 4 := hs1.trans (by norm_num)
  have l1 := Real.log_two_gt_d9
  have l2 := Real.log_two_lt_d9
  constructor
  · intro r
    obtain ⟨e, e1, e2, -, e3⟩ := lognormal_rel c (mu := 500) (s := 2 ^ (-1000 : ℤ)) (B := 501)
      (by
        rw [abs_of_pos hs, abs_of_pos (by norm_num : (0 : ℝ) < 500)]
        generalize (2 : ℝ) ^ (-1000 : ℤ) = s at *
        linarith) (by norm_num)
    have hover : (Binary64.ops expR logR sumR).square (fin e) = pinf := by
      show rnd (e * e) = pinf
      apply rnd_over
      have hA : (2 : ℝ) ^ 600 ≤ Real.exp (500 + 2 ^ (-1000 : ℤ) / 2) := by
        rw [← Real.log_le_iff_le_exp (by positivity), Real.log_pow]
        generalize (2 : ℝ) ^ (-1000 : ℤ) = s at *
        push_cast
        linarith
      set A := Real.exp (500 + 2 ^ (-1000 : ℤ) / 2) with hAd
      have hA0 : 0 < A := Real.exp_pos _
      have h1 : A / 2 ≤ e := by
        have h2 := (abs_le.1 e3).1
        have h3 : (8 * ((501 : ℝ) + 2) + 2) * ulp ≤ 1 / 2 := by rw [ulp_eq]; norm_num
        have h4 := mul_le_mul_of_nonneg_right h3 hA0.le
        linarith
      have h5 : (2 : ℝ) ^ 599 ≤ e := by
        refine le_trans ?_ h1
        rw [le_div_iff₀ two_pos, ← pow_succ]
        exact hA
      have h6 : (2 : ℝ) ^ 599 * 2 ^ 599 ≤ e * e := mul_le_mul h5 h5 (by positivity) e2.le
      rw [← pow_add] at h6
      exact (pow_le_pow_right₀ one_le_two (by norm_num)).trans h6
    unfold FloatOps.getVarLognormal
    rw [e1, hover]
    rcases expm1_small c hs hs1 with h1 | h1
    · rw [h1]
      show (Binary64.ops expR logR sumR).round (Flt.infMul 0) ≠ _
      simp [Flt.infMul, FloatOps.round]
    · rw [h1]
      show (Binary64.ops expR logR sumR).round (Flt.infMul ulp) ≠ _
      simp [Flt.infMul, FloatOps.round, ulp_pos]
  · rw [lognormal_variance hs.le]
    have hG2 : Real.exp (2 ^ (-1000 : ℤ)) - 1 ≤ 2 * 2 ^ (-1000 : ℤ) := by
      have := Real.abs_exp_sub_one_le (x := 2 ^ (-1000 : ℤ)) (by
        rw [abs_of_pos hs]
        generalize (2 : ℝ) ^ (-1000 : ℤ) = s at *
        linarith)
      rw [abs_of_pos hs] at this
      exact (abs_le.1 this).2
    have hG : Real.exp (2 * 500 + 2 ^ (-1000 : ℤ)) ≤ 2 ^ (1445 : ℤ) := by
      rw [← Real.le_log_iff_exp_le (two_zpow_pos _), Real.log_zpow]
      generalize (2 : ℝ) ^ (-1000 : ℤ) = s at *
      push_cast
      linarith
    refine (mul_le_mul hG2 hG (Real.exp_pos _).le (by positivity)).trans ?_
    rw [two_mul_zpow, ← zpow_add₀ two_ne_zero, ← zpow_natCast]
    exact zpow_le (by norm_num)

/-- The hypotheses: double precision with correctly rounded functions, mean 1 and variance 1/2. -/
example : ∃ r, Binary64.ideal.getVarLognormal (fin 1) (fin (1 / 2)) = fin r ∧
    |r - Var[Real.exp; gaussianReal 1 (1 / 2 : ℝ).toNNReal]| ≤
      2 ^ (-39 : ℤ) * (1 + 1 / (1 / 2)) * Var[Real.exp; gaussianReal 1 (1 / 2 : ℝ).toNNReal] :=
  C134_variance_partial _ _ _ Binary64.contract 1 (1 / 2) (by norm_num) (by norm_num)

end

end LRVB
