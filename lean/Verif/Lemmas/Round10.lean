import Verif.Lemmas.Round9
import Verif.Model.RoundNormal

/-!
# Rounding errors of the moments of normal distributions
-/

namespace LRVB

open Classical Flt

noncomputable section

namespace Binary64

theorem close_mul {a b c d ε δ : ℝ} (hb : 0 ≤ b) (hd : 0 ≤ d) (h1 : |a - b| ≤ ε * b) (h2 : |c - d| ≤ δ * d) :
    |a * c - b * d| ≤ (ε + δ + ε * δ) * (b * d) := by
  have h3 : a * c - b * d = (a - b) * (c - d) + (a - b) * d + b * (c - d) := by ring
  rw [h3]
  have t1 := abs_add_le ((a - b) * (c - d) + (a - b) * d) (b * (c - d))
  have t2 := abs_add_le ((a - b) * (c - d)) ((a - b) * d)
  rw [abs_mul, abs_of_nonneg hb] at t1
  rw [abs_mul, abs_mul, abs_of_nonneg hd] at t2
  have t3 : |a - b| * |c - d| ≤ (ε * b) * (δ * d) := mul_le_mul h1 h2 (abs_nonneg _) ((abs_nonneg _).trans h1)
  have t4 : |a - b| * d ≤ ε * b * d := mul_le_mul_of_nonneg_right h1 hd
  have t5 : b * |c - d| ≤ b * (δ * d) := mul_le_mul_of_nonneg_left h2 hb
  nlinarith

/-- `exp` of a number that is known up to an error. -/
theorem exp_close {a b δ : ℝ} (h : |a - b| ≤ δ) (hδ : δ ≤ 1) : |Real.exp a - Real.exp b| ≤ 2 * δ * Real.exp b := by
  have h1 : Real.exp a - Real.exp b = Real.exp b * (Real.exp (a - b) - 1) := by
    rw [mul_sub, ← Real.exp_add]
    ring_nf
  rw [h1, abs_mul, abs_of_pos (Real.exp_pos b), mul_comm]
  exact mul_le_mul_of_nonneg_right ((Real.abs_exp_sub_one_le (h.trans hδ)).trans (by linarith)) (Real.exp_pos b).le

theorem rep_half : Rep (1 / 2) := ⟨1, -1, by norm_num, by norm_num, by norm_num, by norm_num⟩

/-- `get_e_lognormal` without overflow and underflow. -/
theorem lognormal_rel {expR logR : ℝ → Flt} {sumR : List ℝ → Flt}
    (c : FloatContract (Binary64.ops expR logR sumR) (2 ^ 1024) (2 ^ (-1075 : ℤ))) {mu s B : ℝ}
    (h : |mu| + |s| / 2 ≤ B) (hB : B ≤ 700) :
    ∃ e, (Binary64.ops expR logR sumR).getELognormal (fin mu) (fin s) = fin e ∧ 0 < e ∧ Rep e ∧
      |e - Real.exp (mu + s / 2)| ≤ (8 * (B + 2) + 2) * ulp * Real.exp (mu + s / 2) := by
  have hu := ulp_pos
  have hu1 : ulp ≤ 1 / 100000000 := by rw [ulp_eq]; norm_num
  have hm := abs_nonneg mu
  have hs := abs_nonneg s
  have e0 : 1 / 2 * s = s / 2 := by ring
  have e1 : |s / 2| = |s| / 2 := by rw [abs_div]; norm_num
  obtain ⟨q, q1, q2, q3⟩ := (App.exact (b := s / 2) (M := |s| / 2 + 1) (by rw [e1]; linarith) (by linarith)).rnd le_rfl
    (by norm_num) (by norm_num; linarith)
  have q4 := App.add (m := 2) (App.exact (b := mu) (M := |mu| + 1) (by linarith) (by linarith)) q3 (by norm_num)
    (by norm_num)
  obtain ⟨a, a1, a2, a3⟩ := q4.rnd (by norm_num) (by norm_num) (by norm_num; linarith)
  have herr : |a - (mu + s / 2)| ≤ 4 * ulp * (B + 2) := by
    refine a3.err.trans ?_
    rw [show (2 : ℝ) + 2 = 4 by norm_num]
    exact mul_le_mul_of_nonneg_left (by linarith) (by positivity)
  have hB0 : 0 ≤ B := by linarith
  have hsmall : 4 * ulp * (B + 2) ≤ 1 / 1000 := by nlinarith
  have habs : |mu + s / 2| ≤ 700 := by
    have := abs_add_le mu (s / 2)
    rw [e1] at this
    linarith
  obtain ⟨h1, h2⟩ := abs_le.1 habs
  obtain ⟨h3, h4⟩ := abs_le.1 (herr.trans hsmall)
  obtain ⟨e, e2, e3, e4, -, e5⟩ := exp_error c (x := a) (by linarith) (by linarith)
  change |e - Real.exp a| ≤ ulp * Real.exp a at e5
  refine ⟨e, ?_, e3, e4, ?_⟩
  · have k1 : (Binary64.ops expR logR sumR).mul (fin (1 / 2)) (fin s) = fin q := by
      show rnd (1 / 2 * s) = fin q
      rw [e0]
      exact q1
    have k2 : (Binary64.ops expR logR sumR).add (fin mu) (fin q) = fin a := a1
    unfold FloatOps.getELognormal
    rw [k1, k2]
    exact e2
  · have h5 := exp_close herr (hsmall.trans (by norm_num))
    have hE := Real.exp_pos (mu + s / 2)
    set E := Real.exp (mu + s / 2) with hEdef
    have h6 : Real.exp a ≤ 2 * E := by
      have := (abs_le.1 h5).2
      nlinarith
    have h7 : |e - E| ≤ |e - Real.exp a| + |Real.exp a - E| := by
      have := abs_add_le (e - Real.exp a) (Real.exp a - E)
      rwa [sub_add_sub_cancel] at this
    have h8 : ulp * Real.exp a ≤ ulp * (2 * E) := mul_le_mul_of_nonneg_left h6 hu.le
    nlinarith

/-- The error of an operation that does not overflow, with the least positive number. -/
theorem rnd_error0 {x : ℝ} (hb : |x| < 2 ^ 1023) :
    ∃ r, rnd x = fin r ∧ Rep r ∧ |r - x| ≤ ulp * |x| + 2 ^ (-1074 : ℤ) := by
  obtain ⟨r, h, hr⟩ := rnd_finite hb.le
  refine ⟨r, h, hr, faithful_error_abs (f := r) hb ?_ ?_⟩
  · intro g hg hgl
    have := rnd_mono_le hg hgl
    rwa [h] at this
  · intro g hg hgl
    have := rnd_mono_ge hg hgl
    rwa [h] at this

/-- The square of the mean of a log-normal distribution. -/
theorem lognormal_square {expR logR : ℝ → Flt} {sumR : List ℝ → Flt}
    (c : FloatContract (Binary64.ops expR logR sumR) (2 ^ 1024) (2 ^ (-1075 : ℤ))) {mu s : ℝ}
    (h : |mu| + |s| ≤ 300) :
    ∃ q, (Binary64.ops expR logR sumR).square
        ((Binary64.ops expR logR sumR).getELognormal (fin mu) (fin s)) = fin q ∧ 0 < q ∧ Rep q ∧
      |q - Real.exp (2 * mu + s)| ≤ 4850 * ulp * Real.exp (2 * mu + s) := by
  have hm := abs_nonneg mu
  have hs := abs_nonneg s
  obtain ⟨e, e1, e2, -, e3⟩ := lognormal_rel c (mu := mu) (s := s) (B := 300) (by linarith) (by norm_num)
  have hu := ulp_pos
  have hu1 : ulp ≤ 1 / 100000000 := by rw [ulp_eq]; norm_num
  have hQ : Real.exp (mu + s / 2) * Real.exp (mu + s / 2) = Real.exp (2 * mu + s) := by
    rw [← Real.exp_add]; ring_nf
  have h1 := close_mul (Real.exp_pos _).le (Real.exp_pos _).le e3 e3
  rw [hQ] at h1
  obtain ⟨m1, m2⟩ := abs_le.1 (show |mu| ≤ 300 by linarith)
  obtain ⟨s1, s2⟩ := abs_le.1 (show |s| ≤ 300 by linarith)
  have hlo := exp_lower (x := 2 * mu + s) (by
    have := neg_abs_le mu
    have := neg_abs_le s
    linarith)
  have hhi := exp_upper (x := 2 * mu + s) (by
    have := le_abs_self mu
    have := le_abs_self s
    linarith)
  have hQ0 := Real.exp_pos (2 * mu + s)
  set Q := Real.exp (2 * mu + s) with hQd
  have h2 : |e * e - Q| ≤ 4838 * ulp * Q := by
    refine h1.trans (mul_le_mul_of_nonneg_right ?_ hQ0.le)
    nlinarith
  have h3 : 4838 * ulp * Q ≤ Q / 2 := by nlinarith
  obtain ⟨h4, h5⟩ := abs_le.1 (h2.trans h3)
  obtain ⟨q, q1, q2, q3⟩ := rnd_rel (x := e * e) (by
      have : (2 : ℝ) * 2 ^ (-1022 : ℤ) ≤ 2 ^ (-1011 : ℤ) := by
        rw [two_mul_zpow]; exact zpow_le (by norm_num)
      linarith) (by
      have : (2 : ℝ) * 2 ^ (1011 : ℤ) < 2 ^ 1023 := by
        rw [two_mul_zpow]; exact zpow_lt_max (by norm_num)
      exact lt_of_le_of_lt ((show e * e ≤ 2 * Q by linarith).trans (mul_le_mul_of_nonneg_left hhi zero_le_two)) this)
  unfold Rel at q3
  refine ⟨q, ?_, ?_, q2, ?_⟩
  · unfold FloatOps.square
    rw [e1]
    exact q1
  · have := (abs_le.1 q3).1
    nlinarith
  · have h6 : |q - Q| ≤ |q - e * e| + |e * e - Q| := by
      have := abs_add_le (q - e * e) (e * e - Q)
      rwa [sub_add_sub_cancel] at this
    have h7 : 1 * ulp * (e * e) ≤ 1 * ulp * (2 * Q) := mul_le_mul_of_nonneg_left (by linarith) (by linarith)
    nlinarith

/-- The double after 1. -/
theorem Rep.one_lt {x : ℝ} (h : Rep x) (h1 : 1 < x) : 1 + ulp ≤ x := by
  obtain ⟨m, e, hm, -, -, rfl⟩ := h
  by_cases he : -52 ≤ e
  · obtain ⟨k, rfl⟩ : ∃ k : ℕ, e = -52 + k := ⟨(e + 52).toNat, by omega⟩
    rw [zpow_add₀ two_ne_zero, zpow_natCast] at h1 ⊢
    have e1 : (m : ℝ) * (2 ^ (-52 : ℤ) * 2 ^ k) = ((m * 2 ^ k : ℤ) : ℝ) * ulp := by
      unfold ulp; push_cast; ring
    rw [e1] at h1 ⊢
    have e2 : (1 : ℝ) = ((2 ^ 52 : ℤ) : ℝ) * ulp := by rw [ulp_eq]; norm_num
    rw [e2] at h1
    have h2 := lt_of_mul_lt_mul_right h1 ulp_pos.le
    have h3 : (2 ^ 52 : ℤ) + 1 ≤ m * 2 ^ k := by exact_mod_cast h2
    have h4 : (((2 ^ 52 : ℤ) + 1 : ℤ) : ℝ) ≤ ((m * 2 ^ k : ℤ) : ℝ) := by exact_mod_cast h3
    have h5 := mul_le_mul_of_nonneg_right h4 ulp_pos.le
    rw [Int.cast_add, add_mul, ← e2, Int.cast_one, one_mul] at h5
    exact h5
  · exfalso
    have h2 : (2 : ℝ) ^ e ≤ 2 ^ (-53 : ℤ) := zpow_le (by omega)
    have h3 : (m : ℝ) < 2 ^ 53 := by
      have := (abs_lt.1 hm).2
      exact_mod_cast this
    have h4 := two_zpow_pos e
    rcases le_or_gt (m : ℝ) 0 with h5 | h5
    · nlinarith
    · have : (m : ℝ) * 2 ^ e ≤ 2 ^ 53 * 2 ^ (-53 : ℤ) := mul_le_mul h3.le h2 h4.le (by positivity)
      norm_num at this
      linarith

/-- `np.exp(s) - 1` for a very small positive number. -/
theorem expm1_small {expR logR : ℝ → Flt} {sumR : List ℝ → Flt}
    (c : FloatContract (Binary64.ops expR logR sumR) (2 ^ 1024) (2 ^ (-1075 : ℤ))) {s : ℝ} (h0 : 0 < s)
    (h : s ≤ 2 ^ (-54 : ℤ)) :
    (Binary64.ops expR logR sumR).sub ((Binary64.ops expR logR sumR).exp (fin s)) (fin 1) = fin 0 ∨
      (Binary64.ops expR logR sumR).sub ((Binary64.ops expR logR sumR).exp (fin s)) (fin 1) = fin ulp := by
  have h54 : (2 : ℝ) ^ (-54 : ℤ) = ulp / 4 := by rw [ulp_eq]; norm_num
  rw [h54] at h
  have hu := ulp_pos
  have hu1 := ulp_le
  have hrep : Rep (1 + ulp) := ⟨2 ^ 52 + 1, -52, by norm_num, by norm_num, by norm_num, by rw [ulp_eq]; norm_num⟩
  have hru : Rep ulp := rep_zpow (-52) (by norm_num) (by norm_num)
  have g1 : (1 : ℝ) ≤ Real.exp s := Real.one_le_exp h0.le
  have g2 : Real.exp s ≤ 1 + ulp := by
    have := Real.abs_exp_sub_one_le (x := s) (by rw [abs_of_pos h0]; linarith)
    rw [abs_of_pos h0] at this
    linarith [(abs_le.1 this).2]
  obtain ⟨E, hE, h1, h2⟩ := Flt.between_fin (c.exp_ge c.one g1) (c.exp_le hrep g2)
  have hrE : Rep E := c.rep_exp hE
  have key : (Binary64.ops expR logR sumR).sub ((Binary64.ops expR logR sumR).exp (fin s)) (fin 1) = rnd (E + -1) := by
    show (Binary64.ops expR logR sumR).sub (expR s) (fin 1) = _
    rw [show expR s = fin E from hE]
    rfl
  rw [key]
  rcases h1.eq_or_lt with h3 | h3
  · left
    rw [← h3, show (1 : ℝ) + -1 = 0 by norm_num]
    exact c.rnd_rep c.zero
  · right
    have h4 := hrE.one_lt h3
    rw [show E + -1 = ulp by linarith]
    exact rnd_rep hru

end Binary64

end

end LRVB
