import Verif.Spec.RoundLogistic
import Verif.Lemmas.Round6

/-!
# The logistic terms in floating point
-/

namespace LRVB

open Classical Flt

noncomputable section

theorem logLogistic_eq (x : ℝ) : logLogistic x = -Real.log (1 + Real.exp (-x)) := by
  unfold logLogistic
  rw [one_div, Real.log_inv]

theorem negLogOneMinusLogistic_eq (x : ℝ) : negLogOneMinusLogistic x = Real.log (1 + Real.exp x) := by
  unfold negLogOneMinusLogistic
  have h : 0 < Real.exp (-x) := Real.exp_pos _
  rw [← Real.log_inv]
  congr 1
  rw [Real.exp_neg]
  have := Real.exp_pos x
  field_simp
  ring

namespace Binary64

/-- The bound of `exp_error` for every argument that is not too large. -/
theorem exp_error' {expR logR : ℝ → Flt} {sumR : List ℝ → Flt}
    (c : FloatContract (Binary64.ops expR logR sumR) (2 ^ 1024) (2 ^ (-1075 : ℤ))) {x : ℝ} (hx : x ≤ 709) :
    ∃ e, expR x = fin e ∧ 0 ≤ e ∧ Rep e ∧
      |e - Real.exp x| ≤ ulp * Real.exp x + 2 ^ (-1074 : ℤ) := by
  have l2 := Real.log_two_gt_d9
  have hhi : Real.exp x < 2 ^ 1023 := by
    rw [← Real.lt_log_iff_exp_lt (by positivity), Real.log_pow]
    push_cast
    linarith
  obtain ⟨e, he, he0, -⟩ := Flt.between_fin (c.exp_nonneg x) (c.exp_le (x := x) rep_pow1023 hhi.le)
  exact ⟨e, he, he0, c.rep_exp he, (Binary64.faithful_error (f := e) (Real.exp_pos x) hhi
    (fun g hg h => by have := c.exp_ge (x := x) hg h; rwa [he] at this)
    (fun g hg h => by have := c.exp_le (x := x) hg h; rwa [he] at this)).1⟩

/-- `np.log1p(np.exp(z))` does not lose accuracy as long as `exp` does not overflow. -/
theorem log1p_exp_error {expR logR log1pR : ℝ → Flt} {sumR : List ℝ → Flt}
    (c : FloatContract (Binary64.ops expR logR sumR) (2 ^ 1024) (2 ^ (-1075 : ℤ)))
    (c' : Log1pContract (Binary64.ops expR logR sumR) log1pR) {z : ℝ} (hz : z ≤ 709) :
    ∃ e t, expR z = fin e ∧ 0 ≤ e ∧ log1pR e = fin t ∧ Rep t ∧ 0 ≤ t ∧
      |t - Real.log (1 + Real.exp z)| ≤ 4 * ulp * Real.log (1 + Real.exp z) + 4 * 2 ^ (-1074 : ℤ) := by
  obtain ⟨e, he, he0, hre, herr⟩ := exp_error' c hz
  obtain ⟨t, ht, hrt⟩ := c'.rep he0 hre
  set E := Real.exp z with hE
  set L := Real.log (1 + E) with hL
  have hE0 : 0 < E := Real.exp_pos z
  have htau : (0 : ℝ) < 2 ^ (-1074 : ℤ) := two_zpow_pos _
  have htau1 : (2 : ℝ) ^ (-1074 : ℤ) ≤ ulp / 256 := tiny
  set τ : ℝ := 2 ^ (-1074 : ℤ) with hτ
  have hu := ulp_pos
  have hu1 : ulp ≤ 1 / 1000 := by rw [ulp_eq]; norm_num
  have h1E : 0 < 1 + E := by linarith
  have hLE : E / (1 + E) ≤ L := by
    have := Real.one_sub_inv_le_log_of_pos h1E
    refine le_trans (le_of_eq ?_) this
    field_simp
    ring
  have hL0 : 0 ≤ L := Real.log_nonneg (by linarith)
  obtain ⟨-, h1⟩ := log_close (a := 1 + e) (b := 1 + E) (ε := (ulp * E + τ) / (1 + E)) h1E
    (by rw [div_mul_cancel₀ _ h1E.ne', add_sub_add_left_eq_sub]; exact herr)
    (by rw [div_le_iff₀ h1E]; nlinarith)
  have h2 : (ulp * E + τ) / (1 + E) ≤ ulp * L + τ := by
    have a1 : τ / (1 + E) ≤ τ := div_le_self htau.le (by linarith)
    have a2 : ulp * (E / (1 + E)) ≤ ulp * L := mul_le_mul_of_nonneg_left hLE hu.le
    calc (ulp * E + τ) / (1 + E) = ulp * (E / (1 + E)) + τ / (1 + E) := by ring
      _ ≤ _ := by linarith
  set r := Real.log (1 + e) with hr
  have hr0 : 0 ≤ r := Real.log_nonneg (by linarith)
  have hL710 : L ≤ 710 := by
    have : 1 + E ≤ Real.exp 710 := by
      have h3 : E ≤ Real.exp 709 := Real.exp_le_exp.2 hz
      have h4 : Real.exp 710 = Real.exp 709 * Real.exp 1 := by rw [← Real.exp_add]; norm_num
      have h5 := Real.add_one_le_exp (1 : ℝ)
      have h6 := Real.add_one_le_exp (709 : ℝ)
      rw [h4]
      nlinarith
    rw [hL, Real.log_le_iff_le_exp h1E]
    exact this
  have h3 : |r - L| ≤ 2 * (ulp * L + τ) := h1.trans (by linarith)
  have hrL : r ≤ L + 2 * (ulp * L + τ) := by have := (abs_le.1 h3).2; linarith
  have hr2 : r ≤ 800 := by nlinarith
  have hrb : |r| < 2 ^ 1023 := by
    rw [abs_of_nonneg hr0]
    have : r < 2 ^ 10 := by norm_num; linarith
    exact this.trans (pow_lt_pow_right₀ one_lt_two (by norm_num))
  have h4 := faithful_error_abs (f := t) hrb
    (fun g hg h => by have := c'.ge he0 hg h; rwa [ht] at this)
    (fun g hg h => by have := c'.le he0 hg h; rwa [ht] at this)
  clear hrb
  change |t - r| ≤ ulp * |r| + τ at h4
  rw [abs_of_nonneg hr0] at h4
  have ht0 : 0 ≤ t := by have := c'.ge he0 c.zero hr0; rwa [ht] at this
  refine ⟨e, t, he, he0, ht, hrt, ht0, ?_⟩
  have h5 : |t - L| ≤ |t - r| + |r - L| := by
    have := abs_add_le (t - r) (r - L)
    rwa [sub_add_sub_cancel] at this
  have h6 : ulp * r ≤ ulp * (L + 2 * (ulp * L + τ)) := mul_le_mul_of_nonneg_left hrL hu.le
  have h7 : ulp * (ulp * L) ≤ 1 / 1000 * (ulp * L) := mul_le_mul_of_nonneg_right hu1 (by positivity)
  have h8 : ulp * τ ≤ 1 / 1000 * τ := mul_le_mul_of_nonneg_right hu1 htau.le
  nlinarith

/-- A sample point `s * d + m`. -/
theorem point_error {m s d : ℝ} (h : |s * d| + |m| ≤ 2 ^ (1000 : ℤ)) :
    ∃ p z, rnd (s * d) = fin p ∧ rnd (p + m) = fin z ∧ Rep z ∧
      |z - (s * d + m)| ≤ 3 * ulp * (|s * d| + |m| + 1) := by
  have hu := ulp_pos
  have hu1 : ulp ≤ 1 / 1000 := by rw [ulp_eq]; norm_num
  have k2 : 2 * (2 : ℝ) ^ (1000 : ℤ) + 1 < 2 ^ 1023 := by
    have h1 : (1 : ℝ) ≤ 2 ^ (1000 : ℤ) := by simpa using zpow_le (j := 0) (k := 1000) (by norm_num)
    have h2 : (4 : ℝ) * 2 ^ (1000 : ℤ) = 2 ^ (1002 : ℤ) := by
      rw [show (1002 : ℤ) = 2 + 1000 by norm_num, zpow_add₀ two_ne_zero]
      norm_num only
    have h4 : (2 : ℝ) ^ (1002 : ℤ) < 2 ^ 1023 := zpow_lt_max (by norm_num)
    rw [← h2] at h4
    clear h2
    generalize (2 : ℝ) ^ (1000 : ℤ) = B at *
    generalize (2 : ℝ) ^ 1023 = M at *
    linarith
  have rnd_error := fun x : ℝ => @rnd_error x
  generalize (2 : ℝ) ^ (1000 : ℤ) = B at *
  generalize (2 : ℝ) ^ 1023 = M at *
  have a1 := abs_nonneg (s * d)
  have a2 := abs_nonneg m
  obtain ⟨p, hp, hrp, hperr⟩ := rnd_error (s * d) (by linarith)
  change |p - s * d| ≤ ulp * |s * d| + ulp / 256 at hperr
  have h3 : ulp * |s * d| ≤ 1 / 1000 * |s * d| := mul_le_mul_of_nonneg_right hu1 a1
  have h1 : |p + m| ≤ |s * d| + |m| + (ulp * |s * d| + ulp / 256) := by
    have e1 : p + m = (p - s * d) + (s * d + m) := by ring
    have e2 := abs_add_le (p - s * d) (s * d + m)
    have e3 := abs_add_le (s * d) m
    rw [e1]
    linarith
  obtain ⟨z, hz, hrz, hzerr⟩ := rnd_error (p + m) (by linarith)
  change |z - (p + m)| ≤ ulp * |p + m| + ulp / 256 at hzerr
  refine ⟨p, z, hp, hz, hrz, ?_⟩
  clear k2 h rnd_error
  have h2 : |z - (s * d + m)| ≤ |z - (p + m)| + |p - s * d| := by
    have := abs_add_le (z - (p + m)) (p - s * d)
    rwa [show z - (p + m) + (p - s * d) = z - (s * d + m) by ring] at this
  have h4 : |p + m| ≤ 2 * (|s * d| + |m| + 1) - 1 := by linarith
  have h5 : ulp * |p + m| ≤ ulp * (|s * d| + |m| + (ulp * |s * d| + ulp / 256)) := mul_le_mul_of_nonneg_left h1 hu.le
  have h6 : ulp * (ulp * |s * d|) ≤ 1 / 1000 * (ulp * |s * d|) := mul_le_mul_of_nonneg_right hu1 (by positivity)
  have h7 : ulp * ulp ≤ 1 / 1000 * ulp := mul_le_mul_of_nonneg_right hu1 hu.le
  nlinarith [mul_nonneg hu.le a1, mul_nonneg hu.le a2]

end Binary64

end

end LRVB
