import Verif.Lemmas.Round4

/-!
# Relative errors in double precision
-/

namespace LRVB

open Flt

noncomputable section

namespace Binary64

/-- The unit of relative errors. -/
def ulp : ℝ := 2 ^ (-52 : ℤ)

theorem ulp_eq : ulp = 1 / 4503599627370496 := by unfold ulp; norm_num

theorem ulp_pos : 0 < ulp := by rw [ulp_eq]; norm_num

/-- `a` is `b` up to `k` units. -/
def Rel (k a b : ℝ) : Prop := |a - b| ≤ k * ulp * b

theorem Rel.pos {k a b : ℝ} (h : Rel k a b) (hb : 0 < b) (hk : k ≤ 100) : 0 < a := by
  have h1 := (abs_le.1 h).1
  have h2 : k * ulp ≤ 1 / 2 := by rw [ulp_eq]; linarith
  nlinarith

theorem Rel.lower {k a b : ℝ} (h : Rel k a b) (hb : 0 < b) (hk : k ≤ 100) : b / 2 ≤ a := by
  have h1 := (abs_le.1 h).1
  have h2 : k * ulp ≤ 1 / 2 := by rw [ulp_eq]; linarith
  nlinarith

theorem Rel.upper {k a b : ℝ} (h : Rel k a b) (hb : 0 < b) (hk : k ≤ 100) : a ≤ 2 * b := by
  have h1 := (abs_le.1 h).2
  have h2 : k * ulp ≤ 1 / 2 := by rw [ulp_eq]; linarith
  nlinarith

theorem Rel.mul {k l a b c d : ℝ} (h : Rel k a b) (h' : Rel l c d) (hb : 0 < b) (hd : 0 < d) (hk : 0 ≤ k)
    (hk' : k ≤ 100) (hl : 0 ≤ l) (hl' : l ≤ 100) : Rel (k + l + 1) (a * c) (b * d) := by
  unfold Rel at h h' ⊢
  have hu := ulp_pos
  have h1 : a * c - b * d = (a - b) * (c - d) + (a - b) * d + b * (c - d) := by ring
  have h2 : |a * c - b * d| ≤ |a - b| * |c - d| + |a - b| * d + b * |c - d| := by
    rw [h1]
    refine (abs_add_le _ _).trans (add_le_add ((abs_add_le _ _).trans (add_le_add ?_ ?_)) ?_)
    · rw [abs_mul]
    · rw [abs_mul, abs_of_pos hd]
    · rw [abs_mul, abs_of_pos hb]
  have h3 : |a - b| * |c - d| ≤ (k * ulp * b) * (l * ulp * d) := mul_le_mul h h' (abs_nonneg _) (by positivity)
  have h4 : |a - b| * d ≤ k * ulp * b * d := mul_le_mul_of_nonneg_right h hd.le
  have h5 : b * |c - d| ≤ b * (l * ulp * d) := mul_le_mul_of_nonneg_left h' hb.le
  have h6 : k * l * ulp ≤ 1 := by
    have : k * l ≤ 100 * 100 := mul_le_mul hk' hl' hl (by norm_num)
    rw [ulp_eq]; linarith
  have h7 : (k * ulp * b) * (l * ulp * d) ≤ 1 * (ulp * (b * d)) := by
    have : (k * ulp * b) * (l * ulp * d) = (k * l * ulp) * (ulp * (b * d)) := by ring
    rw [this]
    exact mul_le_mul_of_nonneg_right h6 (by positivity)
  calc |a * c - b * d| ≤ 1 * (ulp * (b * d)) + k * ulp * b * d + b * (l * ulp * d) := by linarith
    _ = (k + l + 1) * ulp * (b * d) := by ring

theorem Rel.trans {k l a b c : ℝ} (h : Rel k a b) (h' : Rel l b c) (hc : 0 < c) (hk : 0 ≤ k)
    (hk' : k ≤ 100) (hl : 0 ≤ l) (hl' : l ≤ 100) : Rel (k + l + 1) a c := by
  unfold Rel at h h' ⊢
  have hu := ulp_pos
  have h6 : k * l * ulp ≤ 1 := by
    have : k * l ≤ 100 * 100 := mul_le_mul hk' hl' hl (by norm_num)
    rw [ulp_eq]; linarith
  have h1 : b ≤ c + l * ulp * c := by linarith [(abs_le.1 h').2]
  have h2 : |a - c| ≤ |a - b| + |b - c| := by
    have := abs_add_le (a - b) (b - c)
    rwa [sub_add_sub_cancel] at this
  have h3 : k * ulp * b ≤ k * ulp * (c + l * ulp * c) := mul_le_mul_of_nonneg_left h1 (by positivity)
  have h4 : k * ulp * (c + l * ulp * c) = k * ulp * c + (k * l * ulp) * (ulp * c) := by ring
  have h5 : (k * l * ulp) * (ulp * c) ≤ 1 * (ulp * c) := mul_le_mul_of_nonneg_right h6 (by positivity)
  calc |a - c| ≤ (k * ulp * c + 1 * (ulp * c)) + l * ulp * c := by linarith
    _ = (k + l + 1) * ulp * c := by ring

theorem Rel.div {k l a b c d : ℝ} (h : Rel k a b) (h' : Rel l c d) (hb : 0 < b) (hd : 0 < d) (hk : 0 ≤ k)
    (hk' : k ≤ 100) (hl : 0 ≤ l) (hl' : l ≤ 100) : Rel (k + l + 1) (a / c) (b / d) := by
  have hc := h'.pos hd hl'
  unfold Rel at h h' ⊢
  have hu := ulp_pos
  have h1 : a / c - b / d = ((a - b) * d + b * (d - c)) / (c * d) := by field_simp; ring
  have h2 : |(a - b) * d + b * (d - c)| ≤ (k + l) * ulp * (b * d) := by
    refine (abs_add_le _ _).trans ?_
    rw [abs_mul, abs_mul, abs_of_pos hd, abs_of_pos hb, abs_sub_comm d c]
    have h4 : |a - b| * d ≤ k * ulp * b * d := mul_le_mul_of_nonneg_right h hd.le
    have h5 : b * |c - d| ≤ b * (l * ulp * d) := mul_le_mul_of_nonneg_left h' hb.le
    calc |a - b| * d + b * |c - d| ≤ k * ulp * b * d + b * (l * ulp * d) := add_le_add h4 h5
      _ = (k + l) * ulp * (b * d) := by ring
  rw [h1, abs_div, abs_of_pos (mul_pos hc hd), div_le_iff₀ (mul_pos hc hd)]
  refine h2.trans ?_
  have h3 : (k + l + 1) * ulp * (b / d) * (c * d) = (k + l + 1) * (ulp * b * c) := by field_simp
  rw [h3]
  have h4 : d - l * ulp * d ≤ c := by linarith [(abs_le.1 h').1]
  have h5 : (k + l + 1) * (ulp * b * (d - l * ulp * d)) ≤ (k + l + 1) * (ulp * b * c) :=
    mul_le_mul_of_nonneg_left (mul_le_mul_of_nonneg_left h4 (by positivity)) (by positivity)
  refine le_trans ?_ h5
  have h6 : (k + l + 1) * l * ulp ≤ 1 := by
    have : (k + l + 1) * l ≤ 201 * 100 := mul_le_mul (by linarith) hl' hl (by norm_num)
    rw [ulp_eq]; linarith
  have h7 : (k + l + 1) * l * ulp * (ulp * b * d) ≤ 1 * (ulp * b * d) := mul_le_mul_of_nonneg_right h6 (by positivity)
  nlinarith [h7]

theorem Rel.one_add {k a b : ℝ} (h : Rel k a b) (hk : 0 ≤ k) : Rel k (1 + a) (1 + b) := by
  unfold Rel at h ⊢
  have hu := ulp_pos
  rw [add_sub_add_left_eq_sub]
  have : 0 ≤ k * ulp := by positivity
  linarith

/-- The logarithms of close numbers. -/
theorem log_close {a b ε : ℝ} (hb : 0 < b) (h : |a - b| ≤ ε * b) (hε : ε ≤ 1 / 2) :
    0 < a ∧ |Real.log a - Real.log b| ≤ 2 * ε := by
  obtain ⟨h1, h2⟩ := abs_le.1 h
  have ha : 0 < a := by nlinarith
  have h0 : 0 ≤ ε := by
    by_contra hc
    have := abs_nonneg (a - b)
    nlinarith
  refine ⟨ha, ?_⟩
  have hq : 0 < a / b := div_pos ha hb
  have q1 : 1 - ε ≤ a / b := by rw [le_div_iff₀ hb]; linarith
  have q2 : a / b ≤ 1 + ε := by rw [div_le_iff₀ hb]; linarith
  rw [← Real.log_div ha.ne' hb.ne', abs_le]
  constructor
  · have h3 := Real.one_sub_inv_le_log_of_pos hq
    have h4 : (a / b)⁻¹ ≤ 1 + 2 * ε := by
      rw [inv_le_comm₀ hq (by linarith)]
      refine le_trans ?_ q1
      rw [inv_le_comm₀ (by linarith) (by linarith), inv_eq_one_div, div_le_iff₀ (by linarith)]
      nlinarith
    linarith
  · have h3 := Real.log_le_sub_one_of_pos hq
    linarith

/-- The error of an operation without overflow and underflow. -/
theorem rnd_rel {x : ℝ} (h1 : 2 ^ (-1022 : ℤ) ≤ x) (h2 : x < 2 ^ 1023) :
    ∃ r, rnd x = fin r ∧ Rep r ∧ Rel 1 r x := by
  have hx : 0 < x := (two_zpow_pos _).trans_le h1
  obtain ⟨r, h, hr⟩ := rnd_finite (x := x) (by rw [abs_of_pos hx]; exact h2.le)
  refine ⟨r, h, hr, ?_⟩
  have := (faithful_error (f := r) hx h2 (fun g hg hgl => by
    have := rnd_mono_le hg hgl
    rwa [h] at this) (fun g hg hgl => by
    have := rnd_mono_ge hg hgl
    rwa [h] at this)).2 h1
  unfold Rel
  rw [one_mul]
  exact this

/-- The absolute error of an operation. -/
theorem rnd_abs {x b : ℝ} (hx : |x| ≤ b) (hb : b < 2 ^ 1023) (h1 : 2 ^ (-1022 : ℤ) ≤ b) :
    ∃ r, rnd x = fin r ∧ Rep r ∧ |r - x| ≤ 2 * ulp * b := by
  obtain ⟨r, h, hr⟩ := rnd_finite (x := x) (hx.trans hb.le)
  refine ⟨r, h, hr, (faithful_error_abs (f := r) (lt_of_le_of_lt hx hb) ?_ ?_).trans ?_⟩
  · intro g hg hgl
    have := rnd_mono_le hg hgl
    rwa [h] at this
  · intro g hg hgl
    have := rnd_mono_ge hg hgl
    rwa [h] at this
  · have h2 : (2 : ℝ) ^ (-1074 : ℤ) ≤ ulp * b := by
      have h3 : (2 : ℝ) ^ (-1074 : ℤ) = ulp * 2 ^ (-1022 : ℤ) := by
        unfold ulp
        rw [← zpow_add₀ two_ne_zero]
        rfl
      rw [h3]
      exact mul_le_mul_of_nonneg_left h1 ulp_pos.le
    have h3 : ulp * |x| ≤ ulp * b := mul_le_mul_of_nonneg_left hx ulp_pos.le
    change ulp * |x| + _ ≤ _
    linarith

end Binary64

end

end LRVB
