import Verif.Lemmas.Round3

/-!
# Double precision: errors of `exp` and `log`
-/

namespace LRVB

open Classical Flt

noncomputable section

theorem Binary64.rep_zpow (k : ℤ) (h1 : -1074 ≤ k) (h2 : k ≤ 971) : Binary64.Rep (2 ^ k) :=
  ⟨1, k, by norm_num, h1, h2, by simp⟩

theorem Binary64.rep_int (m : ℤ) (h : |m| < 2 ^ 53) : Binary64.Rep m :=
  ⟨m, 0, h, by norm_num, by norm_num, by simp⟩

theorem Binary64.rep_nat (m : ℕ) (h : m < 2 ^ 53) : Binary64.Rep m := by
  have := Binary64.rep_int m (by rw [Nat.abs_cast]; exact_mod_cast h)
  simpa using this

theorem Binary64.rep_nat_le (m : ℕ) (h : m ≤ 2 ^ 53) : Binary64.Rep m := by
  rcases h.lt_or_eq with h | h
  · exact Binary64.rep_nat m h
  · subst h
    have := Binary64.rep_zpow 53 (by norm_num) (by norm_num)
    convert this using 1
    norm_num

theorem Binary64.rep_pow1023 : Binary64.Rep (2 ^ 1023) := by
  refine ⟨2 ^ 52, 971, by norm_num, by norm_num, by norm_num, ?_⟩
  rw [Int.cast_pow, ← zpow_natCast, ← zpow_natCast, Int.cast_ofNat, ← zpow_add₀ two_ne_zero]
  rfl

/-- A faithful result has an error of less than a unit in the last place. -/
theorem Binary64.faithful_error_abs {r f : ℝ} (hb : |r| < 2 ^ 1023)
    (h1 : ∀ g, Rep g → g ≤ r → g ≤ f) (h2 : ∀ g, Rep g → r ≤ g → f ≤ g) :
    |f - r| ≤ 2 ^ (-52 : ℤ) * |r| + 2 ^ (-1074 : ℤ) := by
  rcases lt_trichotomy r 0 with h | h | h
  · have := (Binary64.faithful_error (r := -r) (f := -f) (by linarith) (by rwa [abs_of_neg h] at hb)
      (fun g hg hgl => by have := h2 (-g) hg.neg (by linarith); linarith)
      (fun g hg hgl => by have := h1 (-g) hg.neg (by linarith); linarith)).1
    rw [abs_of_neg h, abs_sub_comm]
    rwa [show -f - -r = r - f by ring] at this
  · have hz : Rep 0 := by simpa using rep_nat 0 (by norm_num)
    have e1 := h1 0 hz h.symm.le
    have e2 := h2 0 hz h.le
    rw [h, show f = 0 by linarith]
    simp
  · have := (Binary64.faithful_error (r := r) (f := f) h (by rwa [abs_of_pos h] at hb) h1 h2).1
    rwa [abs_of_pos h]

/-- The tiny constant in the error bounds. -/
theorem Binary64.tiny : (2 : ℝ) ^ (-1074 : ℤ) ≤ 2 ^ (-52 : ℤ) / 256 := by
  refine (zpow_le_zpow_right₀ one_le_two (show (-1074 : ℤ) ≤ -60 by norm_num)).trans (le_of_eq ?_)
  norm_num

/-- The error of an operation that does not overflow. -/
theorem Binary64.rnd_error {x : ℝ} (hb : |x| < 2 ^ 1023) :
    ∃ r, rnd x = fin r ∧ Rep r ∧ |r - x| ≤ 2 ^ (-52 : ℤ) * |x| + 2 ^ (-52 : ℤ) / 256 := by
  obtain ⟨r, h, hr⟩ := rnd_finite hb.le
  refine ⟨r, h, hr, (faithful_error_abs (f := r) hb ?_ ?_).trans (by linarith [tiny])⟩
  · intro g hg hgl
    have := rnd_mono_le hg hgl
    rwa [h] at this
  · intro g hg hgl
    have := rnd_mono_ge hg hgl
    rwa [h] at this

/-- `exp` of a number that is not too large: the logarithm of the result is close. -/
theorem Binary64.exp_error {expR logR : ℝ → Flt} {sumR : List ℝ → Flt}
    (c : FloatContract (Binary64.ops expR logR sumR) (2 ^ 1024) (2 ^ (-1075 : ℤ))) {x : ℝ}
    (hx1 : -708 ≤ x) (hx2 : x ≤ 709) :
    ∃ e, expR x = fin e ∧ 0 < e ∧ Rep e ∧ |Real.log e - x| ≤ 2 * 2 ^ (-52 : ℤ) ∧
      |e - Real.exp x| ≤ 2 ^ (-52 : ℤ) * Real.exp x := by
  have l1 := Real.log_two_lt_d9
  have l2 := Real.log_two_gt_d9
  have hlo : (2 : ℝ) ^ (-1022 : ℤ) ≤ Real.exp x := by
    rw [← Real.log_le_iff_le_exp (by positivity), Real.log_zpow]
    push_cast
    linarith
  have hhi : Real.exp x < 2 ^ 1023 := by
    rw [← Real.lt_log_iff_exp_lt (by positivity), Real.log_pow]
    push_cast
    linarith
  obtain ⟨e, he, he0, -⟩ := Flt.between_fin (c.exp_nonneg x) (c.exp_le (x := x) rep_pow1023 hhi.le)
  have hre : Binary64.Rep e := c.rep_exp he
  have herr := (Binary64.faithful_error (f := e) (Real.exp_pos x) hhi
    (fun g hg h => by have := c.exp_ge (x := x) hg h; rwa [he] at this)
    (fun g hg h => by have := c.exp_le (x := x) hg h; rwa [he] at this)).2 hlo
  have herr' := herr
  have hd : (2 : ℝ) ^ (-52 : ℤ) = 1 / 4503599627370496 := by norm_num
  set δ : ℝ := 2 ^ (-52 : ℤ) with hδ
  have hex := Real.exp_pos x
  obtain ⟨ea, eb⟩ := abs_le.1 herr
  have hepos : 0 < e := by
    rw [hd] at ea
    nlinarith
  refine ⟨e, he, hepos, hre, ?_, herr'⟩
  have hle : Real.log e - x = Real.log (e / Real.exp x) := by
    rw [Real.log_div hepos.ne' hex.ne', Real.log_exp]
  have hq : 0 < e / Real.exp x := div_pos hepos hex
  have q1 : 1 - δ ≤ e / Real.exp x := by
    rw [le_div_iff₀ hex]
    linarith
  have q2 : e / Real.exp x ≤ 1 + δ := by
    rw [div_le_iff₀ hex]
    linarith
  rw [hle, abs_le]
  constructor
  · have h1 := Real.one_sub_inv_le_log_of_pos hq
    have h2 : (e / Real.exp x)⁻¹ ≤ 1 + 2 * δ := by
      rw [inv_le_comm₀ hq (by rw [hd]; norm_num)]
      refine le_trans ?_ q1
      rw [hd]
      norm_num
    linarith
  · have h1 := Real.log_le_sub_one_of_pos hq
    have : 0 < δ := by rw [hd]; norm_num
    linarith

/-- The error of `log`. -/
theorem Binary64.log_error {expR logR : ℝ → Flt} {sumR : List ℝ → Flt}
    (c : FloatContract (Binary64.ops expR logR sumR) (2 ^ 1024) (2 ^ (-1075 : ℤ))) {e : ℝ}
    (hepos : 0 < e) (hre : Rep e) (hb : |Real.log e| < 2 ^ 1023) :
    ∃ y, logR e = fin y ∧ Rep y ∧ |y - Real.log e| ≤ 2 ^ (-52 : ℤ) * |Real.log e| + 2 ^ (-52 : ℤ) / 256 := by
  obtain ⟨y, hy, hry⟩ := c.rep_log hepos hre
  refine ⟨y, hy, hry, (faithful_error_abs (f := y) hb ?_ ?_).trans (by linarith [tiny])⟩
  · intro g hg h
    have := c.log_ge hepos hg h
    rw [show (Binary64.ops expR logR sumR).logR e = fin y from hy] at this
    exact this
  · intro g hg h
    have := c.log_le hepos hg h
    rw [show (Binary64.ops expR logR sumR).logR e = fin y from hy] at this
    exact this

/-- `exp` and then `log`. -/
theorem Binary64.exp_log_error {expR logR : ℝ → Flt} {sumR : List ℝ → Flt}
    (c : FloatContract (Binary64.ops expR logR sumR) (2 ^ 1024) (2 ^ (-1075 : ℤ))) {x : ℝ}
    (hx1 : -708 ≤ x) (hx2 : x ≤ 709) :
    ∃ e y, expR x = fin e ∧ 0 < e ∧ Rep e ∧ logR e = fin y ∧ Rep y ∧ |y - x| ≤ 2 ^ (-52 : ℤ) * (|x| + 3) := by
  obtain ⟨e, he, hepos, hre, hratio, -⟩ := exp_error c hx1 hx2
  have hd : (2 : ℝ) ^ (-52 : ℤ) = 1 / 4503599627370496 := by norm_num
  have hxb : |x| ≤ 709 := abs_le.2 ⟨by linarith, hx2⟩
  have hL : |Real.log e| ≤ |x| + 2 * 2 ^ (-52 : ℤ) := by
    have := abs_sub_abs_le_abs_sub (Real.log e) x
    linarith
  have hsmall : |Real.log e| < 2 ^ 1023 := by
    have : |x| + 2 * 2 ^ (-52 : ℤ) < 2 ^ 11 := by rw [hd]; norm_num; linarith
    exact lt_of_le_of_lt hL (this.trans (pow_lt_pow_right₀ one_lt_two (by norm_num)))
  obtain ⟨y, hy, hry, hyerr⟩ := log_error c hepos hre hsmall
  refine ⟨e, y, he, hepos, hre, hy, hry, ?_⟩
  clear hsmall
  have h5 : |y - x| ≤ |y - Real.log e| + |Real.log e - x| := by
    have := abs_add_le (y - Real.log e) (Real.log e - x)
    rwa [sub_add_sub_cancel] at this
  rw [hd] at hratio hL hyerr ⊢
  linarith

end

end LRVB
