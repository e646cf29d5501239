import Verif.Lemmas.Round5

/-!
# The errors of the transforms with bounds
-/

namespace LRVB

open Flt

noncomputable section

namespace Binary64

theorem exp_lower {x : ℝ} (hx : -700 ≤ x) : (2 : ℝ) ^ (-1011 : ℤ) ≤ Real.exp x := by
  have l2 := Real.log_two_gt_d9
  rw [← Real.log_le_iff_le_exp (by positivity), Real.log_zpow]
  push_cast
  linarith

theorem exp_upper {x : ℝ} (hx : x ≤ 700) : Real.exp x ≤ 2 ^ (1011 : ℤ) := by
  have l2 := Real.log_two_gt_d9
  rw [← Real.le_log_iff_exp_le (by positivity), Real.log_zpow]
  push_cast
  linarith

theorem two_mul_zpow (k : ℤ) : 2 * (2 : ℝ) ^ k = 2 ^ (k + 1) := by
  rw [zpow_add₀ two_ne_zero, zpow_one, mul_comm]

theorem zpow_le {j k : ℤ} (h : j ≤ k) : (2 : ℝ) ^ j ≤ 2 ^ k := zpow_le_zpow_right₀ one_le_two h

theorem zpow_lt_max {k : ℤ} (h : k < 1023) : (2 : ℝ) ^ k < 2 ^ 1023 := by
  rw [← zpow_natCast]
  exact zpow_lt_zpow_right₀ one_lt_two (by simpa using h)

/-- `log` of a difference of a value and a bound that is exact up to a relative error. -/
theorem log_chain {expR logR : ℝ → Flt} {sumR : List ℝ → Flt}
    (c : FloatContract (Binary64.ops expR logR sumR) (2 ^ 1024) (2 ^ (-1075 : ℤ))) {A B ε : ℝ}
    (hB1 : 2 ^ (-1020 : ℤ) ≤ B) (hB2 : B ≤ 2 ^ (1021 : ℤ)) (h : |A - B| ≤ ε * B) (hε : ε ≤ 1 / 4) :
    0 < A ∧ ∃ a y, rnd A = fin a ∧ 0 < a ∧ logR a = fin y ∧ Rep y ∧
      |y - Real.log B| ≤ 2 * ε + ulp * (|Real.log B| + 4) := by
  have hB : 0 < B := (two_zpow_pos _).trans_le hB1
  obtain ⟨hA, h1⟩ := log_close hB h (by linarith)
  obtain ⟨h2, h3⟩ := abs_le.1 h
  have hA1 : (2 : ℝ) ^ (-1022 : ℤ) ≤ A := by
    have e1 := two_mul_zpow (-1022)
    have e2 : (2 : ℝ) ^ (-1022 + 1 : ℤ) ≤ 2 ^ (-1020 : ℤ) := zpow_le (by norm_num)
    have : ε * B ≤ 1 / 4 * B := mul_le_mul_of_nonneg_right hε hB.le
    have := two_zpow_pos (-1022)
    linarith
  have hA2 : A < 2 ^ 1023 := by
    have : ε * B ≤ 1 / 4 * B := mul_le_mul_of_nonneg_right hε hB.le
    have h4 : A ≤ 2 * B := by clear hB1 hB2 hA1; linarith
    have h5 : 2 * B ≤ 2 * 2 ^ (1021 : ℤ) := mul_le_mul_of_nonneg_left hB2 zero_le_two
    rw [two_mul_zpow] at h5
    exact lt_of_le_of_lt (h4.trans h5) (zpow_lt_max (by norm_num))
  obtain ⟨a, ha, har, hrel⟩ := rnd_rel hA1 hA2
  obtain ⟨ha0, h4⟩ := log_close (ε := ulp) hA (by simpa [Rel] using hrel) (by rw [ulp_eq]; norm_num)
  have hε0 : 0 ≤ ε := by
    by_contra hc
    have := abs_nonneg (A - B)
    nlinarith
  have hla : |Real.log a - Real.log B| ≤ 2 * ε + 2 * ulp := by
    have := abs_add_le (Real.log a - Real.log A) (Real.log A - Real.log B)
    rw [sub_add_sub_cancel] at this
    linarith
  have hL : |Real.log B| ≤ 1021 := by
    have l1 := Real.log_two_lt_d9
    have l0 := Real.log_two_gt_d9
    rw [abs_le]
    constructor
    · have := Real.log_le_log (by positivity) hB1
      rw [Real.log_zpow] at this
      push_cast at this
      linarith
    · have := Real.log_le_log hB hB2
      rw [Real.log_zpow] at this
      push_cast at this
      linarith
  have hLa : |Real.log a| ≤ |Real.log B| + 1 := by
    have := abs_sub_abs_le_abs_sub (Real.log a) (Real.log B)
    have hu : ulp ≤ 1 / 8 := by rw [ulp_eq]; norm_num
    linarith
  have hsmall : |Real.log a| < 2 ^ 1023 := by
    have : |Real.log a| < 2 ^ 11 := by norm_num; linarith
    exact this.trans (pow_lt_pow_right₀ one_lt_two (by norm_num))
  obtain ⟨y, hy, hry, hyerr⟩ := log_error c ha0 har hsmall
  refine ⟨hA, a, y, ha, ha0, hy, hry, ?_⟩
  clear hsmall hA2 hA1
  change |y - Real.log a| ≤ ulp * |Real.log a| + ulp / 256 at hyerr
  have h5 : |y - Real.log B| ≤ |y - Real.log a| + |Real.log a - Real.log B| := by
    have := abs_add_le (y - Real.log a) (Real.log a - Real.log B)
    rwa [sub_add_sub_cancel] at this
  have hu := ulp_pos
  have h6 : ulp * |Real.log a| ≤ ulp * (|Real.log B| + 1) := mul_le_mul_of_nonneg_left hLa hu.le
  nlinarith

/-- One finite bound. -/
theorem shift_error {expR logR : ℝ → Flt} {sumR : List ℝ → Flt}
    (c : FloatContract (Binary64.ops expR logR sumR) (2 ^ 1024) (2 ^ (-1075 : ℤ))) {x l : ℝ}
    (hx1 : -700 ≤ x) (hx2 : x ≤ 700) (hl : |l| ≤ 2 ^ 1000) (hk : |l| * Real.exp (-x) ≤ 2 ^ 45) :
    ∃ e v a y, expR x = fin e ∧ rnd (e + l) = fin v ∧ l < v ∧ rnd (v - l) = fin a ∧ 0 < a ∧ logR a = fin y ∧
      Rep y ∧ |y - x| ≤ 2 ^ (-48 : ℤ) * (|x| + 1 + |l| * Real.exp (-x)) := by
  obtain ⟨e, he, he0, hre, -, herr⟩ := exp_error c (x := x) (by linarith) (by linarith)
  change |e - Real.exp x| ≤ ulp * Real.exp x at herr
  have hE := Real.exp_pos x
  have hE1 := exp_lower hx1
  have hE2 := exp_upper hx2
  have hu := ulp_pos
  have hu1 : ulp ≤ 1 / 1000 := by rw [ulp_eq]; norm_num
  obtain ⟨ea, eb⟩ := abs_le.1 herr
  have heE : |e + l| ≤ 2 * Real.exp x + |l| := by
    refine (abs_add_le _ _).trans ?_
    rw [abs_of_pos he0]
    nlinarith
  have hbig : 2 * Real.exp x + |l| < 2 ^ 1023 := by
    have h1 : (2 : ℝ) ^ 1000 ≤ 2 ^ (1011 : ℤ) := by
      rw [← zpow_natCast]; exact zpow_le (by norm_num)
    have h2 : 2 * Real.exp x + |l| ≤ 2 * (2 * 2 ^ (1011 : ℤ)) := by
      have h3 := hl.trans h1
      have h4 := two_zpow_pos 1011
      clear hl h1
      generalize (2 : ℝ) ^ (1011 : ℤ) = P at *
      linarith
    rw [two_mul_zpow, two_mul_zpow] at h2
    exact lt_of_le_of_lt h2 (zpow_lt_max (by norm_num))
  have hsm : (2 : ℝ) ^ (-1022 : ℤ) ≤ 2 * Real.exp x + |l| := by
    have := abs_nonneg l
    have h1 : (2 : ℝ) ^ (-1022 : ℤ) ≤ 2 ^ (-1011 : ℤ) := zpow_le (by norm_num)
    linarith
  obtain ⟨v, hv, -, hverr⟩ := rnd_abs heE hbig hsm
  clear hbig hsm hl
  set κ := |l| * Real.exp (-x) with hκ
  have hκ0 : 0 ≤ κ := by positivity
  have hl : |l| = κ * Real.exp x := by
    rw [hκ, mul_assoc, ← Real.exp_add, neg_add_cancel, Real.exp_zero, mul_one]
  have hA : |(v - l) - Real.exp x| ≤ (ulp * (5 + 2 * κ)) * Real.exp x := by
    have h1 : (v - l) - Real.exp x = (v - (e + l)) + (e - Real.exp x) := by ring
    rw [h1]
    refine (abs_add_le _ _).trans ?_
    rw [hl] at hverr
    linarith
  have hε : ulp * (5 + 2 * κ) ≤ 1 / 4 := by
    rw [ulp_eq]
    norm_num at hk
    linarith
  obtain ⟨hpos, a, y, ha, ha0, hy, hry, hyerr⟩ := log_chain c (hE1.trans' (zpow_le (by norm_num)))
    (hE2.trans (zpow_le (by norm_num))) hA hε
  refine ⟨e, v, a, y, he, hv, by linarith, ha, ha0, hy, hry, ?_⟩
  rw [Real.log_exp] at hyerr
  have h48 : (2 : ℝ) ^ (-48 : ℤ) = 16 * ulp := by rw [ulp_eq]; norm_num
  rw [h48]
  have := abs_nonneg x
  nlinarith [mul_nonneg hu.le hκ0, mul_nonneg hu.le this]

theorem Rel.mono {k l a b : ℝ} (h : Rel k a b) (hkl : k ≤ l) (hb : 0 < b) : Rel l a b :=
  le_trans h (mul_le_mul_of_nonneg_right (mul_le_mul_of_nonneg_right hkl ulp_pos.le) hb.le)

/-- Two finite bounds: the value, before the lower bound is added. -/
theorem logit_value {expR logR : ℝ → Flt} {sumR : List ℝ → Flt}
    (c : FloatContract (Binary64.ops expR logR sumR) (2 ^ 1024) (2 ^ (-1075 : ℤ))) {x w : ℝ}
    (hx1 : -32 ≤ x) (hx2 : x ≤ 32) (hw1 : 2 ^ (-900 : ℤ) ≤ w) (hw2 : w ≤ 2 ^ (901 : ℤ)) :
    ∃ w' e p q d, rnd w = fin w' ∧ expR x = fin e ∧ rnd (w' * e) = fin p ∧ rnd (1 + e) = fin q ∧ 0 < q ∧
      rnd (p / q) = fin d ∧ Rel 11 d (w * Real.exp x / (1 + Real.exp x)) := by
  obtain ⟨e, he, he0, hre, -, herr⟩ := exp_error c (x := x) (by linarith) (by linarith)
  have hE := Real.exp_pos x
  have hw : 0 < w := (two_zpow_pos _).trans_le hw1
  have re : Rel 1 e (Real.exp x) := by unfold Rel; rw [one_mul]; exact herr
  have l2 := Real.log_two_gt_d9
  have hE1 : (2 : ℝ) ^ (-47 : ℤ) ≤ Real.exp x := by
    rw [← Real.log_le_iff_le_exp (by positivity), Real.log_zpow]
    push_cast
    linarith
  have hE2 : Real.exp x ≤ 2 ^ (47 : ℤ) := by
    rw [← Real.le_log_iff_exp_le (by positivity), Real.log_zpow]
    push_cast
    linarith
  obtain ⟨w', hw', -, rw'⟩ := rnd_rel (hw1.trans' (zpow_le (by norm_num))) (hw2.trans_lt (zpow_lt_max (by norm_num)))
  -- the product
  have rp := rw'.mul re hw hE (by norm_num) (by norm_num) (by norm_num) (by norm_num)
  have hwE := mul_pos hw hE
  have hwE1 : (2 : ℝ) ^ (-947 : ℤ) ≤ w * Real.exp x := by
    have := mul_le_mul hw1 hE1 (two_zpow_pos _).le hw.le
    rwa [← zpow_add₀ two_ne_zero] at this
  have hwE2 : w * Real.exp x ≤ 2 ^ (948 : ℤ) := by
    have := mul_le_mul hw2 hE2 hE.le (two_zpow_pos _).le
    rwa [← zpow_add₀ two_ne_zero] at this
  have up : ∀ {k a b : ℝ} {n : ℤ}, Rel k a b → 0 < b → k ≤ 100 → b ≤ 2 ^ n → a ≤ 2 ^ (n + 1) := by
    intro k a b n h hb hk hn
    rw [← two_mul_zpow]
    exact (h.upper hb hk).trans (mul_le_mul_of_nonneg_left hn zero_le_two)
  have lo : ∀ {k a b : ℝ} {n : ℤ}, Rel k a b → 0 < b → k ≤ 100 → 2 ^ (n + 1) ≤ b → 2 ^ n ≤ a := by
    intro k a b n h hb hk hn
    rw [← two_mul_zpow] at hn
    have := h.lower hb hk
    linarith
  obtain ⟨p, hp, -, rp'⟩ := rnd_rel (x := w' * e)
    ((lo (n := -948) rp hwE (by norm_num) (by exact hwE1)).trans' (zpow_le (by norm_num)))
    ((up rp hwE (by norm_num) hwE2).trans_lt (zpow_lt_max (by norm_num)))
  have rpp := rp'.trans rp hwE (by norm_num) (by norm_num) (by norm_num) (by norm_num)
  -- the denominator
  have h1E : 0 < 1 + Real.exp x := by linarith
  have rq := re.one_add (by norm_num)
  have h1E1 : (2 : ℝ) ^ (0 : ℤ) ≤ 1 + Real.exp x := by rw [zpow_zero]; linarith
  have h1E2 : 1 + Real.exp x ≤ 2 ^ (48 : ℤ) := by
    refine (show 1 + Real.exp x ≤ 2 * 2 ^ (47 : ℤ) from ?_).trans (le_of_eq (two_mul_zpow 47))
    have : (1 : ℝ) ≤ 2 ^ (47 : ℤ) := by norm_num
    linarith
  obtain ⟨q, hq, -, rq'⟩ := rnd_rel (x := 1 + e)
    ((lo (n := -1) rq h1E (by norm_num) (by exact h1E1)).trans' (zpow_le (by norm_num)))
    ((up rq h1E (by norm_num) h1E2).trans_lt (zpow_lt_max (by norm_num)))
  have rqq := rq'.trans rq h1E (by norm_num) (by norm_num) (by norm_num) (by norm_num)
  -- the quotient
  have hQ := div_pos hwE h1E
  have rd := rpp.div rqq hwE h1E (by norm_num) (by norm_num) (by norm_num) (by norm_num)
  have hQ1 : (2 : ℝ) ^ (-995 : ℤ) ≤ w * Real.exp x / (1 + Real.exp x) := by
    rw [le_div_iff₀ h1E]
    have := mul_le_mul_of_nonneg_left h1E2 (two_zpow_pos (-995)).le
    rw [← zpow_add₀ two_ne_zero] at this
    exact this.trans hwE1
  have hQ2 : w * Real.exp x / (1 + Real.exp x) ≤ 2 ^ (948 : ℤ) := by
    rw [div_le_iff₀ h1E]
    refine hwE2.trans ?_
    have := mul_le_mul_of_nonneg_left h1E1 (two_zpow_pos 948).le
    rwa [zpow_zero, mul_one] at this
  obtain ⟨d, hd, -, rd'⟩ := rnd_rel (x := p / q)
    ((lo (n := -996) rd hQ (by norm_num) (by exact hQ1)).trans' (zpow_le (by norm_num)))
    ((up rd hQ (by norm_num) hQ2).trans_lt (zpow_lt_max (by norm_num)))
  exact ⟨w', e, p, q, d, hw', he, hp, hq, rqq.pos h1E (by norm_num), hd,
    (rd'.trans rd hQ (by norm_num) (by norm_num) (by norm_num) (by norm_num)).mono (by norm_num) hQ⟩

/-- Two finite bounds. -/
theorem logit_error {expR logR : ℝ → Flt} {sumR : List ℝ → Flt}
    (c : FloatContract (Binary64.ops expR logR sumR) (2 ^ 1024) (2 ^ (-1075 : ℤ))) {x l u : ℝ}
    (hw1 : 2 ^ (-900 : ℤ) ≤ u - l) (hM : max |l| |u| ≤ 2 ^ (900 : ℤ))
    (hk : max |l| |u| / (u - l) * ((1 + Real.exp x) * (1 + Real.exp (-x))) ≤ 2 ^ 45) :
    ∃ w' e p q d v a b ya yb y, rnd (u - l) = fin w' ∧ expR x = fin e ∧ rnd (w' * e) = fin p ∧
      rnd (1 + e) = fin q ∧ 0 < q ∧ rnd (p / q) = fin d ∧ rnd (d + l) = fin v ∧ l < v ∧ v < u ∧
      rnd (v - l) = fin a ∧ 0 < a ∧ rnd (u - v) = fin b ∧ 0 < b ∧ logR a = fin ya ∧ logR b = fin yb ∧
      rnd (ya - yb) = fin y ∧
      |y - x| ≤ 2 ^ (-45 : ℤ) *
        (|x| + |Real.log (u - l)| + max |l| |u| / (u - l) * ((1 + Real.exp x) * (1 + Real.exp (-x)))) := by
  set w := u - l with hwdef
  set M := max |l| |u| with hMdef
  set κ := M / w * ((1 + Real.exp x) * (1 + Real.exp (-x))) with hκ
  have hw : 0 < w := (two_zpow_pos _).trans_le hw1
  have hu := ulp_pos
  have hE := Real.exp_pos x
  have hE' := Real.exp_pos (-x)
  have hEE : Real.exp x * Real.exp (-x) = 1 := by rw [← Real.exp_add, add_neg_cancel, Real.exp_zero]
  have hlM : |l| ≤ M := le_max_left _ _
  have huM : |u| ≤ M := le_max_right _ _
  have hwM : w ≤ 2 * M := by
    have := (abs_le.1 hlM).1
    have := (abs_le.1 huM).2
    linarith
  have hMpos : 0 < M := by linarith
  have hhalf : 1 / 2 ≤ M / w := by rw [le_div_iff₀ hw]; linarith
  have hκ1 : (1 + Real.exp x) * (1 + Real.exp (-x)) ≤ 2 * κ := by
    have h0 : 0 ≤ (1 + Real.exp x) * (1 + Real.exp (-x)) := by positivity
    have := mul_le_mul_of_nonneg_right hhalf h0
    linarith
  have hexp : (1 + Real.exp x) * (1 + Real.exp (-x)) = 2 + Real.exp x + Real.exp (-x) := by
    linear_combination hEE
  have hκ2 : 2 ≤ κ := by
    have : 2 ≤ Real.exp x + Real.exp (-x) := by nlinarith [sq_nonneg (Real.exp x - 1), mul_pos hE hE']
    linarith
  have hEk : Real.exp x ≤ 2 * κ := by linarith
  have hEk' : Real.exp (-x) ≤ 2 * κ := by linarith
  have l2 := Real.log_two_lt_d9
  have hx2 : x ≤ 32 := by
    have h1 : Real.exp x ≤ 2 ^ (46 : ℤ) := by norm_num at hk ⊢; linarith
    rw [← Real.le_log_iff_exp_le (by positivity), Real.log_zpow] at h1
    push_cast at h1
    linarith
  have hx1 : -32 ≤ x := by
    have h1 : Real.exp (-x) ≤ 2 ^ (46 : ℤ) := by norm_num at hk ⊢; linarith
    rw [← Real.le_log_iff_exp_le (by positivity), Real.log_zpow] at h1
    push_cast at h1
    linarith
  have hw2 : w ≤ 2 ^ (901 : ℤ) := by
    have := mul_le_mul_of_nonneg_left hM zero_le_two
    rw [two_mul_zpow] at this
    exact hwM.trans this
  obtain ⟨w', e, p, q, d, h1, h2, h3, h4, h5, h6, rd⟩ := logit_value c hx1 hx2 hw1 hw2
  have h1E : 0 < 1 + Real.exp x := by linarith
  set B := w * Real.exp x / (1 + Real.exp x) with hB
  set B' := w / (1 + Real.exp x) with hB'
  have hBpos : 0 < B := by positivity
  have hB'pos : 0 < B' := by positivity
  have hsum : B + B' = w := by rw [hB, hB']; field_simp; ring
  have hMB : M = κ * (B * (1 / (1 + Real.exp x))) := by
    rw [hκ, hB, Real.exp_neg]
    field_simp
    ring
  have hMB' : M = κ * (B' * (Real.exp x / (1 + Real.exp x))) := by
    rw [hκ, hB', Real.exp_neg]
    field_simp
    ring
  have hκ0 : 0 ≤ κ := by linarith
  have hM1 : M ≤ κ * B := by
    rw [hMB]
    refine mul_le_mul_of_nonneg_left (mul_le_of_le_one_right hBpos.le ?_) hκ0
    rw [div_le_one h1E]; linarith
  have hM2 : M ≤ κ * B' := by
    rw [hMB']
    refine mul_le_mul_of_nonneg_left (mul_le_of_le_one_right hB'pos.le ?_) hκ0
    rw [div_le_one h1E]; linarith
  have hd1 : |d - B| ≤ 22 * ulp * M := by
    have h7 : |d - B| ≤ 11 * ulp * B := rd
    have h8 : 11 * ulp * B ≤ 11 * ulp * (2 * M) := mul_le_mul_of_nonneg_left (by linarith) (by positivity)
    linarith
  have hulp : ulp ≤ 1 / 1000 := by rw [ulp_eq]; norm_num
  have hdl : |d + l| ≤ 2 * M := by
    have h7 : d + l = (d - B) + (B + l) := by ring
    have h8 : |B + l| ≤ M := by
      rw [abs_le]
      have := (abs_le.1 hlM).1
      have := (abs_le.1 huM).2
      constructor <;> linarith
    have h9 := abs_add_le (d - B) (B + l)
    rw [← h7] at h9
    have : ulp * M ≤ 1 / 1000 * M := mul_le_mul_of_nonneg_right hulp hMpos.le
    linarith
  have hM2lt : 2 * M < 2 ^ 1023 := by
    have := mul_le_mul_of_nonneg_left hM zero_le_two
    rw [two_mul_zpow] at this
    exact this.trans_lt (zpow_lt_max (by norm_num))
  obtain ⟨v, hv, -, hverr⟩ := rnd_abs hdl hM2lt
    ((zpow_le (show (-1022 : ℤ) ≤ -900 by norm_num)).trans (hw1.trans hwM))
  have hkr : κ ≤ 35184372088832 := by norm_num at hk; exact hk
  have hA : |(v - l) - B| ≤ 26 * ulp * M := by
    have h7 : (v - l) - B = (v - (d + l)) + (d - B) := by ring
    rw [h7]
    refine (abs_add_le _ _).trans ?_
    clear hM2lt
    linarith
  have hA1 : |(v - l) - B| ≤ (26 * ulp * κ) * B := by
    refine hA.trans ?_
    rw [mul_assoc (26 * ulp)]
    exact mul_le_mul_of_nonneg_left hM1 (by positivity)
  have hA2 : |(u - v) - B'| ≤ (26 * ulp * κ) * B' := by
    have h7 : (u - v) - B' = -((v - l) - B) := by
      have : B' = u - l - B := by rw [← hwdef]; linarith
      rw [this]; ring
    rw [h7, abs_neg]
    refine hA.trans ?_
    rw [mul_assoc (26 * ulp)]
    exact mul_le_mul_of_nonneg_left hM2 (by positivity)
  have hε : 26 * ulp * κ ≤ 1 / 4 := by rw [ulp_eq]; linarith
  have hlow : ∀ {z t : ℝ}, z = w / t → 0 < t → t ≤ 2 ^ (47 : ℤ) → 2 ^ (-1020 : ℤ) ≤ z := by
    intro z t hz ht ht2
    rw [hz, le_div_iff₀ ht]
    have := mul_le_mul_of_nonneg_left ht2 (two_zpow_pos (-1020)).le
    rw [← zpow_add₀ two_ne_zero] at this
    exact (this.trans (zpow_le (by norm_num))).trans hw1
  have hBeq : B = w / (1 + Real.exp (-x)) := by
    rw [hB, Real.exp_neg]; field_simp; ring
  have ht1 : 1 + Real.exp (-x) ≤ 2 * κ := by linarith
  have ht2 : 1 + Real.exp x ≤ 2 * κ := by linarith
  have hBlow : 2 ^ (-1020 : ℤ) ≤ B := hlow hBeq (by positivity) (by norm_num; linarith)
  have hB'low : 2 ^ (-1020 : ℤ) ≤ B' := hlow hB' (by positivity) (by norm_num; linarith)
  have hBw : B ≤ w := by linarith
  have hB'w : B' ≤ w := by linarith
  obtain ⟨hpos, a, ya, ha, ha0, hya, -, hyaerr⟩ := log_chain c hBlow
    ((hBw.trans hw2).trans (zpow_le (by norm_num))) hA1 hε
  obtain ⟨hpos', b, yb, hb, hb0, hyb, -, hyberr⟩ := log_chain c hB'low
    ((hB'w.trans hw2).trans (zpow_le (by norm_num))) hA2 hε
  have hlogs : ∀ {z t : ℝ}, z = w / t → 1 ≤ t → t ≤ 2 * κ → |Real.log z| ≤ |Real.log w| + 2 * κ := by
    intro z t hz ht ht2
    rw [hz, Real.log_div hw.ne' (by linarith)]
    have h7 := Real.log_le_sub_one_of_pos (show 0 < t by linarith)
    have h8 := Real.log_nonneg ht
    have h9 := abs_sub (Real.log w) (Real.log t)
    rw [abs_of_nonneg h8] at h9
    linarith
  have hL1 := hlogs hBeq (by linarith) ht1
  have hL2 := hlogs hB' (by linarith) ht2
  have hdiff : Real.log B - Real.log B' = x := by
    rw [← Real.log_div hBpos.ne' hB'pos.ne', hB, hB']
    have : w * Real.exp x / (1 + Real.exp x) / (w / (1 + Real.exp x)) = Real.exp x := by field_simp
    rw [this, Real.log_exp]
  have hLw : |Real.log w| ≤ 901 := by
    have l0 := Real.log_two_gt_d9
    rw [abs_le]
    constructor
    · have := Real.log_le_log (by positivity) hw1
      rw [Real.log_zpow] at this
      push_cast at this
      linarith
    · have := Real.log_le_log hw hw2
      rw [Real.log_zpow] at this
      push_cast at this
      linarith
  clear hw1 hw2 hM hM2lt hBlow hB'low hlow hk
  have herr : |(ya - yb) - x| ≤ ulp * (2 * |Real.log w| + 112 * κ) := by
    have h7 : (ya - yb) - x = (ya - Real.log B) - (yb - Real.log B') := by rw [← hdiff]; ring
    rw [h7]
    refine (abs_sub _ _).trans ?_
    have h8 := mul_le_mul_of_nonneg_left hL1 hu.le
    have h9 := mul_le_mul_of_nonneg_left hL2 hu.le
    have h10 := mul_le_mul_of_nonneg_left hκ2 hu.le
    linarith
  have herr1 : ulp * (2 * |Real.log w| + 112 * κ) ≤ 1 := by
    rw [ulp_eq]; linarith
  have hxa : |x| ≤ 32 := abs_le.2 ⟨hx1, hx2⟩
  have hyab : |ya - yb| ≤ |x| + 1 := by
    have := abs_sub_abs_le_abs_sub (ya - yb) x
    linarith
  obtain ⟨y, hy, -, hyerr⟩ := rnd_error (x := ya - yb) (by
    have : |ya - yb| < 2 ^ 6 := by norm_num; linarith
    exact this.trans (pow_lt_pow_right₀ one_lt_two (by norm_num)))
  change |y - (ya - yb)| ≤ ulp * |ya - yb| + ulp / 256 at hyerr
  refine ⟨w', e, p, q, d, v, a, b, ya, yb, y, h1, h2, h3, h4, h5, h6, hv, by linarith, by linarith, ha, ha0, hb, hb0,
    hya, hyb, hy, ?_⟩
  have h45 : (2 : ℝ) ^ (-45 : ℤ) = 128 * ulp := by rw [ulp_eq]; norm_num
  rw [h45]
  have h7 : |y - x| ≤ |y - (ya - yb)| + |(ya - yb) - x| := by
    have := abs_add_le (y - (ya - yb)) ((ya - yb) - x)
    rwa [sub_add_sub_cancel] at this
  have h8 := mul_le_mul_of_nonneg_left hyab hu.le
  have h9 := mul_le_mul_of_nonneg_left hκ2 hu.le
  have h10 := mul_nonneg hu.le (abs_nonneg x)
  have h11 := mul_nonneg hu.le (abs_nonneg (Real.log w))
  linarith

/-- The bounds 0 and 1. -/
theorem unit_error {expR logR : ℝ → Flt} {sumR : List ℝ → Flt}
    (c : FloatContract (Binary64.ops expR logR sumR) (2 ^ 1024) (2 ^ (-1075 : ℤ))) {x : ℝ}
    (hx1 : -700 ≤ x) (hx2 : x ≤ 30) :
    ∃ e q v a b ya yb y, expR x = fin e ∧ Rep e ∧ rnd (1 + e) = fin q ∧ 0 < q ∧ rnd (e / q) = fin v ∧ Rep v ∧
      0 < v ∧ v < 1 ∧ rnd (v - 0) = fin a ∧ 0 < a ∧ rnd (1 - v) = fin b ∧ 0 < b ∧ logR a = fin ya ∧
      logR b = fin yb ∧ rnd (ya - yb) = fin y ∧ |y - x| ≤ 2 ^ (-47 : ℤ) * (|x| + 1 + Real.exp x) := by
  obtain ⟨e, he, he0, hre, -, herr⟩ := exp_error c (x := x) (by linarith) (by linarith)
  have hE := Real.exp_pos x
  have hu := ulp_pos
  have re : Rel 1 e (Real.exp x) := by unfold Rel; rw [one_mul]; exact herr
  have hE1 := exp_lower hx1
  have l2 := Real.log_two_gt_d9
  have hE2 : Real.exp x ≤ 2 ^ (44 : ℤ) := by
    rw [← Real.le_log_iff_exp_le (by positivity), Real.log_zpow]
    push_cast
    linarith
  have h1E : 0 < 1 + Real.exp x := by linarith
  have rq := re.one_add (by norm_num)
  obtain ⟨q, hq, -, rq'⟩ := rnd_rel (x := 1 + e)
    ((zpow_le (show (-1022 : ℤ) ≤ 0 by norm_num)).trans (by rw [zpow_zero]; linarith))
    (lt_of_le_of_lt (b := (2 : ℝ) ^ (46 : ℤ)) (by
      have := rq.upper h1E (by norm_num)
      norm_num at hE2 ⊢
      linarith) (zpow_lt_max (by norm_num)))
  have rqq := rq'.trans rq h1E (by norm_num) (by norm_num) (by norm_num) (by norm_num)
  have rd := re.div rqq hE h1E (by norm_num) (by norm_num) (by norm_num) (by norm_num)
  set B := Real.exp x / (1 + Real.exp x) with hB
  have hBpos : 0 < B := by positivity
  have hB1 : B < 1 := by rw [hB, div_lt_one h1E]; linarith
  have hBlow : (2 : ℝ) ^ (-1020 : ℤ) ≤ B := by
    have e1 : (2 : ℝ) ^ (-1020 : ℤ) ≤ 2 ^ (-1012 : ℤ) := zpow_le (by norm_num)
    have e2 := two_mul_zpow (-1012)
    have e4 : (2 : ℝ) ^ (-1012 : ℤ) ≤ 2 ^ (-1 : ℤ) := zpow_le (by norm_num)
    have e5 : (2 : ℝ) ^ (-1 : ℤ) = 1 / 2 := by norm_num
    refine e1.trans ?_
    rw [hB, le_div_iff₀ h1E]
    have e3 : 2 * (2 : ℝ) ^ (-1012 : ℤ) ≤ Real.exp x := by rw [e2]; exact hE1
    clear e1 e2 hE1
    rw [e5] at e4
    have := mul_le_mul_of_nonneg_right e4 hE.le
    linarith
  have hdlow : (2 : ℝ) ^ (-1022 : ℤ) ≤ e / q := by
    have h1 := rd.lower hBpos (by norm_num)
    have h2 := two_mul_zpow (-1022)
    have h3 : (2 : ℝ) ^ (-1022 + 1 : ℤ) ≤ 2 ^ (-1020 : ℤ) := zpow_le (by norm_num)
    have h4 := h3.trans hBlow
    rw [← h2] at h4
    clear h3 hBlow hE1
    linarith
  obtain ⟨v, hv, hvr, rv⟩ := rnd_rel (x := e / q) hdlow
    (lt_of_le_of_lt (b := (2 : ℝ) ^ (1 : ℤ)) (by
      have := rd.upper hBpos (by norm_num)
      rw [zpow_one]
      clear hBlow hdlow hE1
      linarith) (zpow_lt_max (by norm_num)))
  have rvv := (rv.trans rd hBpos (by norm_num) (by norm_num) (by norm_num) (by norm_num)).mono
    (show _ ≤ (7 : ℝ) by norm_num) hBpos
  set B' := 1 / (1 + Real.exp x) with hB'
  have hB'pos : 0 < B' := by positivity
  have hBB : B = Real.exp x * B' := by rw [hB, hB']; ring
  have hsum : B + B' = 1 := by rw [hB, hB']; field_simp; ring
  have hEr : Real.exp x ≤ 17592186044416 := by norm_num at hE2; exact hE2
  have hA1 : |(v - 0) - B| ≤ (7 * ulp) * B := by rw [sub_zero]; exact rvv
  have hA2 : |(1 - v) - B'| ≤ (7 * ulp * Real.exp x) * B' := by
    have h7 : (1 - v) - B' = -(v - B) := by
      have : B' = 1 - B := by linarith
      rw [this]; ring
    rw [h7, abs_neg]
    refine le_trans rvv (le_of_eq ?_)
    rw [hBB]
    ring
  have hB'low : (2 : ℝ) ^ (-1020 : ℤ) ≤ B' := by
    refine (zpow_le (show (-1020 : ℤ) ≤ -45 by norm_num)).trans ?_
    rw [hB', le_div_iff₀ h1E]
    norm_num
    linarith
  have hone : (1 : ℝ) ≤ 2 ^ (1021 : ℤ) := by
    have := zpow_le (show (0 : ℤ) ≤ 1021 by norm_num)
    rwa [zpow_zero] at this
  obtain ⟨hpos, a, ya, ha, ha0, hya, -, hyaerr⟩ := log_chain c hBlow (hB1.le.trans hone) hA1
    (by rw [ulp_eq]; norm_num)
  obtain ⟨hpos', b, yb, hb, hb0, hyb, -, hyberr⟩ := log_chain c hB'low
    ((show B' ≤ 1 by linarith).trans hone) hA2 (by rw [ulp_eq]; linarith)
  clear hE1 hE2 hBlow hdlow hB'low hone
  have hlog1 : |Real.log (1 + Real.exp x)| ≤ Real.exp x := by
    rw [abs_of_nonneg (Real.log_nonneg (by linarith))]
    have := Real.log_le_sub_one_of_pos h1E
    linarith
  have hL1 : |Real.log B| ≤ |x| + Real.exp x := by
    rw [hB, Real.log_div hE.ne' h1E.ne', Real.log_exp]
    exact (abs_sub _ _).trans (by linarith)
  have hL2 : |Real.log B'| ≤ Real.exp x := by
    rw [hB', one_div, Real.log_inv, abs_neg]
    exact hlog1
  have hdiff : Real.log B - Real.log B' = x := by
    rw [hBB, Real.log_mul hE.ne' hB'pos.ne', Real.log_exp]
    ring
  have h8 := mul_le_mul_of_nonneg_left hL1 hu.le
  have h9 := mul_le_mul_of_nonneg_left hL2 hu.le
  have herr : |(ya - yb) - x| ≤ ulp * (22 + |x| + 16 * Real.exp x) := by
    have h7 : (ya - yb) - x = (ya - Real.log B) - (yb - Real.log B') := by rw [← hdiff]; ring
    rw [h7]
    refine (abs_sub _ _).trans ?_
    linarith
  have hxa : |x| ≤ 700 := abs_le.2 ⟨hx1, by linarith⟩
  have herr1 : ulp * (22 + |x| + 16 * Real.exp x) ≤ 1 := by
    rw [ulp_eq]; linarith
  have hyab : |ya - yb| ≤ |x| + 1 := by
    have := abs_sub_abs_le_abs_sub (ya - yb) x
    linarith
  obtain ⟨y, hy, -, hyerr⟩ := rnd_error (x := ya - yb) (by
    have : |ya - yb| < 2 ^ 10 := by norm_num; linarith
    exact this.trans (pow_lt_pow_right₀ one_lt_two (by norm_num)))
  change |y - (ya - yb)| ≤ ulp * |ya - yb| + ulp / 256 at hyerr
  refine ⟨e, q, v, a, b, ya, yb, y, he, hre, hq, rqq.pos h1E (by norm_num), hv, hvr, by linarith, by linarith, ha, ha0,
    hb, hb0, hya, hyb, hy, ?_⟩
  have h47 : (2 : ℝ) ^ (-47 : ℤ) = 32 * ulp := by rw [ulp_eq]; norm_num
  rw [h47]
  have h7 : |y - x| ≤ |y - (ya - yb)| + |(ya - yb) - x| := by
    have := abs_add_le (y - (ya - yb)) ((ya - yb) - x)
    rwa [sub_add_sub_cancel] at this
  have h10 := mul_le_mul_of_nonneg_left hyab hu.le
  have h11 := mul_nonneg hu.le (abs_nonneg x)
  have h12 := mul_nonneg hu.le hE.le
  linarith

end Binary64

end

end LRVB
