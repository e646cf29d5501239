import Verif.Lemmas.Round8
import Verif.Spec.RoundPosDef

/-!
# Numbers that are lost in an addition
-/

namespace LRVB

open Classical Flt

noncomputable section

namespace Binary64

/-- Adding a number that is much smaller does not change a double. -/
theorem near_absorb {x t : ℝ} {k : ℤ} (hr : Rep x) (hk : 2 ^ k ≤ x) (hk0 : -1000 ≤ k) (ht : |t| ≤ 2 ^ (k - 55)) :
    near (x + t) = x := by
  have h0 : 0 < x := (two_zpow_pos k).trans_le hk
  set j := Int.log 2 x with hj
  have h1 : (2 : ℝ) ^ j ≤ x := by exact_mod_cast Int.zpow_log_le_self (b := 2) one_lt_two h0
  have h2 : x < 2 ^ (j + 1) := by exact_mod_cast Int.lt_zpow_succ_log_self (b := 2) one_lt_two x
  have hkj : k ≤ j := (Int.zpow_le_iff_le_log (b := 2) one_lt_two h0).1 (by exact_mod_cast hk)
  have ht' : |t| ≤ 2 ^ (j - 55) := ht.trans (zpow_le (by omega))
  have hE := expo_eq h1 h2 (by omega)
  have hn := hr.near
  unfold near at hn
  rw [hE] at hn
  set M := rne (x / 2 ^ (j - 52)) with hM
  have e55 : (2 : ℝ) ^ (j - 52) = 8 * 2 ^ (j - 55) := by
    rw [show j - 52 = 3 + (j - 55) by ring, zpow_add₀ two_ne_zero]
    norm_num
  have e53 : (2 : ℝ) ^ (j - 53) = 4 * 2 ^ (j - 55) := by
    rw [show j - 53 = 2 + (j - 55) by ring, zpow_add₀ two_ne_zero]
    norm_num
  have e52 : (2 : ℝ) ^ (j - 52) = 2 * 2 ^ (j - 53) := by rw [e55, e53]; ring
  have hp := two_zpow_pos (j - 55)
  have hp2 := two_zpow_pos (j - 52)
  rcases le_total 0 t with h | h
  · rw [abs_of_nonneg h] at ht'
    have hsplit : (2 : ℝ) ^ (j + 1) = 2 ^ 53 * 2 ^ (j - 52) := by
      rw [← zpow_natCast, ← zpow_add₀ two_ne_zero]
      congr 1
      push_cast
      ring
    have hM1 : M + 1 ≤ 2 ^ 53 := by
      rw [← hn, hsplit] at h2
      have := lt_of_mul_lt_mul_right h2 hp2.le
      have h3 : M < 2 ^ 53 := by exact_mod_cast this
      omega
    have h4 : x + t < 2 ^ (j + 1) := by
      rw [hsplit]
      have h5 : ((M : ℝ) + 1) * 2 ^ (j - 52) ≤ 2 ^ 53 * 2 ^ (j - 52) :=
        mul_le_mul_of_nonneg_right (by exact_mod_cast hM1) hp2.le
      have h6 : ((M : ℝ) + 1) * 2 ^ (j - 52) = x + 2 ^ (j - 52) := by
        rw [add_mul, hn, one_mul]
      linarith
    have hE' := expo_eq (x := x + t) (by linarith) h4 (by omega)
    have h7 : x + t = M * 2 ^ (j - 52) + t := by rw [hn]
    rw [h7] at hE' ⊢
    rw [near_add hE' h (by linarith), hn]
  · rw [abs_of_nonpos h] at ht'
    have e1 : (2 : ℝ) ^ j = 2 ^ 55 * 2 ^ (j - 55) := by
      rw [← zpow_natCast, ← zpow_add₀ two_ne_zero]
      congr 1
      push_cast
      ring
    have e2 : (2 : ℝ) ^ (j - 1) = 2 ^ 54 * 2 ^ (j - 55) := by
      rw [← zpow_natCast, ← zpow_add₀ two_ne_zero]
      congr 1
      push_cast
      ring
    have hy : (2 : ℝ) ^ (j - 1) ≤ x + t := by
      rw [e2]
      rw [e1] at h1
      linarith
    have hy2 : x + t < 2 ^ (j + 1) := by linarith
    rw [show x + t = -(-(x + t)) by ring, near_neg]
    rw [show x = -(-x) by ring]
    congr 1
    rcases lt_or_ge (x + t) (2 ^ j) with hc | hc
    · have hE' := expo_eq (x := x + t) (k := j - 1) hy (by rwa [sub_add_cancel]) (by omega)
      rw [show j - 1 - 52 = j - 53 by ring] at hE'
      have h7 : -(-(-x) + t) = ((-(2 * M) : ℤ) : ℝ) * 2 ^ (j - 53) + -t := by
        rw [← hn, e52]
        push_cast
        ring
      rw [h7, near_add (by rw [← h7, neg_neg, expo_neg]; exact hE') (by linarith) (by linarith)]
      rw [← hn, e52]
      push_cast
      ring
    · have hE' := expo_eq (x := x + t) (k := j) hc hy2 (by omega)
      have h7 : -(-(-x) + t) = ((-M : ℤ) : ℝ) * 2 ^ (j - 52) + -t := by
        rw [← hn]
        push_cast
        ring
      rw [h7, near_add (by rw [← h7, neg_neg, expo_neg]; exact hE') (by linarith) (by linarith)]
      rw [← hn]
      push_cast
      ring

theorem rnd_absorb {x t : ℝ} {k : ℤ} (hr : Rep x) (hk : 2 ^ k ≤ x) (hk0 : -1000 ≤ k) (ht : |t| ≤ 2 ^ (k - 55)) :
    rnd (x + t) = fin x := rnd_of_near (near_absorb hr hk hk0 ht) hr

theorem rnd_absorb_neg {x t : ℝ} {k : ℤ} (hr : Rep x) (hk : 2 ^ k ≤ -x) (hk0 : -1000 ≤ k) (ht : |t| ≤ 2 ^ (k - 55)) :
    rnd (x + t) = fin x := by
  refine rnd_of_near ?_ hr
  have := near_absorb hr.neg hk hk0 (t := -t) (by rwa [abs_neg])
  rw [show -x + -t = -(x + t) by ring, near_neg] at this
  linarith

/-- One diagonal entry of `exp_matrix_diagonal`. -/
theorem expDiag_app {expR logR : ℝ → Flt} {sumR : List ℝ → Flt}
    (c : FloatContract (Binary64.ops expR logR sumR) (2 ^ 1024) (2 ^ (-1075 : ℤ))) {d : ℝ} (hr : Rep d)
    (hd1 : -2 ^ 100 ≤ d) (hd : d ≤ 100) :
    ∃ l, (Binary64.ops expR logR sumR).sub ((Binary64.ops expR logR sumR).add
        ((Binary64.ops expR logR sumR).exp (fin d)) (fin d)) (fin d) = fin l ∧ Rep l ∧
      App 5 l (Real.exp d) (Real.exp d + 2 * |d| + 3) := by
  obtain ⟨e, he, he0, hre, herr⟩ := exp_error' c (x := d) (by linarith)
  have hu := ulp_pos
  have htau : (2 : ℝ) ^ (-1074 : ℤ) ≤ ulp / 256 := tiny
  have hE := Real.exp_pos d
  have hE2 : Real.exp d ≤ 2 ^ 150 := by
    rw [← Real.le_log_iff_exp_le (by positivity), Real.log_pow]
    have := Real.log_two_gt_d9
    push_cast
    linarith
  have hda : |d| ≤ 2 ^ 100 := abs_le.2 ⟨by linarith, by linarith [show (100 : ℝ) ≤ 2 ^ 100 by norm_num]⟩
  have a1 : App 1 e (Real.exp d) (Real.exp d + 1) :=
    ⟨by rw [abs_of_pos hE]; linarith, by linarith, by nlinarith⟩
  have a2 : App 0 d d (|d| + 1) := App.exact (by linarith) (by linarith [abs_nonneg d])
  obtain ⟨s, hs, hrs, a3⟩ := (App.add (m := 1) a1 a2 le_rfl (by norm_num)).rnd (by norm_num) (by norm_num)
    (by norm_num at hE2 hda ⊢; linarith)
  have a4 := App.add (m := 3) a3 a2.neg (by norm_num) (by norm_num)
  obtain ⟨l, hl, hrl, a5⟩ := a4.rnd (by norm_num) (by norm_num) (by norm_num at hE2 hda ⊢; linarith)
  refine ⟨l, ?_, hrl, ?_⟩
  · have k1 : (Binary64.ops expR logR sumR).exp (fin d) = fin e := he
    have k2 : (Binary64.ops expR logR sumR).add (fin e) (fin d) = fin s := hs
    rw [k1, k2]
    exact hl
  · rw [add_neg_cancel_right] at a5
    exact a5.mono (by norm_num) (by norm_num) (by linarith)

/-- A small exponential is lost: the diagonal entry is zero. -/
theorem expDiag_zero {expR logR : ℝ → Flt} {sumR : List ℝ → Flt}
    (c : FloatContract (Binary64.ops expR logR sumR) (2 ^ 1024) (2 ^ (-1075 : ℤ))) {d : ℝ} (hr : Rep d)
    (hd : d ≤ -35) :
    (Binary64.ops expR logR sumR).sub ((Binary64.ops expR logR sumR).add
        ((Binary64.ops expR logR sumR).exp (fin d)) (fin d)) (fin d) = fin 0 := by
  have hE : Real.exp d ≤ 2 ^ (-50 : ℤ) := by
    rw [← Real.le_log_iff_exp_le (two_zpow_pos _), Real.log_zpow]
    have := Real.log_two_lt_d9
    push_cast
    linarith
  obtain ⟨e, he, he0, he1⟩ := Flt.between_fin (c.exp_nonneg d)
    (c.exp_le (x := d) (rep_zpow (-50) (by norm_num) (by norm_num)) hE)
  have h1 : Binary64.rnd (e + d) = fin d := by
    rw [add_comm]
    refine rnd_absorb_neg (k := 5) hr (by norm_num; linarith) (by norm_num) ?_
    rw [abs_of_nonneg he0]
    exact he1
  have k1 : (Binary64.ops expR logR sumR).exp (fin d) = fin e := he
  have k2 : (Binary64.ops expR logR sumR).add (fin e) (fin d) = fin d := h1
  rw [k1, k2]
  show Binary64.rnd (d + -d) = fin 0
  rw [add_neg_cancel]
  exact c.rnd_rep c.zero

/-- A logarithm that is lost: the free value is zero. -/
theorem logDiag_zero {expR logR : ℝ → Flt} {sumR : List ℝ → Flt}
    (c : FloatContract (Binary64.ops expR logR sumR) (2 ^ 1024) (2 ^ (-1075 : ℤ))) {q : ℝ} (hr : Rep q)
    (hq : 2 ^ (64 : ℤ) ≤ q) (hq2 : q ≤ 2 ^ (600 : ℤ)) :
    (Binary64.ops expR logR sumR).sub ((Binary64.ops expR logR sumR).add
        ((Binary64.ops expR logR sumR).log (fin q)) (fin q)) (fin q) = fin 0 := by
  have hq0 : 0 < q := (two_zpow_pos _).trans_le hq
  have hL : Real.log q ≤ 512 := by
    have h1 := Real.log_le_log hq0 hq2
    rw [Real.log_zpow] at h1
    have := Real.log_two_lt_d9
    push_cast at h1
    linarith
  have hL0 : 0 ≤ Real.log q := Real.log_nonneg (le_trans (one_le_zpow₀ one_le_two (by norm_num)) hq)
  obtain ⟨y, hy, hy0, hy1⟩ := Flt.between_fin (c.log_ge hq0 c.zero hL0)
    (c.log_le hq0 (f := 512) (by exact_mod_cast rep_nat 512 (by norm_num)) hL)
  have h1 : Binary64.rnd (y + q) = fin q := by
    rw [add_comm]
    refine rnd_absorb (k := 64) hr hq (by norm_num) ?_
    rw [abs_of_nonneg hy0]
    norm_num
    linarith
  have k1 : (Binary64.ops expR logR sumR).log (fin q) = fin y := by
    show (if 0 < q then logR q else Flt.log (fin q)) = fin y
    rw [if_pos hq0]
    exact hy
  have k2 : (Binary64.ops expR logR sumR).add (fin y) (fin q) = fin q := h1
  rw [k1, k2]
  show Binary64.rnd (q + -q) = fin 0
  rw [add_neg_cancel]
  exact c.rnd_rep c.zero

/-- The square root of a sum that contains a square and zeros. -/
theorem square_root {l : ℝ} (h1 : 2 ^ (-450 : ℤ) ≤ l) (h2 : l ≤ 2 ^ (450 : ℤ)) {n : ℕ} (hn : n ≤ 2 ^ 40) :
    ∃ p, rnd (l * l) = fin p ∧ |p| ≤ 2 ^ (1000 : ℤ) ∧ ∀ a, |a - p| ≤ 2 * ulp * n * |p| →
      0 < a ∧ ∃ q, rnd (Real.sqrt a) = fin q ∧ Rep q ∧ 0 < q ∧ l / 4 ≤ q ∧ q ≤ 4 * l ∧
        |Real.log q - Real.log l| ≤ (2 * n + 3) * ulp := by
  have hl0 : 0 < l := (two_zpow_pos _).trans_le h1
  have hu := ulp_pos
  have hll1 : (2 : ℝ) ^ (-900 : ℤ) ≤ l * l := by
    rw [show (-900 : ℤ) = -450 + -450 by norm_num, zpow_add₀ two_ne_zero]
    exact mul_le_mul h1 h1 (two_zpow_pos _).le hl0.le
  have hll2 : l * l ≤ (2 : ℝ) ^ (900 : ℤ) := by
    rw [show (900 : ℤ) = 450 + 450 by norm_num, zpow_add₀ two_ne_zero]
    exact mul_le_mul h2 h2 hl0.le (two_zpow_pos _).le
  have hllp := mul_pos hl0 hl0
  obtain ⟨p, hp, -, hrel⟩ := rnd_rel ((zpow_le (by norm_num)).trans hll1)
    (lt_of_le_of_lt hll2 (zpow_lt_max (by norm_num)))
  have hp0 := hrel.pos hllp (by norm_num)
  have hplo := hrel.lower hllp (by norm_num)
  have hphi := hrel.upper hllp (by norm_num)
  refine ⟨p, hp, ?_, ?_⟩
  · rw [abs_of_pos hp0]
    refine hphi.trans ((mul_le_mul_of_nonneg_left hll2 zero_le_two).trans ?_)
    rw [two_mul_zpow]
    exact zpow_le (by norm_num)
  intro a ha
  rw [abs_of_pos hp0] at ha
  have hn' : (n : ℝ) ≤ 2 ^ 40 := by exact_mod_cast hn
  have hε : 2 * ulp * n ≤ 1 / 2 := by
    rw [ulp_eq]
    generalize (n : ℝ) = m at *
    norm_num at hn' ⊢
    linarith
  obtain ⟨ha0, hla⟩ := log_close hp0 ha hε
  obtain ⟨ha1, ha2⟩ := abs_le.1 ha
  have hεp : 2 * ulp * n * p ≤ 1 / 2 * p := mul_le_mul_of_nonneg_right hε hp0.le
  have halo : l * l / 4 ≤ a := by linarith
  have hahi : a ≤ 4 * (l * l) := by linarith
  obtain ⟨q, hq, hrq, hq0, hrelq⟩ := App.sqrt (a := a)
    (by
      have : (2 : ℝ) ^ (-900 : ℤ) / 4 = 2 ^ (-902 : ℤ) := by
        rw [show (-900 : ℤ) = -902 + 2 by norm_num, zpow_add₀ two_ne_zero]
        norm_num
      have h3 : (2 : ℝ) ^ (-902 : ℤ) ≤ a := by
        rw [← this]
        exact (div_le_div_of_nonneg_right hll1 (by norm_num)).trans halo
      exact (zpow_le (by norm_num)).trans h3)
    (by
      have : 4 * (2 : ℝ) ^ (900 : ℤ) = 2 ^ (902 : ℤ) := by
        rw [show (902 : ℤ) = 2 + 900 by norm_num, zpow_add₀ two_ne_zero]
        norm_num
      have h3 : a ≤ (2 : ℝ) ^ (902 : ℤ) := by
        rw [← this]
        exact hahi.trans (mul_le_mul_of_nonneg_left hll2 (by norm_num))
      exact h3.trans (zpow_le (by norm_num)))
  clear hll1 hll2 h1 h2
  have hlp := (log_close (a := p) (b := l * l) (ε := ulp) hllp (by simpa [Rel] using hrel)
    (by rw [ulp_eq]; norm_num)).2
  have hlq := (log_close (a := q) (b := Real.sqrt a) (ε := ulp) (Real.sqrt_pos.2 ha0) (by simpa [Rel] using hrelq)
    (by rw [ulp_eq]; norm_num)).2
  rw [Real.log_sqrt ha0.le] at hlq
  rw [Real.log_mul hl0.ne' hl0.ne'] at hlp
  have hlog : |Real.log q - Real.log l| ≤ (2 * n + 3) * ulp := by
    rw [abs_le] at hlp hlq hla ⊢
    constructor <;> linarith [hlp.1, hlp.2, hlq.1, hlq.2, hla.1, hla.2]
  refine ⟨ha0, q, hq, hrq, hq0, ?_, ?_, hlog⟩
  all_goals
    have h3 : (2 * (n : ℝ) + 3) * ulp ≤ 1 := by
      rw [ulp_eq]
      generalize (n : ℝ) = m at *
      norm_num at hn' ⊢
      linarith
    have h4 := abs_le.1 (hlog.trans h3)
    have h5 : Real.exp 1 ≤ 4 := by linarith [Real.exp_one_lt_d9]
  · have : Real.log l ≤ Real.log q + 1 := by linarith [h4.1]
    have h6 := Real.exp_le_exp.2 this
    rw [Real.exp_add, Real.exp_log hl0, Real.exp_log hq0] at h6
    nlinarith
  · have : Real.log q ≤ Real.log l + 1 := by linarith [h4.2]
    have h6 := Real.exp_le_exp.2 this
    rw [Real.exp_add, Real.exp_log hl0, Real.exp_log hq0] at h6
    nlinarith

/-- One diagonal entry of `log_matrix_diagonal`. -/
theorem logDiag_app {expR logR : ℝ → Flt} {sumR : List ℝ → Flt}
    (c : FloatContract (Binary64.ops expR logR sumR) (2 ^ 1024) (2 ^ (-1075 : ℤ))) {q : ℝ} (hr : Rep q)
    (hq : 0 < q) (hq2 : q ≤ 2 ^ 100) (hL : |Real.log q| ≤ 2 ^ 100) :
    ∃ r, (Binary64.ops expR logR sumR).sub ((Binary64.ops expR logR sumR).add
        ((Binary64.ops expR logR sumR).log (fin q)) (fin q)) (fin q) = fin r ∧
      |r - Real.log q| ≤ 6 * ulp * (|Real.log q| + 2 * q + 3) := by
  obtain ⟨y, hy, hry, hyerr⟩ := log_error c hq hr (lt_of_le_of_lt hL (pow_lt_pow_right₀ one_lt_two (by norm_num)))
  have hu := ulp_pos
  change |y - Real.log q| ≤ ulp * |Real.log q| + ulp / 256 at hyerr
  have a1 : App 2 y (Real.log q) (|Real.log q| + 1) :=
    ⟨by linarith, by linarith [abs_nonneg (Real.log q)], by nlinarith [abs_nonneg (Real.log q)]⟩
  have a2 : App 0 q q (q + 1) := App.exact (by rw [abs_of_pos hq]; linarith) (by linarith)
  obtain ⟨s, hs, -, a3⟩ := (App.add (m := 2) a1 a2 le_rfl (by norm_num)).rnd (by norm_num) (by norm_num)
    (by norm_num at hq2 hL ⊢; linarith)
  obtain ⟨r, hr', -, a5⟩ := (App.add (m := 4) a3 a2.neg (by norm_num) (by norm_num)).rnd (by norm_num) (by norm_num)
    (by norm_num at hq2 hL ⊢; linarith)
  refine ⟨r, ?_, ?_⟩
  · have k1 : (Binary64.ops expR logR sumR).log (fin q) = fin y := by
      show (if 0 < q then logR q else Flt.log (fin q)) = fin y
      rw [if_pos hq]
      exact hy
    have k2 : (Binary64.ops expR logR sumR).add (fin y) (fin q) = fin s := hs
    rw [k1, k2]
    exact hr'
  · rw [add_neg_cancel_right] at a5
    refine a5.err.trans (le_of_eq ?_)
    ring

end Binary64

end

end LRVB
