import Verif.Lemmas.Round2

/-!
# Double precision: particular results and error bounds
-/

namespace LRVB

open Classical Flt

noncomputable section

namespace Binary64

theorem expo_eq {x : ℝ} {k : ℤ} (h1 : 2 ^ k ≤ x) (h2 : x < 2 ^ (k + 1)) (hk : -1022 ≤ k) : expo x = k - 52 := by
  have hx : 0 < x := (two_zpow_pos k).trans_le h1
  have hl : Int.log 2 x = k := by
    refine le_antisymm ?_ ?_
    · have := (Int.lt_zpow_iff_log_lt (b := 2) one_lt_two hx (x := k + 1)).1 (by exact_mod_cast h2)
      omega
    · exact (Int.zpow_le_iff_le_log (b := 2) one_lt_two hx).1 (by exact_mod_cast h1)
  unfold expo
  rw [abs_of_pos hx, hl]
  omega

/-- Less than half of the last place is lost. -/
theorem near_add {m : ℤ} {E : ℤ} {t : ℝ} (he : expo (m * 2 ^ E + t) = E) (h0 : 0 ≤ t) (h1 : t < 2 ^ E / 2) :
    near (m * 2 ^ E + t) = m * 2 ^ E := by
  unfold near
  rw [he]
  have hE := two_zpow_pos E
  have h2 : ((m : ℝ) * 2 ^ E + t) / 2 ^ E = m + t / 2 ^ E := by
    field_simp
  have h3 : 0 ≤ t / 2 ^ E := div_nonneg h0 hE.le
  have h4 : t / 2 ^ E < 1 / 2 := by
    rw [div_lt_iff₀ hE]
    linarith
  have hf : ⌊(m : ℝ) + t / 2 ^ E⌋ = m := by
    rw [Int.floor_eq_iff]
    constructor <;> linarith
  rw [h2]
  congr 1
  unfold rne
  rw [hf, if_pos (by linarith)]

/-- Adding one to a large number does not change it. -/
theorem near_one_add {e : ℝ} (hr : Rep e) (he : 2 ^ 55 ≤ e) : near (1 + e) = e := by
  have h0 : 0 < e := lt_of_lt_of_le (by positivity) he
  set k := Int.log 2 e with hk
  have h1 : (2 : ℝ) ^ k ≤ e := by exact_mod_cast Int.zpow_log_le_self (b := 2) one_lt_two h0
  have h2 : e < 2 ^ (k + 1) := by exact_mod_cast Int.lt_zpow_succ_log_self (b := 2) one_lt_two e
  have hk55 : 55 ≤ k := by
    refine (Int.zpow_le_iff_le_log (b := 2) one_lt_two h0).1 ?_
    refine le_trans (le_of_eq ?_) he
    norm_cast
  have hE := expo_eq h1 h2 (by omega)
  have hn := hr.near
  unfold near at hn
  rw [hE] at hn
  set M := rne (e / 2 ^ (k - 52)) with hM
  have hp := two_zpow_pos (k - 52)
  have hsplit : (2 : ℝ) ^ (k + 1) = 2 ^ 53 * 2 ^ (k - 52) := by
    rw [← zpow_natCast, ← zpow_add₀ two_ne_zero]
    congr 1
    push_cast
    ring
  have hM1 : M + 1 ≤ 2 ^ 53 := by
    rw [← hn, hsplit] at h2
    have := lt_of_mul_lt_mul_right h2 hp.le
    have h3 : M < 2 ^ 53 := by exact_mod_cast this
    omega
  have h8 : (8 : ℝ) ≤ 2 ^ (k - 52) := by
    have : (2 : ℝ) ^ (3 : ℤ) ≤ 2 ^ (k - 52) := zpow_le_zpow_right₀ one_le_two (by omega)
    norm_num at this
    exact this
  have h4 : 1 + e < 2 ^ (k + 1) := by
    rw [hsplit]
    have h5 : ((M : ℝ) + 1) * 2 ^ (k - 52) ≤ 2 ^ 53 * 2 ^ (k - 52) :=
      mul_le_mul_of_nonneg_right (by exact_mod_cast hM1) hp.le
    have h6 : ((M : ℝ) + 1) * 2 ^ (k - 52) = e + 2 ^ (k - 52) := by
      rw [add_mul, hn, one_mul]
    linarith
  have hE' := expo_eq (x := 1 + e) (by linarith) h4 (by omega)
  have h7 : 1 + e = M * 2 ^ (k - 52) + 1 := by rw [hn]; ring
  rw [h7] at hE' ⊢
  rw [near_add hE' zero_le_one (by linarith), hn]

theorem rnd_of_near {x y : ℝ} (h : near x = y) (hy : Rep y) : rnd x = fin y := by
  have h1 := hy.lt
  have h2 := hy.neg.lt
  unfold rnd
  rw [h, if_pos (abs_lt.2 ⟨by linarith, h1⟩)]

/-- A faithful result has an error of less than a unit in the last place. -/
theorem faithful_error {r f : ℝ} (hr : 0 < r) (hb : r < 2 ^ 1023)
    (h1 : ∀ g, Rep g → g ≤ r → g ≤ f) (h2 : ∀ g, Rep g → r ≤ g → f ≤ g) :
    |f - r| ≤ 2 ^ (-52 : ℤ) * r + 2 ^ (-1074 : ℤ) ∧ (2 ^ (-1022 : ℤ) ≤ r → |f - r| ≤ 2 ^ (-52 : ℤ) * r) := by
  have hp := two_zpow_pos (expo r)
  have hfl := Int.floor_le (r / 2 ^ expo r)
  have hfu := Int.lt_floor_add_one (r / 2 ^ expo r)
  set m := ⌊r / 2 ^ expo r⌋ with hm
  have hm0 : 0 ≤ m := Int.floor_nonneg.2 (div_nonneg hr.le hp.le)
  have hlt := lt_pow_of_expo hr (e := expo r) le_rfl
  have hm1 : m < 2 ^ 53 := by
    have h3 : (m : ℝ) * 2 ^ expo r ≤ r := by rwa [← le_div_iff₀ hp]
    have h4 : (2 : ℝ) ^ (expo r + 53) = 2 ^ 53 * 2 ^ expo r := by
      rw [zpow_add₀ two_ne_zero, mul_comm]
      norm_num
    rw [h4] at hlt
    have h5 := lt_of_mul_lt_mul_right (lt_of_le_of_lt h3 hlt) hp.le
    exact_mod_cast h5
  have hlow : -1074 ≤ expo r := le_max_right _ _
  have hhigh : expo r ≤ 970 := by
    by_contra hc
    have h3 := pow_le_of_expo hr (by omega)
    have h4 : (2 : ℝ) ^ (1023 : ℕ) = 2 ^ (1023 : ℤ) := by rw [← zpow_natCast]; rfl
    rw [h4] at hb
    have := (zpow_lt_zpow_iff_right₀ (one_lt_two (α := ℝ))).1 (lt_of_le_of_lt h3 hb)
    omega
  have hg1 : Rep (m * 2 ^ expo r) := ⟨m, expo r, by rwa [abs_of_nonneg hm0], hlow, by omega, rfl⟩
  have hg2 : Rep ((m + 1) * 2 ^ expo r) := by
    rcases eq_or_lt_of_le (show m + 1 ≤ 2 ^ 53 by omega) with h | h
    · refine ⟨2 ^ 52, expo r + 1, by norm_num, by omega, by omega, ?_⟩
      have h3 : ((m : ℝ) + 1) = 2 ^ 53 := by exact_mod_cast h
      rw [h3, zpow_add₀ two_ne_zero]
      norm_num
      ring
    · exact ⟨m + 1, expo r, by rwa [abs_of_nonneg (by omega)], hlow, by omega, by push_cast; ring⟩
  have e1 := h1 _ hg1 (by rwa [← le_div_iff₀ hp])
  have e2 := h2 _ hg2 (by rw [← div_le_iff₀ hp]; exact hfu.le)
  have e3 : (m : ℝ) * 2 ^ expo r ≤ r := by rwa [← le_div_iff₀ hp]
  have e4 : r ≤ ((m : ℝ) + 1) * 2 ^ expo r := by rw [← div_le_iff₀ hp]; exact hfu.le
  have herr : |f - r| ≤ 2 ^ expo r := by
    rw [abs_le]
    constructor <;> nlinarith
  have hcase : -1074 < expo r → (2 : ℝ) ^ expo r ≤ 2 ^ (-52 : ℤ) * r := by
    intro h
    have h3 := pow_le_of_expo hr h
    rw [zpow_add₀ two_ne_zero] at h3
    have h4 : (2 : ℝ) ^ (-52 : ℤ) * 2 ^ (52 : ℤ) = 1 := by
      rw [← zpow_add₀ two_ne_zero]
      norm_num
    calc (2 : ℝ) ^ expo r = 2 ^ (-52 : ℤ) * (2 ^ expo r * 2 ^ (52 : ℤ)) := by linear_combination -(2 : ℝ) ^ expo r * h4
      _ ≤ _ := mul_le_mul_of_nonneg_left h3 (two_zpow_pos _).le
  constructor
  · rcases eq_or_lt_of_le hlow with h | h
    · rw [← h] at herr
      have := mul_pos (two_zpow_pos (-52)) hr
      linarith
    · have := two_zpow_pos (-1074)
      linarith [hcase h]
  · intro hn
    rcases eq_or_lt_of_le hlow with h | h
    · refine herr.trans ?_
      rw [← h]
      refine le_trans (le_of_eq ?_) (mul_le_mul_of_nonneg_left hn (two_zpow_pos _).le)
      rw [← zpow_add₀ two_ne_zero]
      norm_num
    · exact herr.trans (hcase h)

end Binary64

end

end LRVB
