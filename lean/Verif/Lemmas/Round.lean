import Verif.Spec.Round
import Mathlib.Analysis.SpecialFunctions.Log.Deriv
import Mathlib.Analysis.Complex.ExponentialBounds

/-!
# Double precision satisfies the contract
-/

namespace LRVB

open Classical Flt

noncomputable section

namespace Binary64

theorem rne_intCast (z : ℤ) : rne (z : ℝ) = z := by
  simp [rne]

theorem rne_neg (m : ℝ) : rne (-m) = -rne m := by
  by_cases hz : m = ⌊m⌋
  · rw [hz, ← Int.cast_neg, rne_intCast, rne_intCast]
  have h1 := Int.floor_le m
  have h2 := Int.lt_floor_add_one m
  have h3 : (⌊m⌋ : ℝ) < m := lt_of_le_of_ne h1 (fun h => hz h.symm)
  have hf : ⌊-m⌋ = -⌊m⌋ - 1 := by
    rw [Int.floor_eq_iff]
    push_cast
    constructor <;> linarith
  unfold rne
  rw [hf]
  push_cast
  split_ifs with a b c d e f g h <;> first | linarith | skip
  all_goals first
    | (exfalso; linarith)
    | omega
    | (exfalso; simp only [Int.even_sub_one, even_neg] at *; tauto)

theorem rne_mono {a b : ℝ} (h : a ≤ b) : rne a ≤ rne b := by
  have hf : ⌊a⌋ ≤ ⌊b⌋ := Int.floor_mono h
  rcases eq_or_lt_of_le hf with e | l
  · unfold rne
    rw [e]
    split_ifs <;> first | omega | (exfalso; linarith)
  · have h1 : rne a ≤ ⌊a⌋ + 1 := by unfold rne; split_ifs <;> omega
    have h2 : ⌊b⌋ ≤ rne b := by unfold rne; split_ifs <;> omega
    omega

theorem two_zpow_pos (e : ℤ) : (0 : ℝ) < 2 ^ e := zpow_pos two_pos e

theorem expo_neg (x : ℝ) : expo (-x) = expo x := by simp [expo]

theorem near_neg (x : ℝ) : near (-x) = -near x := by
  unfold near
  rw [expo_neg, neg_div, rne_neg]
  push_cast
  ring

/-- A multiple of a coarser power of two is a multiple of the last place. -/
theorem near_of_int {x : ℝ} {m : ℤ} {e : ℤ} (h : x = m * 2 ^ e) (he : expo x ≤ e) : near x = x := by
  obtain ⟨k, hk⟩ : ∃ k : ℕ, e = expo x + k := ⟨(e - expo x).toNat, by omega⟩
  have hd : x / 2 ^ expo x = ((m * 2 ^ k : ℤ) : ℝ) := by
    rw [div_eq_iff (two_zpow_pos _).ne']
    conv_lhs => rw [h, hk, zpow_add₀ two_ne_zero, zpow_natCast]
    push_cast
    ring
  unfold near
  rw [hd, rne_intCast, ← hd, div_mul_cancel₀ _ (two_zpow_pos _).ne']

theorem expo_mono {x y : ℝ} (hx : 0 < x) (h : x ≤ y) : expo x ≤ expo y := by
  unfold expo
  rw [abs_of_pos hx, abs_of_pos (hx.trans_le h)]
  have := Int.log_mono_right (b := 2) hx h
  omega

/-- Scaled rounding lies above a multiple of the last place when the number does. -/
theorem le_near {x : ℝ} {m : ℤ} {e : ℤ} (h : (m : ℝ) * 2 ^ e ≤ x) (he : expo x ≤ e) :
    (m : ℝ) * 2 ^ e ≤ near x := by
  obtain ⟨k, hk⟩ : ∃ k : ℕ, e = expo x + k := ⟨(e - expo x).toNat, by omega⟩
  have hd : ((m * 2 ^ k : ℤ) : ℝ) ≤ x / 2 ^ expo x := by
    rw [le_div_iff₀ (two_zpow_pos _)]
    refine le_trans (le_of_eq ?_) h
    conv_rhs => rw [hk, zpow_add₀ two_ne_zero, zpow_natCast]
    push_cast
    ring
  have h1 := rne_mono hd
  rw [rne_intCast] at h1
  unfold near
  have h2 : ((m * 2 ^ k : ℤ) : ℝ) * 2 ^ expo x ≤ rne (x / 2 ^ expo x) * 2 ^ expo x :=
    mul_le_mul_of_nonneg_right (by exact_mod_cast h1) (two_zpow_pos _).le
  refine le_trans (le_of_eq ?_) h2
  conv_lhs => rw [hk, zpow_add₀ two_ne_zero, zpow_natCast]
  push_cast
  ring

theorem near_le {x : ℝ} {m : ℤ} {e : ℤ} (h : x ≤ (m : ℝ) * 2 ^ e) (he : expo x ≤ e) :
    near x ≤ (m : ℝ) * 2 ^ e := by
  have h1 : ((-m : ℤ) : ℝ) * 2 ^ e ≤ -x := by push_cast; linarith
  have h2 := le_near h1 (by rw [expo_neg]; exact he)
  rw [near_neg] at h2
  push_cast at h2
  linarith

theorem near_zero : near 0 = 0 := by
  have : rne (0 : ℝ) = 0 := by simpa using rne_intCast 0
  simp [near, this]

/-- Above the smallest exponent the leading digit is not zero. -/
theorem pow_le_of_expo {x : ℝ} (hx : 0 < x) (h : -1074 < expo x) : (2 : ℝ) ^ (expo x + 52) ≤ x := by
  have h1 : expo x + 52 = Int.log 2 |x| := by unfold expo at *; omega
  rw [h1, abs_of_pos hx]
  have := Int.zpow_log_le_self (b := 2) one_lt_two hx
  exact_mod_cast this

theorem lt_pow_of_expo {x : ℝ} (hx : 0 < x) {e : ℤ} (h : expo x ≤ e) : x < 2 ^ (e + 53) := by
  have h1 : Int.log 2 |x| - 52 ≤ expo x := le_max_left _ _
  have h2 := Int.lt_zpow_succ_log_self (b := 2) one_lt_two x
  rw [abs_of_pos hx] at h1
  refine lt_of_lt_of_le (by exact_mod_cast h2) ?_
  exact zpow_le_zpow_right₀ one_le_two (by omega)

theorem near_mono_pos {x y : ℝ} (hx : 0 < x) (h : x ≤ y) : near x ≤ near y := by
  rcases eq_or_lt_of_le (expo_mono hx h) with e | l
  · unfold near
    rw [e]
    exact mul_le_mul_of_nonneg_right
      (by exact_mod_cast rne_mono (div_le_div_of_nonneg_right h (two_zpow_pos _).le)) (two_zpow_pos _).le
  · have hy : 0 < y := hx.trans_le h
    have he : -1074 < expo y := lt_of_le_of_lt (le_max_right _ _) l
    have h1 := pow_le_of_expo hy he
    have h2 := lt_pow_of_expo hx (e := expo y - 1) (by omega)
    rw [show expo y - 1 + 53 = expo y + 52 by ring] at h2
    have h3 := near_le (x := x) (m := 1) (e := expo y + 52) (by simpa using h2.le) (by omega)
    have h4 := le_near (x := y) (m := 1) (e := expo y + 52) (by simpa using h1) (by omega)
    linarith

theorem near_nonneg {x : ℝ} (hx : 0 ≤ x) : 0 ≤ near x := by
  have := le_near (x := x) (m := 0) (e := expo x) (by simpa using hx) le_rfl
  simpa using this

theorem near_mono {x y : ℝ} (h : x ≤ y) : near x ≤ near y := by
  rcases lt_trichotomy x 0 with hx | hx | hx
  · rcases lt_or_ge y 0 with hy | hy
    · have := near_mono_pos (neg_pos.2 hy) (neg_le_neg h)
      rw [near_neg, near_neg] at this
      linarith
    · have h1 := near_nonneg (x := -x) (by linarith)
      rw [near_neg] at h1
      linarith [near_nonneg hy]
  · rw [hx, near_zero]
    exact near_nonneg (by linarith)
  · exact near_mono_pos hx h

theorem pow1024 : (2 : ℝ) ^ (1024 : ℕ) = 2 ^ (1024 : ℤ) := by
  rw [← zpow_natCast]
  rfl

theorem near_big {x : ℝ} (h : 2 ^ 1024 ≤ x) : 2 ^ 1024 ≤ near x := by
  have hp : (0 : ℝ) < 2 ^ 1024 := by positivity
  have hx : 0 < x := hp.trans_le h
  rcases le_or_gt (expo x) 1024 with he | he
  · have h1 := le_near (x := x) (m := 1) (e := 1024) (by rw [Int.cast_one, one_mul, ← pow1024]; exact h) he
    rw [Int.cast_one, one_mul, ← pow1024] at h1
    exact h1
  · have h1 := pow_le_of_expo hx (by omega)
    have h2 := le_near (x := x) (m := 1) (e := expo x + 52) (by simpa using h1) (by omega)
    rw [Int.cast_one, one_mul] at h2
    refine le_trans ?_ h2
    rw [pow1024]
    exact zpow_le_zpow_right₀ one_le_two (by omega)

theorem rnd_neg (x : ℝ) : rnd (-x) = -rnd x := by
  unfold rnd
  rw [near_neg, abs_neg]
  by_cases h : |near x| < 2 ^ 1024
  · rw [if_pos h, if_pos h]
    rfl
  · rw [if_neg h, if_neg h]
    rcases lt_trichotomy x 0 with hx | hx | hx
    · rw [if_pos (by linarith), if_neg (by linarith)]
      rfl
    · exfalso
      apply h
      rw [hx, near_zero]
      norm_num
    · rw [if_neg (by linarith), if_pos hx]
      rfl

theorem rnd_mono {x y : ℝ} (h : x ≤ y) : rnd x ≤ rnd y := by
  have hm := near_mono h
  unfold rnd
  by_cases h1 : |near x| < 2 ^ 1024
  · rw [if_pos h1]
    by_cases h2 : |near y| < 2 ^ 1024
    · rw [if_pos h2]
      exact hm
    · rw [if_neg h2]
      have hy : 0 < y := by
        by_contra hy
        have h3 := near_nonneg (x := -y) (by linarith)
        rw [near_neg] at h3
        apply h2
        rw [abs_of_nonpos (by linarith)]
        rw [abs_of_nonpos (by linarith)] at h1
        linarith
      rw [if_pos hy]
      trivial
  · rw [if_neg h1]
    rcases lt_or_ge 0 x with hx | hx
    · rw [if_pos hx]
      have h3 := near_nonneg hx.le
      rw [abs_of_nonneg h3, not_lt] at h1
      rw [if_neg (by rw [abs_of_nonneg (h3.trans hm), not_lt]; exact h1.trans hm), if_pos (by linarith)]
      trivial
    · rw [if_neg (by linarith)]
      split_ifs <;> trivial

theorem rep_rnd {x r : ℝ} (h : rnd x = fin r) : Rep r := by
  unfold rnd at h
  split_ifs at h with h1
  cases h
  wlog hx : 0 ≤ x with H
  · obtain ⟨m, e, h2, h3, h4, h5⟩ := H (x := -x) (by rw [near_neg, abs_neg]; exact h1) (by linarith)
    rw [near_neg] at h5
    exact ⟨-m, e, by rwa [abs_neg], h3, h4, by push_cast; linarith⟩
  rcases eq_or_lt_of_le hx with h0 | h0
  · rw [← h0, near_zero]
    exact ⟨0, 0, by norm_num, by norm_num, by norm_num, by simp⟩
  rw [abs_of_nonneg (near_nonneg hx)] at h1
  have h2 := lt_pow_of_expo h0 (e := expo x) le_rfl
  have h3 : rne (x / 2 ^ expo x) ≤ 2 ^ 53 := by
    have h4 : x / 2 ^ expo x ≤ ((2 ^ 53 : ℤ) : ℝ) := by
      rw [div_le_iff₀ (two_zpow_pos _)]
      refine h2.le.trans (le_of_eq ?_)
      rw [zpow_add₀ two_ne_zero, mul_comm]
      norm_num
    have := rne_mono h4
    rwa [rne_intCast] at this
  have h4 : 0 ≤ rne (x / 2 ^ expo x) := by
    have h5 : ((0 : ℤ) : ℝ) ≤ x / 2 ^ expo x := by
      push_cast
      exact div_nonneg hx (two_zpow_pos _).le
    have := rne_mono h5
    rwa [rne_intCast] at this
  have hlow : -1074 ≤ expo x := le_max_right _ _
  rcases eq_or_lt_of_le h3 with h5 | h5
  · refine ⟨2 ^ 52, expo x + 1, by norm_num, by omega, ?_, ?_⟩
    · unfold near at h1
      rw [h5, pow1024] at h1
      have h6 : (2 : ℝ) ^ (expo x + 53) < 2 ^ (1024 : ℤ) := by
        refine lt_of_eq_of_lt ?_ h1
        rw [zpow_add₀ two_ne_zero, mul_comm]
        norm_num
      have := (zpow_lt_zpow_iff_right₀ (one_lt_two (α := ℝ))).1 h6
      omega
    · unfold near
      rw [h5, zpow_add₀ two_ne_zero]
      norm_num
      ring
  · refine ⟨rne (x / 2 ^ expo x), expo x, by rwa [abs_of_nonneg h4], hlow, ?_, rfl⟩
    by_contra hc
    have h6 := pow_le_of_expo h0 (by omega)
    have h7 := le_near (x := x) (m := 1) (e := expo x + 52) (by simpa using h6) (by omega)
    rw [Int.cast_one, one_mul] at h7
    rw [pow1024] at h1
    have h8 := (zpow_lt_zpow_iff_right₀ (one_lt_two (α := ℝ))).1 (lt_of_le_of_lt h7 h1)
    omega

theorem Rep.neg {x : ℝ} (h : Rep x) : Rep (-x) := by
  obtain ⟨m, e, h1, h2, h3, h4⟩ := h
  exact ⟨-m, e, by rwa [abs_neg], h2, h3, by rw [h4]; push_cast; ring⟩

theorem Rep.lt {x : ℝ} (h : Rep x) : x < 2 ^ 1024 := by
  obtain ⟨m, e, h1, h2, h3, h4⟩ := h
  have h5 : (m : ℝ) < 2 ^ 53 := by exact_mod_cast lt_of_le_of_lt (le_abs_self m) h1
  rw [h4]
  calc (m : ℝ) * 2 ^ e < 2 ^ 53 * 2 ^ e := mul_lt_mul_of_pos_right h5 (two_zpow_pos _)
    _ ≤ 2 ^ 53 * 2 ^ (971 : ℤ) := by
      refine mul_le_mul_of_nonneg_left (zpow_le_zpow_right₀ one_le_two h3) (by positivity)
    _ = 2 ^ 1024 := by
      rw [pow1024, ← zpow_natCast, ← zpow_add₀ two_ne_zero]
      rfl

theorem Rep.near {x : ℝ} (h : Rep x) : Binary64.near x = x := by
  obtain ⟨m, e, h1, h2, h3, h4⟩ := h
  by_cases hx : x = 0
  · rw [hx, near_zero]
  refine near_of_int h4 ?_
  unfold expo
  refine max_le ?_ h2
  have h5 : |x| < ((2 : ℕ) : ℝ) ^ (e + 53) := by
    rw [h4, abs_mul, abs_of_pos (two_zpow_pos e), zpow_add₀ (by norm_num), mul_comm]
    push_cast
    have h6 : |(m : ℝ)| < 2 ^ 53 := by exact_mod_cast h1
    exact mul_lt_mul_of_pos_left (by exact_mod_cast h6) (two_zpow_pos e)
  have := (Int.lt_zpow_iff_log_lt one_lt_two (abs_pos.2 hx)).1 h5
  omega

theorem rnd_rep {x : ℝ} (h : Rep x) : rnd x = fin x := by
  unfold rnd
  rw [h.near, if_pos]
  have h2 := h.neg.lt
  exact abs_lt.2 ⟨by linarith, h.lt⟩

theorem rnd_over {x : ℝ} (h : 2 ^ 1024 ≤ x) : rnd x = pinf := by
  have h1 := near_big h
  unfold rnd
  rw [if_neg (by rw [not_lt]; exact h1.trans (le_abs_self _)),
    if_pos (lt_of_lt_of_le (by positivity) h)]

theorem rnd_under {x : ℝ} (h0 : 0 ≤ x) (h : x ≤ 2 ^ (-1075 : ℤ)) : rnd x = fin 0 := by
  have h1 : near x = 0 := by
    refine le_antisymm ?_ (near_nonneg h0)
    refine (near_mono h).trans (le_of_eq ?_)
    have he : expo (2 ^ (-1075 : ℤ)) = -1074 := by
      unfold expo
      rw [abs_of_pos (two_zpow_pos _)]
      have := Int.log_zpow (R := ℝ) one_lt_two (-1075) (b := 2)
      rw [show ((2 : ℝ) ^ (-1075 : ℤ)) = ((2 : ℕ) : ℝ) ^ (-1075 : ℤ) by norm_cast, this]
      norm_num
    unfold near
    rw [he]
    have h2 : (2 : ℝ) ^ (-1075 : ℤ) / 2 ^ (-1074 : ℤ) = 1 / 2 := by
      rw [← zpow_sub₀ two_ne_zero]
      norm_num
    rw [h2]
    have h3 : rne (1 / 2) = 0 := by
      have : ⌊(1 / 2 : ℝ)⌋ = 0 := by norm_num
      unfold rne
      rw [this]
      norm_num
    rw [h3]
    simp
  unfold rnd
  rw [h1, if_pos (by rw [abs_zero]; positivity)]

/-- Correctly rounded library functions, and sums from left to right. -/
def ideal : FloatOps :=
  ops (fun x => rnd (Real.exp x)) (fun x => rnd (Real.log x))
    (fun l => l.foldl (fun s a => match s + fin a with | fin r => rnd r | y => y) (fin 0))

theorem rnd_mono_le {f x : ℝ} (hf : Rep f) (h : f ≤ x) : fin f ≤ rnd x := by
  have := rnd_mono h
  rwa [rnd_rep hf] at this

theorem rnd_mono_ge {f x : ℝ} (hf : Rep f) (h : x ≤ f) : rnd x ≤ fin f := by
  have := rnd_mono h
  rwa [rnd_rep hf] at this

theorem rnd_finite {x : ℝ} (h : |x| ≤ 2 ^ 1023) : ∃ r, rnd x = fin r ∧ Rep r := by
  have hrep : Rep (2 ^ 1023) := by
    refine ⟨2 ^ 52, 971, by norm_num, by norm_num, by norm_num, ?_⟩
    rw [Int.cast_pow, ← zpow_natCast, ← zpow_natCast, Int.cast_ofNat, ← zpow_add₀ two_ne_zero]
    rfl
  obtain ⟨h1, h2⟩ := abs_le.1 h
  have h3 := rnd_mono_ge hrep h2
  have h4 := rnd_mono_le hrep.neg h1
  cases hr : rnd x with
  | fin r => exact ⟨r, rfl, rep_rnd hr⟩
  | pinf => rw [hr] at h3; exact h3.elim
  | ninf => rw [hr] at h4; exact h4.elim
  | nan => rw [hr] at h3; exact h3.elim

private theorem sum_mono (l : List ℝ) (hl : ∀ b ∈ l, 0 ≤ b) (a : ℝ) (ha : Rep a) (s : Flt) (h0 : fin a ≤ s) :
    fin a ≤ l.foldl (fun s a => match s + fin a with | fin r => rnd r | y => y) s := by
  induction l generalizing s with
  | nil => exact h0
  | cons b l ih =>
    refine ih (fun c hc => hl c (by simp [hc])) _ ?_
    have hb := hl b (by simp)
    cases s with
    | fin r =>
      have hr : a ≤ r := h0
      exact rnd_mono_le ha (show a ≤ r + b by linarith)
    | pinf => trivial
    | ninf => exact h0.elim
    | nan => exact h0.elim

theorem Rep.ge {x : ℝ} (hx : 0 < x) (h : Rep x) : (2 : ℝ) ^ (-1074 : ℤ) ≤ x := by
  obtain ⟨m, e, h1, h2, h3, h4⟩ := h
  have hm : 1 ≤ m := by
    by_contra hc
    have h5 : (m : ℝ) ≤ 0 := by exact_mod_cast (by omega : m ≤ 0)
    have := mul_nonpos_of_nonpos_of_nonneg h5 (two_zpow_pos e).le
    linarith
  rw [h4]
  calc (2 : ℝ) ^ (-1074 : ℤ) ≤ 2 ^ e := zpow_le_zpow_right₀ one_le_two h2
    _ ≤ m * 2 ^ e := le_mul_of_one_le_left (two_zpow_pos e).le (by exact_mod_cast hm)

theorem log_bound {x : ℝ} (hx : 0 < x) (h : Rep x) : |Real.log x| ≤ 2 ^ 1023 := by
  have h2 : Real.log 2 ≤ 1 := by linarith [Real.log_two_lt_d9]
  have h3 : 0 < Real.log 2 := Real.log_pos one_lt_two
  have h1 : |Real.log x| ≤ 2 ^ 11 := by
    rw [abs_le]
    constructor
    · have := Real.log_le_log (two_zpow_pos _) (h.ge hx)
      rw [Real.log_zpow] at this
      push_cast at this
      nlinarith
    · have := Real.log_le_log hx h.lt.le
      rw [Real.log_pow] at this
      push_cast at this
      nlinarith
  exact h1.trans (pow_le_pow_right₀ one_le_two (by norm_num))

private theorem sum_mono_le (l : List ℝ) (hl : ∀ b ∈ l, b ≤ 1) (n : ℕ) (hn : ∀ k ≤ n + l.length, Rep k) (s : Flt)
    (h0 : s ≤ fin n) :
    l.foldl (fun s a => match s + fin a with | fin r => rnd r | y => y) s ≤ fin (n + l.length : ℕ) := by
  induction l generalizing s n with
  | nil => simpa using h0
  | cons b l ih =>
    have hb := hl b (by simp)
    have := ih (fun c hc => hl c (by simp [hc])) (n + 1) (fun k hk => hn k (by simp at hk ⊢; omega))
      (match s + fin b with | fin r => rnd r | y => y) (by
        cases s with
        | fin r =>
          have hr : r ≤ n := h0
          exact rnd_mono_ge (hn (n + 1) (by simp)) (show r + b ≤ ((n + 1 : ℕ) : ℝ) by push_cast; linarith)
        | pinf => exact h0.elim
        | ninf => trivial
        | nan => exact h0.elim)
    rw [List.length_cons, show n + (l.length + 1) = n + 1 + l.length by omega]
    exact this

/-- Double precision with these functions meets the contract. -/
theorem contract : FloatContract ideal (2 ^ 1024) (2 ^ (-1075 : ℤ)) where
  zero := ⟨0, 0, by norm_num, by norm_num, by norm_num, by simp⟩
  one := ⟨1, 0, by norm_num, by norm_num, by norm_num, by simp⟩
  neg := Rep.neg
  rnd_rep := rnd_rep
  rep_rnd := rep_rnd
  rnd_mono := rnd_mono
  rnd_neg := rnd_neg _
  rnd_over := rnd_over
  rep_exp := rep_rnd
  exp_ge := rnd_mono_le
  exp_le := rnd_mono_ge
  exp_over := rnd_over
  exp_under := rnd_under (Real.exp_pos _).le
  under_pos := two_zpow_pos _
  rep_log h hr := rnd_finite (log_bound h hr)
  log_ge _ := rnd_mono_le
  log_le _ := rnd_mono_ge
  sum_ge := by
    intro l a hl ha hr
    obtain ⟨l1, l2, rfl⟩ := List.append_of_mem ha
    have h1 := sum_mono l1 (fun b hb => hl b (by simp [hb])) 0
      ⟨0, 0, by norm_num, by norm_num, by norm_num, by simp⟩ (fin 0) (show (0 : ℝ) ≤ 0 from le_rfl)
    simp only [ideal, ops, List.foldl_append, List.foldl_cons]
    generalize l1.foldl (fun s a => match s + fin a with | fin r => rnd r | y => y) (fin 0) = s at h1
    refine sum_mono l2 (fun b hb => hl b (by simp [hb])) a hr _ ?_
    cases s with
    | fin r =>
      have h2 : (0 : ℝ) ≤ r := h1
      exact rnd_mono_le hr (show a ≤ r + a by linarith)
    | pinf => trivial
    | ninf => exact h1.elim
    | nan => exact h1.elim
  sum_le := by
    intro l hl hr
    have := sum_mono_le l (fun b hb => (hl b hb).2) 0 (fun k hk => hr k (by simpa using hk)) (fin 0) (show (0 : ℝ) ≤ (0 : ℕ) by simp)
    simpa [ideal, ops] using this

end Binary64

end

end LRVB
