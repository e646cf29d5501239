import Verif.Props.RoundNormal
import Verif.Props.Normal

/-!
# C135: the moment parameterization in floating point
-/

namespace LRVB

open Classical Flt ProbabilityTheory MeasureTheory

noncomputable section

/-- **C135** In every arithmetic, the variance that `UVNMomentParamArray` reports after
`set_from_uvn_param_array` is not negative, unless the square of a mean overflows. -/
theorem C135_not_negative {o : FloatOps} {over under : ℝ} (c : FloatContract o over under) (uvns : List (ℝ × ℝ))
    (hi : ∀ a ∈ uvns, 0 < a.2) (hq : ∀ a ∈ uvns, ∃ q, o.square (fin a.1) = fin q) :
    ∀ p ∈ o.momFromUvn (uvns.map fun a => (fin a.1, fin a.2)), fin 0 ≤ o.momVar p.1 p.2 := by
  intro p hp
  unfold FloatOps.momFromUvn at hp
  rw [List.map_map] at hp
  obtain ⟨a, ha, rfl⟩ := List.mem_map.1 hp
  obtain ⟨q, hq⟩ := hq a ha
  have hi := hi a ha
  have hrq : o.Rep q := c.rep_rnd (x := a.1 * a.1) hq
  simp only [Function.comp, FloatOps.momVar, FloatOps.uvnEOuter, hq]
  have hd : o.div (fin 1) (fin a.2) = o.rnd (1 / a.2) := by
    show o.round (Flt.div (fin 1) (fin a.2)) = _
    simp only [Flt.div, if_neg hi.ne']
    rfl
  rw [hd]
  have hsub : ∀ x : Flt, fin q ≤ x → fin 0 ≤ o.sub x (fin q) := by
    intro x hx
    rcases Flt.le_cases hx with h | ⟨r, h, hr⟩
    · subst h; exact trivial
    · subst h
      exact c.le_rnd c.zero (show (0 : ℝ) ≤ r + -q by linarith)
  apply hsub
  rcases Flt.le_cases (c.le_rnd c.zero (show (0 : ℝ) ≤ 1 / a.2 by positivity)) with h | ⟨v, h, hv⟩
  · rw [h]; exact trivial
  · rw [h]
    exact c.le_rnd hrq (show q ≤ q + v by linarith)

/-- **C135** In every arithmetic, after `set_from_constant` the variance is exactly zero and `e_exp()` is the
exponential of the constant, unless its square overflows. -/
theorem C135_constant {o : FloatOps} {over under : ℝ} (c : FloatContract o over under) (values : List ℝ)
    (hr : ∀ v ∈ values, o.Rep v) (hq : ∀ v ∈ values, ∃ q, o.square (fin v) = fin q) :
    ∀ p ∈ o.momFromConstant (values.map fin), o.momVar p.1 p.2 = fin 0 ∧ o.momEExp p.1 p.2 = o.exp p.1 := by
  intro p hp
  unfold FloatOps.momFromConstant at hp
  rw [List.map_map] at hp
  obtain ⟨v, hv, rfl⟩ := List.mem_map.1 hp
  obtain ⟨q, hq⟩ := hq v hv
  have h1 : o.momVar (fin v) (o.square (fin v)) = fin 0 := by
    unfold FloatOps.momVar
    rw [hq]
    show o.rnd (q + -q) = fin 0
    rw [add_neg_cancel]
    exact c.rnd_rep c.zero
  refine ⟨h1, ?_⟩
  simp only [Function.comp, FloatOps.momEExp, FloatOps.getELognormal, h1]
  have h2 : o.mul (fin (1 / 2)) (fin 0) = fin 0 := by
    show o.rnd (1 / 2 * 0) = fin 0
    rw [mul_zero]
    exact c.rnd_rep c.zero
  have h3 : o.add (fin v) (fin 0) = fin v := by
    show o.rnd (v + 0) = fin v
    rw [add_zero]
    exact c.rnd_rep (hr v hv)
  rw [h2, h3]

namespace Binary64

/-- `1 / info`. -/
theorem recip_rel {expR logR : ℝ → Flt} {sumR : List ℝ → Flt} {i : ℝ} (h1 : 2 ^ (-1000 : ℤ) ≤ i)
    (h2 : i ≤ 2 ^ (1000 : ℤ)) :
    ∃ v, (Binary64.ops expR logR sumR).div (fin 1) (fin i) = fin v ∧ Rep v ∧ Binary64.Rel 1 v (1 / i) := by
  have hi : 0 < i := (two_zpow_pos _).trans_le h1
  have l1 : (2 : ℝ) ^ (-1000 : ℤ) ≤ 1 / i := by
    rw [le_div_iff₀ hi]
    refine (mul_le_mul_of_nonneg_left h2 (two_zpow_pos _).le).trans (le_of_eq ?_)
    rw [← zpow_add₀ two_ne_zero]
    rfl
  have l2 : 1 / i ≤ 2 ^ (1000 : ℤ) := by
    rw [div_le_iff₀ hi]
    refine le_trans (le_of_eq ?_) (mul_le_mul_of_nonneg_left h1 (two_zpow_pos _).le)
    rw [← zpow_add₀ two_ne_zero]
    rfl
  obtain ⟨v, v1, v2, v3⟩ := rnd_rel (x := 1 / i) ((zpow_le (by norm_num)).trans l1)
    (lt_of_le_of_lt l2 (zpow_lt_max (by norm_num)))
  refine ⟨v, ?_, v2, v3⟩
  show (Binary64.ops expR logR sumR).round (Flt.div (fin 1) (fin i)) = _
  simp only [Flt.div, if_neg hi.ne']
  exact v1

end Binary64

open Binary64 in
/-- **C135** In double precision the variance after `set_from_uvn_param_array` is that of the original parameter up
to a relative error of `2^-49 (1 + mean² info)`. -/
theorem C135_variance_partial (expR logR : ℝ → Flt) (sumR : List ℝ → Flt) (uvns : List (ℝ × ℝ))
    (hm : ∀ a ∈ uvns, |a.1| ≤ 2 ^ (400 : ℤ)) (hi : ∀ a ∈ uvns, 2 ^ (-400 : ℤ) ≤ a.2 ∧ a.2 ≤ 2 ^ (400 : ℤ)) :
    List.Forall₂ (fun a p => ∃ r, (Binary64.ops expR logR sumR).momVar p.1 p.2 = fin r ∧
        |r - Var[id; normal a.1 a.2]| ≤ 2 ^ (-49 : ℤ) * (1 + a.1 ^ 2 * a.2) * Var[id; normal a.1 a.2])
      uvns ((Binary64.ops expR logR sumR).momFromUvn (uvns.map fun a => (fin a.1, fin a.2))) := by
  unfold FloatOps.momFromUvn
  rw [List.map_map, List.forall₂_map_right_iff]
  refine List.forall₂_same.2 fun a ha => ?_
  obtain ⟨m, i⟩ := a
  have hm := hm _ ha
  obtain ⟨hi1, hi2⟩ := hi _ ha
  simp only [Function.comp] at hm hi1 hi2 ⊢
  have hi0 : 0 < i := (two_zpow_pos _).trans_le hi1
  have hV : Var[id; normal m i] = 1 / i := by
    unfold normal
    rw [variance_id_gaussianReal, varOf_coe hi0]
  rw [hV]
  have hu := ulp_pos
  have hu1 := ulp_le
  have hv1 : (2 : ℝ) ^ (-400 : ℤ) ≤ 1 / i := by
    rw [le_div_iff₀ hi0]
    refine (mul_le_mul_of_nonneg_left hi2 (two_zpow_pos _).le).trans (le_of_eq ?_)
    rw [← zpow_add₀ two_ne_zero]
    rfl
  have hv2 : 1 / i ≤ 2 ^ (400 : ℤ) := by
    rw [div_le_iff₀ hi0]
    refine le_trans (le_of_eq ?_) (mul_le_mul_of_nonneg_left hi1 (two_zpow_pos _).le)
    rw [← zpow_add₀ two_ne_zero]
    rfl
  have hmm : m * m ≤ 2 ^ (800 : ℤ) := by
    rw [← abs_mul_abs_self]
    refine (mul_le_mul hm hm (abs_nonneg _) (two_zpow_pos _).le).trans (le_of_eq ?_)
    rw [← zpow_add₀ two_ne_zero]
    rfl
  obtain ⟨v, v1, v2, v3⟩ := recip_rel (expR := expR) (logR := logR) (sumR := sumR) (i := i)
    ((zpow_le (by norm_num)).trans hi1) (hi2.trans (zpow_le (by norm_num)))
  unfold Binary64.Rel at v3
  have hτ : (2 : ℝ) ^ (-1074 : ℤ) ≤ ulp * (1 / i) := by
    refine le_trans ?_ (mul_le_mul_of_nonneg_left hv1 hu.le)
    unfold ulp
    rw [← zpow_add₀ two_ne_zero]
    exact zpow_le (by norm_num)
  have hmm0 : 0 ≤ m * m := mul_self_nonneg m
  have hw0 : 0 < 1 / i := by positivity
  have key : m ^ 2 * i * (1 / i) = m * m := by field_simp
  have hbig : m * m + 1 / i ≤ 2 ^ (900 : ℤ) := by
    refine (add_le_add (hmm.trans (zpow_le (show (800 : ℤ) ≤ 899 by norm_num)))
      (hv2.trans (zpow_le (show (400 : ℤ) ≤ 899 by norm_num)))).trans (le_of_eq ?_)
    rw [← two_mul, two_mul_zpow]
    rfl
  have hbig2 : 8 * (2 : ℝ) ^ (900 : ℤ) < 2 ^ 1023 := by
    rw [show (8 : ℝ) * 2 ^ (900 : ℤ) = 2 * (2 * (2 * 2 ^ (900 : ℤ))) by ring, two_mul_zpow, two_mul_zpow,
      two_mul_zpow]
    exact zpow_lt_max (by norm_num)
  have hlt : ∀ x, |x| ≤ 8 * (m * m + 1 / i) → |x| < 2 ^ 1023 := fun x hx =>
    lt_of_le_of_lt (hx.trans (mul_le_mul_of_nonneg_left hbig (by norm_num))) hbig2
  have rerr : ∀ x, |x| ≤ 8 * (m * m + 1 / i) → ∃ r, rnd x = fin r ∧ |r - x| ≤ ulp * |x| + ulp * (1 / i) := by
    intro x hx
    obtain ⟨r, r1, -, r3⟩ := rnd_error0 (hlt x hx)
    exact ⟨r, r1, r3.trans (by linarith)⟩
  clear hlt hτ hbig hbig2 hmm hv1 hv2 hi1 hi2 hm
  set w := 1 / i with hw
  obtain ⟨q, q1, q2⟩ := rerr (m * m) (by rw [abs_of_nonneg hmm0]; linarith)
  rw [abs_of_nonneg hmm0] at q2
  obtain ⟨q3, q4⟩ := abs_le.1 q2
  obtain ⟨v4, v5⟩ := abs_le.1 v3
  have huw : ulp * w ≤ 1 / 10000 * w := mul_le_mul_of_nonneg_right hu1 hw0.le
  have huw0 : 0 ≤ ulp * w := by positivity
  have hum : ulp * (m * m) ≤ 1 / 10000 * (m * m) := mul_le_mul_of_nonneg_right hu1 hmm0
  have hum0 : 0 ≤ ulp * (m * m) := by positivity
  have hqv : |q + v| ≤ 2 * (m * m + w) := by
    rw [abs_le]
    constructor <;> linarith
  obtain ⟨a, a1, a2⟩ := rerr (q + v) (by linarith)
  have a3 : |a - (q + v)| ≤ 2 * (ulp * (m * m)) + 3 * (ulp * w) := by
    have := mul_le_mul_of_nonneg_left hqv hu.le
    linarith
  obtain ⟨a4, a5⟩ := abs_le.1 a3
  have haq : |a + -q| ≤ 2 * (m * m + w) := by
    rw [abs_le]
    constructor <;> linarith
  have haq2 : |a + -q| ≤ 2 * w + m * m := by
    rw [abs_le]
    constructor <;> linarith
  obtain ⟨r, r1, r2⟩ := rerr (a + -q) (by linarith)
  have r3 : |r - (a + -q)| ≤ ulp * (m * m) + 3 * (ulp * w) := by
    have := mul_le_mul_of_nonneg_left haq2 hu.le
    linarith
  obtain ⟨r4, r5⟩ := abs_le.1 r3
  refine ⟨r, ?_, ?_⟩
  · have k1 : (Binary64.ops expR logR sumR).square (fin m) = fin q := q1
    have k2 : (Binary64.ops expR logR sumR).add (fin q) (fin v) = fin a := a1
    simp only [FloatOps.momVar, FloatOps.uvnEOuter, k1, v1, k2]
    exact r1
  · have e1 : (2 : ℝ) ^ (-49 : ℤ) * (1 + m ^ 2 * i) * w = 8 * (ulp * w) + 8 * (ulp * (m * m)) := by
      rw [show (2 : ℝ) ^ (-49 : ℤ) = 8 * ulp by rw [ulp_eq]; norm_num, ← key]
      ring
    rw [e1, abs_le]
    constructor <;> linarith

namespace Binary64

/-- `np.log(2 * math.pi)`. -/
theorem log_two_pi {expR logR : ℝ → Flt} {sumR : List ℝ → Flt}
    (c : FloatContract (Binary64.ops expR logR sumR) (2 ^ 1024) (2 ^ (-1075 : ℤ))) :
    ∃ y, (Binary64.ops expR logR sumR).log
        ((Binary64.ops expR logR sumR).mul (fin 2) (Binary64.ops expR logR sumR).pi) = fin y ∧ Rep y ∧
      App 4 y (Real.log (2 * Real.pi)) 2 := by
  have hp3 := Real.pi_gt_three
  have hp4 := Real.pi_le_four
  have hu := ulp_pos
  have hu1 := ulp_le
  obtain ⟨q, h1, h2, h3⟩ := rnd_rel (x := Real.pi)
    (((zpow_le (j := -1022) (k := 0) (by norm_num)).trans (by simp)).trans (show (1 : ℝ) ≤ _ by linarith))
    (lt_of_le_of_lt ((show Real.pi ≤ 2 ^ (3 : ℤ) by norm_num; linarith)) (zpow_lt_max (by norm_num)))
  have hq := abs_le.1 (show |q - Real.pi| ≤ 1 * ulp * Real.pi from h3)
  have hpi : Real.pi < 3.15 := Real.pi_lt_d2
  have hclose : |2 * q - 2 * Real.pi| ≤ ulp * (2 * Real.pi) := by
    rw [abs_le]
    constructor <;> linarith [hq.1, hq.2]
  have hL1 : Real.log (2 * Real.pi) ≤ 2 := by
    rw [Real.log_le_iff_le_exp (by positivity)]
    have e1 : Real.exp 2 = Real.exp 1 * Real.exp 1 := by rw [← Real.exp_add]; norm_num
    have e2 := Real.exp_one_gt_d9
    rw [e1]
    have : 2.7 * 2.7 ≤ Real.exp 1 * Real.exp 1 :=
      mul_le_mul (by linarith) (by linarith) (by norm_num) (Real.exp_pos _).le
    linarith
  have hL0 : 0 ≤ Real.log (2 * Real.pi) := Real.log_nonneg (by linarith)
  have hB1 : (2 : ℝ) ^ (-1020 : ℤ) ≤ 2 * Real.pi := by
    have : (2 : ℝ) ^ (-1020 : ℤ) ≤ 2 ^ (0 : ℤ) := zpow_le (by norm_num)
    rw [zpow_zero] at this
    linarith
  have hB2 : 2 * Real.pi ≤ 2 ^ (1021 : ℤ) := by
    have : (2 : ℝ) ^ (3 : ℤ) ≤ 2 ^ (1021 : ℤ) := zpow_le (by norm_num)
    refine le_trans ?_ this
    norm_num
    linarith
  obtain ⟨-, a, y, ha, ha0, hy, hry, hyerr⟩ := log_chain c hB1 hB2 hclose (by linarith)
  clear hB1 hB2
  refine ⟨y, ?_, hry, ?_⟩
  · have k1 : (Binary64.ops expR logR sumR).pi = fin q := h1
    have k2 : (Binary64.ops expR logR sumR).mul (fin 2) (fin q) = fin a := ha
    rw [k1, k2]
    show (if 0 < a then (Binary64.ops expR logR sumR).logR a else Flt.log (fin a)) = fin y
    rw [if_pos ha0]
    exact hy
  · rw [abs_of_nonneg hL0] at hyerr
    refine ⟨by rw [abs_of_nonneg hL0]; linarith, by norm_num, ?_⟩
    have : ulp * (Real.log (2 * Real.pi) + 4) ≤ ulp * (2 + 4) := mul_le_mul_of_nonneg_left (by linarith) hu.le
    linarith

end Binary64

open Binary64 in
/-- **C135** is false: when the square of the mean is `2^58` times as large as the variance or more, the variance
after `set_from_uvn_param_array` is zero, and the entropy is minus infinity. -/
theorem C135_counterexample (expR logR : ℝ → Flt) (sumR : List ℝ → Flt)
    (c : FloatContract (Binary64.ops expR logR sumR) (2 ^ 1024) (2 ^ (-1075 : ℤ))) (m i : ℝ) (hm : 2 ^ (-400 : ℤ) ≤ |m| ∧ |m| ≤ 2 ^ (400 : ℤ))
    (hi : 2 ^ (-400 : ℤ) ≤ i ∧ i ≤ 2 ^ (400 : ℤ)) (h : 2 ^ 58 * Var[id; normal m i] ≤ m ^ 2) :
    ∀ p ∈ (Binary64.ops expR logR sumR).momFromUvn [(fin m, fin i)],
      (Binary64.ops expR logR sumR).momVar p.1 p.2 = fin 0 ∧
      (Binary64.ops expR logR sumR).momEntropy [p] = ninf := by
  obtain ⟨hi1, hi2⟩ := hi
  obtain ⟨hm1, hm2⟩ := hm
  have hi0 : 0 < i := (two_zpow_pos _).trans_le hi1
  have hV : Var[id; normal m i] = 1 / i := by
    unfold normal
    rw [variance_id_gaussianReal, varOf_coe hi0]
  rw [hV, pow_two] at h
  have hu := ulp_pos
  have hu1 := ulp_le
  have lo : (2 : ℝ) ^ (-800 : ℤ) ≤ m * m := by
    rw [← abs_mul_abs_self]
    refine le_trans (le_of_eq ?_) (mul_le_mul hm1 hm1 (two_zpow_pos _).le (abs_nonneg _))
    rw [← zpow_add₀ two_ne_zero]
    rfl
  have hi' : m * m ≤ 2 ^ (800 : ℤ) := by
    rw [← abs_mul_abs_self]
    refine (mul_le_mul hm2 hm2 (abs_nonneg _) (two_zpow_pos _).le).trans (le_of_eq ?_)
    rw [← zpow_add₀ two_ne_zero]
    rfl
  obtain ⟨v, v1, v2, v3⟩ := recip_rel (expR := expR) (logR := logR) (sumR := sumR) (i := i)
    ((zpow_le (by norm_num)).trans hi1) (hi2.trans (zpow_le (by norm_num)))
  obtain ⟨q, q1, q2, q3⟩ := rnd_rel (x := m * m) ((zpow_le (by norm_num)).trans lo)
    (lt_of_le_of_lt hi' (zpow_lt_max (by norm_num)))
  have hmm : 0 < m * m := (two_zpow_pos _).trans_le lo
  have hw0 : 0 < 1 / i := by positivity
  have q0 := q3.lower hmm (by norm_num)
  have v0 := v3.upper hw0 (by norm_num)
  have v00 := v3.pos hw0 (by norm_num)
  have hq0 : 0 < q := by linarith
  have l1 : (2 : ℝ) ^ Int.log 2 q ≤ q := by exact_mod_cast Int.zpow_log_le_self (b := 2) one_lt_two hq0
  have l2 : q < 2 ^ (Int.log 2 q + 1) := by exact_mod_cast Int.lt_zpow_succ_log_self (b := 2) one_lt_two q
  have l3 : (2 : ℝ) ^ (-801 : ℤ) ≤ q := by
    refine le_trans ?_ q0
    rw [le_div_iff₀ two_pos, mul_comm, two_mul_zpow]
    exact lo
  have l4 : -801 ≤ Int.log 2 q := (Int.zpow_le_iff_le_log (b := 2) one_lt_two hq0).1 (by exact_mod_cast l3)
  have habs : rnd (q + v) = fin q := by
    refine rnd_absorb q2 l1 (by omega) ?_
    rw [abs_of_pos v00]
    have e1 : (2 : ℝ) ^ (Int.log 2 q + 1) = 2 ^ (Int.log 2 q - 55) * 2 ^ 56 := by
      rw [← zpow_natCast, ← zpow_add₀ two_ne_zero]
      congr 1
      push_cast
      ring
    rw [e1] at l2
    have e2 : v * 2 ^ 56 ≤ q := by
      refine le_trans ?_ q0
      generalize 1 / i = w at h v0
      norm_num at h ⊢
      linarith
    have e3 : v * 2 ^ 56 < 2 ^ (Int.log 2 q - 55) * 2 ^ 56 := lt_of_le_of_lt e2 l2
    exact (lt_of_mul_lt_mul_right e3 (by positivity)).le
  have k1 : (Binary64.ops expR logR sumR).square (fin m) = fin q := q1
  have k2 : (Binary64.ops expR logR sumR).add (fin q) (fin v) = fin q := habs
  have hvar : (Binary64.ops expR logR sumR).momVar (fin m) ((Binary64.ops expR logR sumR).uvnEOuter (fin m) (fin i)) =
      fin 0 := by
    simp only [FloatOps.momVar, FloatOps.uvnEOuter, k1, v1, k2]
    show rnd (q + -q) = fin 0
    rw [add_neg_cancel]
    exact rnd_rep (by simpa using rep_nat 0 (by norm_num))
  intro p hp
  simp only [FloatOps.momFromUvn, List.map_cons, List.map_nil, List.mem_singleton] at hp
  subst hp
  refine ⟨hvar, ?_⟩
  obtain ⟨y, hy, -⟩ := log_two_pi c
  unfold FloatOps.momEntropy FloatOps.univariateNormalEntropy
  simp only [List.map_cons, List.map_nil, hvar, hy]
  have k3 : (Binary64.ops expR logR sumR).div (fin 1) (fin 0) = pinf := by
    show (Binary64.ops expR logR sumR).round (Flt.div (fin 1) (fin 0)) = pinf
    simp [Flt.div, Flt.infMul, FloatOps.round]
  have k4 : (Binary64.ops expR logR sumR).mul (fin (-1)) pinf = ninf := by
    show (Binary64.ops expR logR sumR).round (Flt.infMul (-1)) = ninf
    rw [Flt.infMul, if_neg (by norm_num), if_pos (by norm_num)]
    rfl
  rw [k3, show (Binary64.ops expR logR sumR).log pinf = pinf from rfl, k4,
    show (Binary64.ops expR logR sumR).add ninf (fin 1) = ninf from rfl,
    show (Binary64.ops expR logR sumR).add ninf (fin y) = ninf from rfl]
  have k5 : (Binary64.ops expR logR sumR).sum [ninf] = ninf := by
    unfold FloatOps.sum
    rw [if_neg (by
      intro h
      obtain ⟨r, hr⟩ := h ninf (by simp)
      exact absurd hr (by simp))]
    rfl
  rw [k5]
  show (Binary64.ops expR logR sumR).round (Flt.neg (Flt.infMul (1 / 2))) = ninf
  rw [Flt.infMul, if_pos (by norm_num)]
  rfl

open Binary64 in
/-- **C135** The entropy of `UVNParam`, `UVNParamVector` and `UVNParamArray`, by contrast, is accurate in double
precision: its error is at most `2^-50 (n + 2)` times the size of the numbers in it, for `n` normal
distributions. -/
theorem C135_uvn_entropy (expR logR : ℝ → Flt) (sumR : List ℝ → Flt)
    (c : FloatContract (Binary64.ops expR logR sumR) (2 ^ 1024) (2 ^ (-1075 : ℤ)))
    (hs : AccurateSum (Binary64.ops expR logR sumR)) (uvns : List (ℝ × ℝ))
    (hi : ∀ a ∈ uvns, Binary64.Rep a.2 ∧ 2 ^ (-1000 : ℤ) ≤ a.2 ∧ a.2 ≤ 2 ^ (1000 : ℤ))
    (hN : uvns.length ≤ 2 ^ 40) :
    ∃ r, (Binary64.ops expR logR sumR).univariateNormalEntropy (uvns.map fun a => fin a.2) = fin r ∧
      |r - (uvns.map fun a => diffEntropy (normalPdf a.1 a.2)).sum| ≤
        2 ^ (-50 : ℤ) * (uvns.length + 2) * (1 + (uvns.map fun a => |Real.log a.2| + 4).sum) := by
  set o := Binary64.ops expR logR sumR with ho
  obtain ⟨w, hw, hrw, haw⟩ := log_two_pi c
  change o.log (o.mul (fin 2) o.pi) = fin w at hw
  have hlog : ∀ a ∈ uvns, |Real.log a.2| ≤ 700 := by
    intro a ha
    obtain ⟨-, h1, h2⟩ := hi a ha
    have h0 : 0 < a.2 := (two_zpow_pos _).trans_le h1
    have g1 := Real.log_le_log (two_zpow_pos _) h1
    have g2 := Real.log_le_log h0 h2
    rw [Real.log_zpow] at g1 g2
    have := Real.log_two_lt_d9
    have := Real.log_two_gt_d9
    push_cast at g1 g2
    rw [abs_le]
    constructor <;> linarith
  have hp : ∀ a : ℝ × ℝ, ∃ t, a ∈ uvns →
      o.add (o.add (o.mul (fin (-1)) (o.log (fin a.2))) (fin 1)) (o.log (o.mul (fin 2) o.pi)) = fin t ∧ Rep t ∧
      App 6 t (-Real.log a.2 + 1 + Real.log (2 * Real.pi)) (|Real.log a.2| + 4) := by
    intro a
    by_cases ha : a ∈ uvns
    · obtain ⟨h1, h2, h3⟩ := hi a ha
      have h0 : 0 < a.2 := (two_zpow_pos _).trans_le h2
      have hl := hlog a ha
      have hl0 := abs_nonneg (Real.log a.2)
      have h700 : (700 : ℝ) < 2 ^ 1023 := lt_of_lt_of_le (show (700 : ℝ) < 2 ^ 10 by norm_num)
        (pow_le_pow_right₀ one_le_two (by norm_num))
      obtain ⟨y, y1, y2, y3⟩ := log_error c h0 h1 (lt_of_le_of_lt hl h700)
      clear h700
      change |y - Real.log a.2| ≤ ulp * |Real.log a.2| + ulp / 256 at y3
      have hu := ulp_pos
      have ay : App 1 y (Real.log a.2) (|Real.log a.2| + 1) := ⟨by linarith, by linarith, by linarith⟩
      obtain ⟨b, b1, b2, b3⟩ := (App.add (m := 1) ay.neg (App.exact (b := 1) (M := 1) (by norm_num) le_rfl) le_rfl
        (by norm_num)).rnd (by norm_num) (by norm_num) (by norm_num; linarith)
      obtain ⟨t, t1, t2, t3⟩ := (App.add (m := 4) b3 haw (by norm_num) le_rfl).rnd (by norm_num) (by norm_num)
        (by norm_num; linarith)
      refine ⟨t, fun _ => ⟨?_, t2, t3.mono (by norm_num) (by norm_num) (by linarith)⟩⟩
      have k1 : o.log (fin a.2) = fin y := by
        show (if 0 < a.2 then o.logR a.2 else Flt.log (fin a.2)) = fin y
        rw [if_pos h0]
        exact y1
      have k2 : o.mul (fin (-1)) (fin y) = fin (-y) := by
        show rnd (-1 * y) = fin (-y)
        rw [neg_one_mul]
        exact rnd_rep y2.neg
      have k3 : o.add (fin (-y)) (fin 1) = fin b := b1
      rw [hw, k1, k2, k3]
      exact t1
    · exact ⟨0, fun h => absurd h ha⟩
  choose t ht using hp
  have hn : (uvns.length : ℝ) ≤ 1099511627776 := by
    have : (uvns.length : ℝ) ≤ 2 ^ 40 := by exact_mod_cast hN
    refine this.trans (by norm_num)
  have hMs : (uvns.map fun a => |Real.log a.2| + 4).sum ≤ 2 ^ 60 := by
    refine (sum_map_le_card uvns (fun a => |Real.log a.2| + 4) 704 (fun a ha => by linarith [hlog a ha])).trans ?_
    norm_num
    linarith
  obtain ⟨s, s1, s2, s3⟩ := sum_app hs uvns t _ _ (k := 6) (by norm_num) (by norm_num) (fun a ha => (ht a ha).2) hN
    (hMs.trans (by norm_num))
  have hsum : (uvns.map fun a => diffEntropy (normalPdf a.1 a.2)).sum =
      1 / 2 * (uvns.map fun a => -Real.log a.2 + 1 + Real.log (2 * Real.pi)).sum := by
    rw [← List.sum_map_mul_left]
    congr 1
    refine List.map_congr_left fun a ha => ?_
    have h0 : 0 < a.2 := (two_zpow_pos _).trans_le (hi a ha).2.1
    rw [diffEntropy, normalPdf, entropy_gaussian _ (varOf_ne_zero h0), varOf_coe h0,
      Real.log_mul (x := 2 * Real.pi) (y := 1 / _) (by positivity) (by positivity), one_div a.2, Real.log_inv]
    ring
  rw [hsum]
  set S := (uvns.map fun a => -Real.log a.2 + 1 + Real.log (2 * Real.pi)).sum with hS
  set M := (uvns.map fun a => |Real.log a.2| + 4).sum with hM
  have half : App (6 + 4 * uvns.length) (1 / 2 * s) (1 / 2 * S) (1 + M) := by
    refine ⟨?_, s3.one, ?_⟩
    · rw [abs_mul, abs_of_pos (by norm_num : (0 : ℝ) < 1 / 2)]
      linarith [s3.bound, abs_nonneg S]
    · rw [← mul_sub, abs_mul, abs_of_pos (by norm_num : (0 : ℝ) < 1 / 2)]
      linarith [s3.err, abs_nonneg (s - S)]
  obtain ⟨r, r1, -, r3⟩ := half.rnd (by positivity) (by norm_num; linarith) (by norm_num at hMs ⊢; linarith)
  refine ⟨r, ?_, ?_⟩
  · unfold FloatOps.univariateNormalEntropy
    have e1 : ((uvns.map fun a => fin a.2).map fun i =>
        o.add (o.add (o.mul (fin (-1)) (o.log i)) (fin 1)) (o.log (o.mul (fin 2) o.pi))) =
        uvns.map fun a => fin (t a) := by
      rw [List.map_map]
      exact List.map_congr_left fun a ha => (ht a ha).1
    rw [e1]
    change o.sum _ = fin s at s1
    rw [s1]
    exact r1
  · refine r3.err.trans (mul_le_mul_of_nonneg_right ?_ (by linarith [s3.one]))
    rw [ulp_eq]
    norm_num
    linarith

/-- The hypotheses of the counterexample: mean `2^30` and information 1. -/
example : ∀ p ∈ Binary64.ideal.momFromUvn [(fin (2 ^ 30), fin 1)],
    Binary64.ideal.momVar p.1 p.2 = fin 0 ∧ Binary64.ideal.momEntropy [p] = ninf := by
  have h1 : (2 : ℝ) ^ (-400 : ℤ) ≤ 1 := by
    have := Binary64.zpow_le (show (-400 : ℤ) ≤ 0 by norm_num)
    simpa using this
  have h2 : (2 : ℝ) ^ 30 ≤ 2 ^ (400 : ℤ) := by
    rw [← zpow_natCast]
    exact Binary64.zpow_le (by norm_num)
  refine C135_counterexample _ _ _ Binary64.contract (2 ^ 30) 1 ⟨?_, ?_⟩ ⟨h1, ?_⟩ ?_
  · rw [abs_of_pos (by positivity)]
    exact h1.trans (by norm_num)
  · rw [abs_of_pos (by positivity)]
    exact h2
  · exact le_trans (by norm_num) h2
  · unfold normal
    rw [variance_id_gaussianReal, varOf_coe one_pos]
    norm_num

/-- The hypotheses of the other theorems: mean 3 and information 2. -/
example : (∀ a ∈ [((3 : ℝ), (2 : ℝ))], |a.1| ≤ 2 ^ (400 : ℤ)) ∧
    ∀ a ∈ [((3 : ℝ), (2 : ℝ))], (2 : ℝ) ^ (-400 : ℤ) ≤ a.2 ∧ a.2 ≤ 2 ^ (400 : ℤ) := by
  have h1 : (2 : ℝ) ^ (-400 : ℤ) ≤ 1 := by
    have := Binary64.zpow_le (show (-400 : ℤ) ≤ 0 by norm_num)
    simpa using this
  have h2 : (2 : ℝ) ^ (2 : ℤ) ≤ 2 ^ (400 : ℤ) := Binary64.zpow_le (by norm_num)
  have h3 : (2 : ℝ) ^ (2 : ℤ) = 4 := by norm_num
  rw [h3] at h2
  simp only [List.mem_singleton]
  refine ⟨?_, ?_⟩
  · rintro a rfl
    rw [abs_of_pos (by norm_num)]
    exact le_trans (by norm_num) h2
  · rintro a rfl
    exact ⟨h1.trans (by norm_num), le_trans (by norm_num) h2⟩

end

end LRVB
