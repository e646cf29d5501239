import Verif.Props.RoundMoments
import Verif.Props.Round2
import Verif.Spec.Multinoulli

/-!
# C136: the entropy of discrete distributions in floating point
-/

namespace LRVB

open Classical Flt

noncomputable section

/-- The default of `min_prob`: `1e-16`, rounded. -/
def Binary64.minProb : Flt := Binary64.rnd (1 / 10 ^ 16)

namespace Binary64

theorem minProb_eq : ∃ m, minProb = fin m ∧ 99 / 100 / 10 ^ 16 ≤ m ∧ m ≤ 101 / 100 / 10 ^ 16 ∧ Rep m := by
  have hu1 := ulp_le
  obtain ⟨m, m1, m2, m3⟩ := rnd_rel (x := 1 / 10 ^ 16)
    ((zpow_le (show (-1022 : ℤ) ≤ -100 by norm_num)).trans (by norm_num))
    (lt_of_le_of_lt (show (1 / 10 ^ 16 : ℝ) ≤ 2 ^ (0 : ℤ) by norm_num) (zpow_lt_max (by norm_num)))
  unfold Binary64.Rel at m3
  obtain ⟨m4, m5⟩ := abs_le.1 m3
  exact ⟨m, m1, by linarith, by linarith, m2⟩

/-- `1 + min_prob` is 1. -/
theorem one_add_minProb {m : ℝ} (h0 : 0 ≤ m) (h1 : m ≤ 101 / 100 / 10 ^ 16) : rnd (1 + m) = fin 1 := by
  have e1 : (1 : ℝ) = ((2 ^ 52 : ℤ) : ℝ) * 2 ^ (-52 : ℤ) := by norm_num
  have hE : expo (((2 ^ 52 : ℤ) : ℝ) * 2 ^ (-52 : ℤ) + m) = -52 := by
    have := expo_eq (x := ((2 ^ 52 : ℤ) : ℝ) * 2 ^ (-52 : ℤ) + m) (k := 0) (by rw [← e1]; norm_num; linarith)
      (by rw [← e1]; norm_num; linarith) (by norm_num)
    simpa using this
  have := near_add hE h0 (by norm_num; linarith)
  refine rnd_of_near ?_ ?_
  · rw [e1]
    exact this
  · simpa using rep_nat 1 (by norm_num)

/-- One term of the entropy. -/
theorem entropy_term {expR logR : ℝ → Flt} {sumR : List ℝ → Flt}
    (c : FloatContract (Binary64.ops expR logR sumR) (2 ^ 1024) (2 ^ (-1075 : ℤ))) {p : ℝ} (hr : Rep p) (h0 : 0 ≤ p)
    (h1 : p ≤ 1) :
    ∃ t, (Binary64.ops expR logR sumR).mul (fin p) ((Binary64.ops expR logR sumR).log
        ((Binary64.ops expR logR sumR).add (fin p) minProb)) = fin t ∧ Rep t ∧ t ≤ 0 ∧ |t| ≤ 40 * p ∧
      |t - p * Real.log p| ≤ ulp * (90 * p + 3 / 4) := by
  obtain ⟨m, hm, m1, m2, -⟩ := minProb_eq
  have hu := ulp_pos
  have hu1 := ulp_le
  have hm0 : 0 < m := lt_of_lt_of_le (by norm_num) m1
  have hB0 : 0 < p + m := by linarith
  have hB1 : (2 : ℝ) ^ (-1020 : ℤ) ≤ p + m := by
    refine le_trans ((zpow_le (show (-1020 : ℤ) ≤ -60 by norm_num)).trans ?_) (show m ≤ p + m by linarith)
    exact le_trans (by norm_num) m1
  have hB2 : p + m ≤ 2 ^ (1021 : ℤ) := by
    refine le_trans ?_ (zpow_le (show (1 : ℤ) ≤ 1021 by norm_num))
    norm_num at m2 ⊢
    linarith
  obtain ⟨-, a, y, ha, ha0, hy, hry, hyerr⟩ := log_chain c (A := p + m) (ε := 0) hB1 hB2 (by simp) (by norm_num)
  clear hB1 hB2
  have hlog : |Real.log (p + m)| ≤ 37 := by
    rw [abs_le]
    constructor
    · have h2 : Real.log (99 / 100 / 10 ^ 16) ≤ Real.log (p + m) := Real.log_le_log (by norm_num) (by linarith)
      have h3 : -37 ≤ Real.log (99 / 100 / 10 ^ 16) := by
        rw [Real.le_log_iff_exp_le (by norm_num), Real.exp_neg, inv_le_comm₀ (Real.exp_pos _) (by norm_num)]
        have e1 : Real.exp 37 = Real.exp 1 ^ 37 := by rw [← Real.exp_nat_mul]; norm_num
        rw [e1]
        refine le_trans ?_ (pow_le_pow_left₀ (by norm_num) Real.exp_one_gt_d9.le 37)
        norm_num
      linarith
    · have h2 := Real.log_le_sub_one_of_pos hB0
      linarith
  have hyerr' : |y - Real.log (p + m)| ≤ 41 * ulp := by
    have := mul_le_mul_of_nonneg_left (show |Real.log (p + m)| + 4 ≤ 41 by linarith) hu.le
    linarith
  have hy0 : y ≤ 0 := by
    have ha1 : a ≤ 1 := by
      have h2 := rnd_mono (show p + m ≤ 1 + m by linarith)
      rw [one_add_minProb hm0.le m2, ha] at h2
      exact h2
    have := c.log_le ha0 c.zero (Real.log_nonpos ha0.le ha1)
    rwa [show (Binary64.ops expR logR sumR).logR a = fin y from hy] at this
  obtain ⟨y1, y2⟩ := abs_le.1 hyerr'
  obtain ⟨l1, l2⟩ := abs_le.1 hlog
  have hyb : -38 ≤ y := by linarith
  have hpy : |p * y| ≤ 38 * p := by
    rw [abs_mul, abs_of_nonneg h0, abs_of_nonpos hy0]
    nlinarith
  have hb : |p * y| < 2 ^ 1023 := by
    refine lt_of_le_of_lt (hpy.trans (show 38 * p ≤ 2 ^ (6 : ℤ) by norm_num; linarith)) (zpow_lt_max (by norm_num))
  obtain ⟨t, t1, t2, t3⟩ := rnd_error0 hb
  clear hb
  have hτ1 := tiny
  have hτ2 : 0 < p → (2 : ℝ) ^ (-1074 : ℤ) ≤ p := fun h => hr.ge h
  change (2 : ℝ) ^ (-1074 : ℤ) ≤ ulp / 256 at hτ1
  generalize (2 : ℝ) ^ (-1074 : ℤ) = τ at hτ1 hτ2 t3
  have ht0 : t ≤ 0 := by
    have := rnd_mono_ge c.zero (show p * y ≤ 0 from mul_nonpos_of_nonneg_of_nonpos h0 hy0)
    rwa [t1] at this
  have hup : ulp * |p * y| ≤ ulp * (38 * p) := mul_le_mul_of_nonneg_left hpy hu.le
  refine ⟨t, ?_, t2, ht0, ?_, ?_⟩
  · rw [hm]
    have k1 : (Binary64.ops expR logR sumR).add (fin p) (fin m) = fin a := ha
    have k2 : (Binary64.ops expR logR sumR).log (fin a) = fin y := by
      show (if 0 < a then (Binary64.ops expR logR sumR).logR a else Flt.log (fin a)) = fin y
      rw [if_pos ha0]
      exact hy
    rw [k1, k2]
    exact t1
  · rcases h0.eq_or_lt with h | h
    · rw [← h, zero_mul] at t1
      have : fin t = fin 0 := t1.symm.trans (c.rnd_rep c.zero)
      rw [← h, Flt.fin.inj this]
      simp
    · have h2 := hτ2 h
      have h3 := abs_sub_abs_le_abs_sub t (p * y)
      nlinarith
  · have e1 : t - p * Real.log p = (t - p * y) + p * (y - Real.log (p + m)) + p * (Real.log (p + m) - Real.log p) := by
      ring
    have e2 : |p * (y - Real.log (p + m))| ≤ p * (41 * ulp) := by
      rw [abs_mul, abs_of_nonneg h0]
      exact mul_le_mul_of_nonneg_left hyerr' h0
    have e3 : |p * (Real.log (p + m) - Real.log p)| ≤ m := by
      rcases h0.eq_or_lt with h | h
      · rw [← h]
        simpa using hm0.le
      · rw [abs_mul, abs_of_pos h, ← Real.log_div hB0.ne' h.ne']
        have g1 : (p + m) / p = 1 + m / p := by field_simp
        have g2 : 0 < m / p := by positivity
        rw [g1, abs_of_nonneg (Real.log_nonneg (by linarith))]
        have g3 := Real.log_le_sub_one_of_pos (show 0 < 1 + m / p by linarith)
        have g4 := mul_le_mul_of_nonneg_left g3 h.le
        have g5 : p * (1 + m / p - 1) = m := by field_simp; ring
        linarith
    have e4 : m ≤ ulp / 2 := by
      refine m2.trans ?_
      rw [ulp_eq]
      norm_num
    rw [e1]
    have a1 := abs_add_le (t - p * y + p * (y - Real.log (p + m))) (p * (Real.log (p + m) - Real.log p))
    have a2 := abs_add_le (t - p * y) (p * (y - Real.log (p + m)))
    nlinarith

end Binary64

open Binary64 in
/-- **C136** In double precision `multinoulli_entropy` with its default `min_prob` is finite and never negative for
every row of numbers between zero and one, zeros included, and it is the Shannon entropy up to
`2^-52 (n + 90 (n + 1) (p_0 + ... + p_(n-1)))`. -/
theorem C136_multinoulli_entropy (expR logR : ℝ → Flt) (sumR : List ℝ → Flt)
    (c : FloatContract (Binary64.ops expR logR sumR) (2 ^ 1024) (2 ^ (-1075 : ℤ)))
    (hs : AccurateSum (Binary64.ops expR logR sumR)) (p : List ℝ)
    (hp : ∀ a ∈ p, Binary64.Rep a ∧ 0 ≤ a ∧ a ≤ 1) (hN : p.length ≤ 2 ^ 40) :
    ∃ r, (Binary64.ops expR logR sumR).multinoulliEntropy Binary64.minProb (p.map fin) = fin r ∧ 0 ≤ r ∧
      |r - shannon p.length fun j => p.getD j 0| ≤ 2 ^ (-52 : ℤ) * (p.length + 90 * (p.length + 1) * p.sum) := by
  set o := Binary64.ops expR logR sumR with ho
  have h1 : ∀ a : ℝ, ∃ t, a ∈ p → o.mul (fin a) (o.log (o.add (fin a) minProb)) = fin t ∧ Rep t ∧ t ≤ 0 ∧
      |t| ≤ 40 * a ∧ |t - a * Real.log a| ≤ ulp * (90 * a + 3 / 4) := by
    intro a
    by_cases ha : a ∈ p
    · obtain ⟨h1, h2, h3⟩ := hp a ha
      obtain ⟨t, ht⟩ := entropy_term c h1 h2 h3
      exact ⟨t, fun _ => ht⟩
    · exact ⟨0, fun h => absurd h ha⟩
  choose t ht using h1
  have hsh : (shannon p.length fun j => p.getD j 0) = -(p.map fun a => a * Real.log a).sum := by
    unfold shannon
    congr 1
    clear * -
    induction p with
    | nil => simp
    | cons a p ih =>
      rw [List.length_cons, Finset.sum_range_succ']
      simp only [List.getD_cons_succ, List.getD_cons_zero, List.map_cons, List.sum_cons, ih]
      ring
  have hsum0 : 0 ≤ p.sum := List.sum_nonneg fun a ha => (hp a ha).2.1
  have hn : (p.length : ℝ) ≤ 1099511627776 := by
    have : p.length ≤ 1099511627776 := hN
    exact_mod_cast this
  have hpn : p.sum ≤ p.length := by
    have := sum_map_le_card p id 1 (fun a ha => (hp a ha).2.2)
    simpa using this
  have habs : (p.map fun a => |t a|).sum ≤ 40 * p.sum := by
    have := (sum_map_abs_le p t (fun a => 40 * a) fun a ha => (ht a ha).2.2.2.1).2
    rwa [List.sum_map_mul_left, List.map_id'] at this
  obtain ⟨s, s1, s2, s3⟩ := hs (p.map t) (by
      intro a ha
      obtain ⟨b, hb, rfl⟩ := List.mem_map.1 ha
      exact (ht b hb).2.1) (by rw [List.length_map]; exact hN.trans (by norm_num)) (by
      rw [List.map_map]
      refine habs.trans ((show 40 * p.sum ≤ 2 ^ (50 : ℤ) by norm_num; linarith).trans (zpow_le (by norm_num))))
  have e1 : o.sum (p.map fun a => fin (t a)) = sumR (p.map t) := by
    unfold FloatOps.sum
    rw [if_pos (by
      intro a ha
      obtain ⟨i, hi, rfl⟩ := List.mem_map.1 ha
      exact ⟨_, rfl⟩), List.map_map]
    rfl
  have hu := ulp_pos
  rw [List.map_map, List.length_map, show (2 : ℝ) ^ (-51 : ℤ) = 2 * ulp by rw [ulp_eq]; norm_num] at s3
  change |s - (p.map t).sum| ≤ 2 * ulp * p.length * (p.map fun a => |t a|).sum at s3
  have hneg : (p.map fun a => |t a|).sum = -(p.map t).sum := by
    have : ∀ l : List ℝ, -(l.map t).sum = (l.map fun a => -t a).sum := by
      intro l
      induction l with
      | nil => simp
      | cons a l ih =>
        simp only [List.map_cons, List.sum_cons, ← ih]
        ring
    rw [this]
    exact congrArg List.sum (List.map_congr_left fun a ha => abs_of_nonpos (ht a ha).2.2.1)
  have herr := (sum_map_abs_le p (fun a => t a - a * Real.log a) (fun a => ulp * (90 * a + 3 / 4))
    fun a ha => (ht a ha).2.2.2.2).1
  have h4 : (p.map fun a => ulp * (90 * a + 3 / 4)).sum = ulp * (90 * p.sum + 3 / 4 * p.length) := by
    clear * -
    induction p with
    | nil => simp
    | cons a p ih =>
      simp only [List.map_cons, List.sum_cons, ih, List.length_cons]
      push_cast
      ring
  have h5 : (p.map fun a => t a - a * Real.log a).sum = (p.map t).sum - (p.map fun a => a * Real.log a).sum := by
    clear * -
    induction p with
    | nil => simp
    | cons a l ih =>
      simp only [List.map_cons, List.sum_cons, ih]
      ring
  rw [h4, h5] at herr
  have hT0 : 0 ≤ (p.map fun a => |t a|).sum := List.sum_nonneg (by
    intro x hx
    obtain ⟨i, hi, rfl⟩ := List.mem_map.1 hx
    exact abs_nonneg _)
  have hn0 : (0 : ℝ) ≤ p.length := Nat.cast_nonneg _
  have hs0 : s ≤ 0 := by
    have g1 : 2 * ulp * p.length ≤ 1 := by
      rw [ulp_eq]
      norm_num
      linarith
    have g2 := mul_le_mul_of_nonneg_right g1 hT0
    have g3 := le_abs_self (s - (p.map t).sum)
    linarith
  refine ⟨-s, ?_, by linarith, ?_⟩
  · unfold FloatOps.multinoulliEntropy
    have e2 : ((p.map fin).map fun a => o.mul a (o.log (o.add a minProb))) = p.map fun a => fin (t a) := by
      rw [List.map_map]
      exact List.map_congr_left fun a ha => (ht a ha).1
    rw [e2, e1]
    have e3 : sumR (p.map t) = fin s := s1
    rw [e3]
    show o.rnd (-1 * s) = fin (-s)
    rw [neg_one_mul]
    exact c.rnd_rep (c.neg s2)
  · rw [hsh, show (2 : ℝ) ^ (-52 : ℤ) = ulp from rfl]
    have g1 : 2 * ulp * p.length * (p.map fun a => |t a|).sum ≤ 2 * ulp * p.length * (40 * p.sum) :=
      mul_le_mul_of_nonneg_left habs (by positivity)
    have g2 := abs_add_le (s - (p.map t).sum) ((p.map t).sum - (p.map fun a => a * Real.log a).sum)
    rw [sub_add_sub_cancel] at g2
    rw [show -s - -(p.map fun a => a * Real.log a).sum = -(s - (p.map fun a => a * Real.log a).sum) by ring, abs_neg]
    have g3 : 0 ≤ ulp * p.length * p.sum := by positivity
    have g4 : 0 ≤ ulp * p.length := by positivity
    nlinarith

/-- The entries of a constrained row are representable. -/
theorem FloatContract.exp_rep {o : FloatOps} {over under : ℝ} (c : FloatContract o over under) {x : Flt} {r : ℝ}
    (h : o.exp x = fin r) : o.Rep r := by
  cases x with
  | fin a => exact c.rep_exp h
  | ninf =>
    have : fin 0 = fin r := h
    rw [← Flt.fin.inj this]
    exact c.zero
  | pinf => exact absurd h (by simp [FloatOps.exp, Flt.exp])
  | nan => exact absurd h (by simp [FloatOps.exp, Flt.exp])

/-- **C136** Whatever finite free values a multinoulli parameter has, the entropy of the probabilities that
they stand for is finite and not negative, although some of the probabilities may underflow to zero. -/
theorem C136_free_values (expR logR : ℝ → Flt) (sumR : List ℝ → Flt)
    (c : FloatContract (Binary64.ops expR logR sumR) (2 ^ 1024) (2 ^ (-1075 : ℤ)))
    (hs : AccurateSum (Binary64.ops expR logR sumR)) (x : List ℝ) (hx : ∀ a ∈ x, Binary64.Rep a)
    (hN : x.length < 2 ^ 40) :
    ∃ r, (Binary64.ops expR logR sumR).multinoulliEntropy Binary64.minProb
      ((Binary64.ops expR logR sumR).constrainSimplexRow x) = fin r ∧ 0 ≤ r := by
  obtain ⟨h1, h2⟩ := C110_simplex_range c x hx
  have h3 : ∃ p : List ℝ, (Binary64.ops expR logR sumR).constrainSimplexRow x = p.map fin ∧
      ∀ a ∈ p, Binary64.Rep a ∧ 0 ≤ a ∧ a ≤ 1 := by
    have h4 : ∀ z ∈ (Binary64.ops expR logR sumR).constrainSimplexRow x, ∀ r, z = fin r → Binary64.Rep r := by
      intro z hz r hr
      obtain ⟨a, -, rfl⟩ := List.mem_map.1 hz
      exact c.exp_rep hr
    generalize (Binary64.ops expR logR sumR).constrainSimplexRow x = l at h2 h4
    clear * - h2 h4
    induction l with
    | nil => exact ⟨[], rfl, by simp⟩
    | cons z l ih =>
      obtain ⟨p, rfl, hp⟩ := ih (fun z hz => h2 z (List.mem_cons_of_mem _ hz))
        fun z hz => h4 z (List.mem_cons_of_mem _ hz)
      obtain ⟨r, rfl, hr⟩ := h2 z List.mem_cons_self
      refine ⟨r :: p, rfl, ?_⟩
      intro a ha
      rcases List.mem_cons.1 ha with rfl | ha
      · exact ⟨h4 _ List.mem_cons_self _ rfl, hr⟩
      · exact hp a ha
  obtain ⟨p, hp, hp'⟩ := h3
  rw [hp] at h1 ⊢
  obtain ⟨r, hr, hr0, -⟩ := C136_multinoulli_entropy expR logR sumR c hs p hp' (by
    rw [List.length_map] at h1
    omega)
  exact ⟨r, hr, hr0⟩

/-- The hypotheses hold for a distribution with a probability of zero, in the arithmetic that rounds exact results. -/
example : ∃ r, Binary64.ideal.multinoulliEntropy Binary64.minProb ([1 / 2, 1 / 2, 0].map fin) = fin r ∧ 0 ≤ r ∧
    |r - Real.log 2| ≤ 2 ^ (-42 : ℤ) := by
  obtain ⟨r, h1, h2, h3⟩ := C136_multinoulli_entropy _ _ _ Binary64.contract Binary64.ideal_accurateSum
    [1 / 2, 1 / 2, 0] (by
      intro a ha
      simp only [List.mem_cons, List.not_mem_nil, or_false] at ha
      rcases ha with rfl | rfl | rfl
      · exact ⟨Binary64.rep_half, by norm_num, by norm_num⟩
      · exact ⟨Binary64.rep_half, by norm_num, by norm_num⟩
      · exact ⟨Binary64.contract.zero, by norm_num, by norm_num⟩) (by simp)
  refine ⟨r, h1, h2, ?_⟩
  have e : (shannon ([1 / 2, 1 / 2, 0] : List ℝ).length fun j => ([1 / 2, 1 / 2, 0] : List ℝ).getD j 0) =
      Real.log 2 := by
    simp [shannon, Finset.sum_range_succ]
    ring
  rw [e] at h3
  refine h3.trans ?_
  norm_num

end

end LRVB
