import Verif.Lemmas.Round4

/-!
# C108, C109: floating point

The theorems hold for every arithmetic that meets `FloatContract` (`Spec/Round.lean`), where not for double
precision (`Binary64`) with arbitrary faithful library functions.  `Binary64.contract` shows that there is one.
-/

namespace LRVB

open Classical Flt

noncomputable section

/-! ### C108: bounds -/

/-- **C108**, the part that holds for bounds not both of which are finite: for every free value the result
lies within the bounds, and `get_free()` does not raise. -/
theorem C108_one_sided_partial {o : FloatOps} {over under : ℝ} (c : FloatContract o over under)
    (lb ub : Flt) (hb : (lb = ninf ∧ ub = pinf) ∨ (∃ a, lb = fin a ∧ o.Rep a ∧ ub = pinf) ∨
      ∃ b, lb = ninf ∧ ub = fin b ∧ o.Rep b) (x : ℝ) (hx : o.Rep x) :
    ∃ v, o.constrain (fin x) lb ub = .ok v ∧ lb ≤ v ∧ v ≤ ub ∧ ∃ y, o.unconstrainScalar v lb ub = .ok y := by
  have key : ∀ v, lb ≤ v → v ≤ ub → ¬ ub ≤ lb → ∃ y, o.unconstrainScalar v lb ub = .ok y := by
    intro v h1 h2 h3
    unfold FloatOps.unconstrainScalar FloatOps.unconstrain
    rw [if_neg (not_not.2 h2), if_neg (not_not.2 h1), if_neg h3]
    split_ifs <;> exact ⟨_, rfl⟩
  rcases hb with ⟨rfl, rfl⟩ | ⟨a, rfl, ha, rfl⟩ | ⟨b, rfl, rfl, hb⟩
  · exact ⟨fin x, by simp [FloatOps.constrain, Flt.eq], by simp, by simp, key _ (by simp) (by simp) (by simp)⟩
  · have hv : ∃ v, o.constrain (fin x) (fin a) pinf = .ok v ∧ fin a ≤ v ∧ v ≤ pinf := by
      refine ⟨o.add (o.exp (fin x)) (fin a), by simp [FloatOps.constrain, Flt.eq], ?_⟩
      unfold FloatOps.exp FloatOps.add
      simp only
      rcases Flt.le_cases (c.exp_nonneg x) with h | ⟨r, h, h0⟩
      · rw [h]
        exact ⟨trivial, trivial⟩
      · rw [h]
        have h1 := c.le_rnd ha (show a ≤ r + a by linarith)
        refine ⟨h1, ?_⟩
        rcases Flt.le_cases h1 with h2 | ⟨s, h2, -⟩
        · show o.rnd (r + a) ≤ pinf
          rw [h2]
          trivial
        · show o.rnd (r + a) ≤ pinf
          rw [h2]
          trivial
    obtain ⟨v, h1, h2, h3⟩ := hv
    exact ⟨v, h1, h2, h3, key v h2 h3 (by simp)⟩
  · have hv : ∃ v, o.constrain (fin x) ninf (fin b) = .ok v ∧ ninf ≤ v ∧ v ≤ fin b := by
      refine ⟨o.sub (fin b) (o.exp (o.mul (fin (-1)) (fin x))), by simp [FloatOps.constrain, Flt.eq], ?_⟩
      have hm : o.mul (fin (-1)) (fin x) = fin (-x) := by
        show o.rnd (-1 * x) = fin (-x)
        rw [neg_one_mul]
        exact c.rnd_rep (c.neg hx)
      rw [hm]
      unfold FloatOps.exp FloatOps.sub
      simp only
      rcases Flt.le_cases (c.exp_nonneg (-x)) with h | ⟨r, h, h0⟩
      · rw [h]
        exact ⟨trivial, trivial⟩
      · rw [h]
        have h1 := c.rnd_le hb (show b + -r ≤ b by linarith)
        refine ⟨?_, h1⟩
        rcases Flt.ge_cases h1 with h2 | ⟨s, h2, -⟩
        · show ninf ≤ o.rnd (b + -r)
          rw [h2]
          trivial
        · show ninf ≤ o.rnd (b + -r)
          rw [h2]
          trivial
    obtain ⟨v, h1, h2, h3⟩ := hv
    exact ⟨v, h1, h2, h3, key v h2 h3 (by simp)⟩

/-- **C108** is false for two finite bounds: when `exp` of the free value overflows (from 710 on in double
precision), the constrained value is NaN, whatever the bounds, and `get_free()` raises. -/
theorem C108_overflow_counterexample {o : FloatOps} {over under : ℝ} (c : FloatContract o over under)
    (lb ub : ℝ) (hlt : lb < ub) (x : ℝ) (hx : over ≤ Real.exp x) :
    o.constrain (fin x) (fin lb) (fin ub) = .ok nan ∧
      o.unconstrainScalar nan (fin lb) (fin ub) = .error .valueError := by
  refine ⟨?_, by simp [FloatOps.unconstrainScalar]⟩
  have h1 : o.exp (fin x) = pinf := c.exp_over hx
  simp only [FloatOps.constrain, Flt.r_fin_le_fin, not_le.2 hlt, if_false, Flt.eq, h1]
  congr 1
  have h2 : o.add (fin 1) pinf = pinf := rfl
  have h3 : ∀ w : Flt, o.div (o.mul w pinf) pinf = nan := by
    intro w
    cases w with
    | fin r =>
      show o.round (o.round (infMul r) / pinf) = nan
      unfold infMul
      split_ifs <;> rfl
    | pinf => rfl
    | ninf => rfl
    | nan => rfl
  rw [h2, h3]
  rfl

/-- **C108** is false for two finite bounds also when only the product with the width of the interval
overflows: the constrained value is infinite or NaN and `get_free()` raises. -/
theorem C108_product_counterexample {o : FloatOps} {over under : ℝ} (c : FloatContract o over under)
    (ub : ℝ) (hub : o.Rep ub) (h0 : 0 < ub) (x f : ℝ) (hf : o.Rep f) (hfx : f ≤ Real.exp x)
    (hov : over ≤ ub * f) :
    ∃ v, o.constrain (fin x) (fin 0) (fin ub) = .ok v ∧
      o.unconstrainScalar v (fin 0) (fin ub) = .error .valueError := by
  have hv : ∃ v, o.constrain (fin x) (fin 0) (fin ub) = .ok v ∧ ¬ v ≤ fin ub := by
    rcases Flt.le_cases (c.exp_ge hf hfx) with h | ⟨e, h, he⟩
    · have h1 : o.exp (fin x) = pinf := h
      refine ⟨nan, ?_, by simp⟩
      simp only [FloatOps.constrain, Flt.r_fin_le_fin, not_le.2 h0, if_false, Flt.eq, h1]
      congr 1
      have h2 : o.add (fin 1) pinf = pinf := rfl
      have h3 : ∀ w : Flt, o.div (o.mul w pinf) pinf = nan := by
        intro w
        cases w with
        | fin r =>
          show o.round (o.round (infMul r) / pinf) = nan
          unfold infMul
          split_ifs <;> rfl
        | pinf => rfl
        | ninf => rfl
        | nan => rfl
      rw [h2, h3]
      rfl
    · have h1 : o.exp (fin x) = fin e := h
      have h2 : o.sub (fin ub) (fin 0) = fin ub := by
        show o.rnd (ub + -0) = fin ub
        rw [neg_zero, add_zero]
        exact c.rnd_rep hub
      have h3 : o.mul (fin ub) (fin e) = pinf := by
        show o.rnd (ub * e) = pinf
        exact c.rnd_over (hov.trans (mul_le_mul_of_nonneg_left he h0.le))
      simp only [FloatOps.constrain, Flt.r_fin_le_fin, not_le.2 h0, if_false, Flt.eq, h1, h2, h3]
      refine ⟨_, rfl, ?_⟩
      have h4 : fin 1 ≤ o.add (fin 1) (fin e) := by
        show fin 1 ≤ o.rnd (1 + e)
        have : 0 ≤ e := by
          have := c.exp_nonneg x
          rw [h] at this
          exact this
        exact c.le_rnd c.one (by linarith)
      rcases Flt.le_cases h4 with h5 | ⟨q, h5, hq⟩
      · rw [h5]
        have : o.div pinf pinf = nan := rfl
        rw [this]
        exact id
      · rw [h5]
        have : o.div pinf (fin q) = pinf := by
          show o.round (if q = 0 then pinf else infMul q) = pinf
          rw [if_neg (by linarith), infMul, if_pos (by linarith)]
          rfl
        rw [this]
        exact id
  obtain ⟨v, h1, h2⟩ := hv
  exact ⟨v, h1, by simp [FloatOps.unconstrainScalar, h2]⟩

/-- **C108**, the part that holds for two finite bounds: without overflow the constrained value is a number
that is not below the lower bound. -/
theorem C108_two_sided_partial {o : FloatOps} {over under : ℝ} (c : FloatContract o over under)
    (lb ub : ℝ) (hlb : o.Rep lb) (hlt : lb < ub) (x e w p q : ℝ)
    (he : o.expR x = fin e) (hw : o.rnd (ub - lb) = fin w) (hp : o.rnd (w * e) = fin p)
    (hq : o.rnd (1 + e) = fin q) :
    ∃ v, o.constrain (fin x) (fin lb) (fin ub) = .ok v ∧ fin lb ≤ v ∧ v ≠ nan := by
  have h1 : o.exp (fin x) = fin e := he
  have h2 : o.sub (fin ub) (fin lb) = fin w := hw
  have h3 : o.mul (fin w) (fin e) = fin p := hp
  have h4 : o.add (fin 1) (fin e) = fin q := hq
  have he0 : 0 ≤ e := by
    have := c.exp_nonneg x
    rwa [he] at this
  have hw0 : 0 ≤ w := by
    have := c.le_rnd c.zero (show 0 ≤ ub - lb by linarith)
    rwa [hw] at this
  have hp0 : 0 ≤ p := by
    have := c.le_rnd c.zero (mul_nonneg hw0 he0)
    rwa [hp] at this
  have hq1 : 1 ≤ q := by
    have := c.le_rnd c.one (show 1 ≤ 1 + e by linarith)
    rwa [hq] at this
  have h5 : fin 0 ≤ o.div (fin p) (fin q) := by
    show fin 0 ≤ o.round (if q = 0 then infMul p else fin (p / q))
    rw [if_neg (by linarith)]
    exact c.le_rnd c.zero (div_nonneg hp0 (by linarith))
  simp only [FloatOps.constrain, Flt.r_fin_le_fin, not_le.2 hlt, if_false, Flt.eq, h1, h2, h3, h4]
  have h6 : fin lb ≤ o.add (o.div (fin p) (fin q)) (fin lb) := by
    rcases Flt.le_cases h5 with h | ⟨r, h, hr⟩
    · rw [h]
      trivial
    · rw [h]
      exact c.le_rnd hlb (show lb ≤ r + lb by linarith)
  refine ⟨_, rfl, h6, ?_⟩
  intro h
  rw [h] at h6
  exact h6

/-- **C108** on the unit interval: the constrained value lies in `[0, 1]` whenever `exp` of the free value
does not overflow (and is NaN when it does, by `C108_overflow_counterexample`). -/
theorem C108_unit_interval_partial {o : FloatOps} {over under : ℝ} (c : FloatContract o over under)
    (x e q : ℝ) (he : o.expR x = fin e) (hq : o.rnd (1 + e) = fin q) :
    ∃ v, o.constrain (fin x) (fin 0) (fin 1) = .ok v ∧ fin 0 ≤ v ∧ v ≤ fin 1 := by
  have h1 : o.exp (fin x) = fin e := he
  have hre : o.Rep e := c.rep_exp he
  have h2 : o.sub (fin 1) (fin 0) = fin 1 := by
    show o.rnd (1 + -0) = fin 1
    rw [neg_zero, add_zero]
    exact c.rnd_rep c.one
  have h3 : o.mul (fin 1) (fin e) = fin e := by
    show o.rnd (1 * e) = fin e
    rw [one_mul]
    exact c.rnd_rep hre
  have h4 : o.add (fin 1) (fin e) = fin q := hq
  have he0 : 0 ≤ e := by
    have := c.exp_nonneg x
    rwa [he] at this
  have hq1 : 1 ≤ q := by
    have := c.le_rnd c.one (show 1 ≤ 1 + e by linarith)
    rwa [hq] at this
  have hqe : e ≤ q := by
    have := c.le_rnd hre (show e ≤ 1 + e by linarith)
    rwa [hq] at this
  have h5 : fin 0 ≤ o.div (fin e) (fin q) ∧ o.div (fin e) (fin q) ≤ fin 1 := by
    have : o.div (fin e) (fin q) = o.rnd (e / q) := by
      show o.round (if q = 0 then infMul e else fin (e / q)) = _
      rw [if_neg (by linarith)]
      rfl
    rw [this]
    exact ⟨c.le_rnd c.zero (div_nonneg he0 (by linarith)),
      c.rnd_le c.one ((div_le_one (by linarith)).2 hqe)⟩
  simp only [FloatOps.constrain, Flt.r_fin_le_fin, not_le.2 (zero_lt_one (α := ℝ)), if_false, Flt.eq, h1, h2, h3, h4]
  obtain ⟨r, hr, hr0, hr1⟩ := Flt.between_fin h5.1 h5.2
  refine ⟨_, rfl, ?_⟩
  rw [hr]
  show fin 0 ≤ o.rnd (r + 0) ∧ o.rnd (r + 0) ≤ fin 1
  rw [add_zero]
  exact ⟨c.le_rnd c.zero hr0, c.rnd_le c.one hr1⟩

/-- `exp 40` in double precision. -/
private theorem exp40 : (2 : ℝ) ^ (57 : ℕ) ≤ Real.exp 40 ∧ Real.exp 40 ≤ 2 ^ (58 : ℕ) := by
  have h1 := Real.log_two_lt_d9
  have h2 := Real.log_two_gt_d9
  constructor
  · rw [← Real.log_le_iff_le_exp (by positivity), Real.log_pow]
    push_cast
    linarith
  · rw [← Real.le_log_iff_exp_le (by positivity), Real.log_pow]
    push_cast
    linarith

private theorem exp_neg40 : Real.exp (-40) ≤ 2 ^ (-57 : ℤ) := by
  rw [Real.exp_neg, zpow_neg]
  exact inv_anti₀ (by positivity) (by exact_mod_cast exp40.1)

/-- The bounds of the next example: `-0.75 + 2 ** -53` and `0.25 + 2 ** -54`. -/
def exLb : ℝ := -3 / 4 + 1 / 2 ^ 53
/-- See `exLb`. -/
def exUb : ℝ := 1 / 4 + 1 / 2 ^ 54

/-- **C108** is false for two finite bounds even when nothing overflows: in double precision, with bounds
`-0.75 + 2 ** -53` and `0.25 + 2 ** -54`, the free value 40 gives a value above the upper bound, and
`get_free()` raises. -/
theorem C108_rounding_counterexample (expR logR : ℝ → Flt) (sumR : List ℝ → Flt)
    (c : FloatContract (Binary64.ops expR logR sumR) (2 ^ 1024) (2 ^ (-1075 : ℤ))) :
    Binary64.Rep exLb ∧ Binary64.Rep exUb ∧ exLb < exUb ∧
    ∃ v, (Binary64.ops expR logR sumR).constrain (fin 40) (fin exLb) (fin exUb) = .ok (fin v) ∧ exUb < v ∧
      (Binary64.ops expR logR sumR).unconstrainScalar (fin v) (fin exLb) (fin exUb) = .error .valueError := by
  have hlb : Binary64.Rep exLb := by
    refine ⟨-3 * 2 ^ 51 + 1, -53, by norm_num, by norm_num, by norm_num, ?_⟩
    unfold exLb
    norm_num
  have hub : Binary64.Rep exUb := by
    refine ⟨2 ^ 52 + 1, -54, by norm_num, by norm_num, by norm_num, ?_⟩
    unfold exUb
    norm_num
  have hlt : exLb < exUb := by unfold exLb exUb; norm_num
  set o := Binary64.ops expR logR sumR with ho
  obtain ⟨e, he, he1, he2⟩ := Flt.between_fin
    (c.exp_ge (x := 40) (f := 2 ^ 57) (by rw [← zpow_natCast]; exact Binary64.rep_zpow _ (by norm_num) (by norm_num)) exp40.1)
    (c.exp_le (x := 40) (f := 2 ^ 58) (by rw [← zpow_natCast]; exact Binary64.rep_zpow _ (by norm_num) (by norm_num)) exp40.2)
  have hre : Binary64.Rep e := c.rep_exp he
  have h1 : o.exp (fin 40) = fin e := he
  have hone : Binary64.Rep 1 := c.one
  have h2 : o.sub (fin exUb) (fin exLb) = fin 1 := by
    show Binary64.rnd (exUb + -exLb) = fin 1
    refine Binary64.rnd_of_near ?_ hone
    have hx : exUb + -exLb = 1 - 1 / 2 ^ 54 := by
      unfold exUb exLb
      norm_num
    have hE : Binary64.expo (exUb + -exLb) = -1 - 52 := by
      rw [hx]
      exact Binary64.expo_eq (by norm_num) (by norm_num) (by norm_num)
    unfold Binary64.near
    rw [hE, hx]
    have hd : (1 - 1 / 2 ^ 54 : ℝ) / 2 ^ (-1 - 52 : ℤ) = 2 ^ 53 - 1 / 2 := by norm_num
    have hf : ⌊(2 ^ 53 - 1 / 2 : ℝ)⌋ = 2 ^ 53 - 1 := by
      rw [Int.floor_eq_iff]
      push_cast
      constructor <;> norm_num
    have hr : Binary64.rne (2 ^ 53 - 1 / 2) = 2 ^ 53 := by
      unfold Binary64.rne
      rw [hf]
      push_cast
      rw [if_neg (by norm_num), if_neg (by norm_num), if_neg (by decide)]
    rw [hd, hr]
    norm_num
  have h3 : o.mul (fin 1) (fin e) = fin e := by
    show Binary64.rnd (1 * e) = fin e
    rw [one_mul]
    exact c.rnd_rep hre
  have h4 : o.add (fin 1) (fin e) = fin e :=
    Binary64.rnd_of_near (Binary64.near_one_add hre (le_trans (by norm_num) he1)) hre
  have he0 : e ≠ 0 := by
    have : (0 : ℝ) < e := lt_of_lt_of_le (by positivity) he1
    exact this.ne'
  have h5 : o.div (fin e) (fin e) = fin 1 := by
    show o.round (if e = 0 then infMul e else fin (e / e)) = fin 1
    rw [if_neg he0, div_self he0]
    exact c.rnd_rep c.one
  have hv : Binary64.Rep (1 + exLb) := by
    refine ⟨2 ^ 51 + 1, -53, by norm_num, by norm_num, by norm_num, ?_⟩
    unfold exLb
    norm_num
  have h6 : o.add (fin 1) (fin exLb) = fin (1 + exLb) := c.rnd_rep hv
  have h7 : exUb < 1 + exLb := by unfold exLb exUb; norm_num
  refine ⟨hlb, hub, hlt, 1 + exLb, ?_, h7, ?_⟩
  · simp only [FloatOps.constrain, Flt.r_fin_le_fin, not_le.2 hlt, if_false, Flt.eq, h1, h2, h3, h4, h5, h6]
  · simp [FloatOps.unconstrainScalar, not_le.2 h7]

example : FloatContract (Binary64.ops (fun x => Binary64.rnd (Real.exp x)) (fun x => Binary64.rnd (Real.log x))
    (fun l => l.foldl (fun s a => match s + fin a with | fin r => Binary64.rnd r | y => y) (fin 0)))
    (2 ^ 1024) (2 ^ (-1075 : ℤ)) := Binary64.contract

/-- In double precision `exp` overflows from 710 on. -/
example : (2 : ℝ) ^ 1024 ≤ Real.exp 710 ∧ Binary64.Rep 710 := by
  refine ⟨?_, 710, 0, by norm_num, by norm_num, by norm_num, by norm_num⟩
  rw [← Real.log_le_iff_le_exp (by positivity), Real.log_pow]
  push_cast
  linarith [Real.log_two_lt_d9]

/-- The hypotheses of `C108_product_counterexample` for the bounds 0 and 4 and the free value 709. -/
example : Binary64.Rep 4 ∧ Binary64.Rep (2 ^ (1022 : ℤ)) ∧ (2 : ℝ) ^ (1022 : ℤ) ≤ Real.exp 709 ∧
    (2 : ℝ) ^ 1024 ≤ 4 * 2 ^ (1022 : ℤ) := by
  refine ⟨⟨4, 0, by norm_num, by norm_num, by norm_num, by norm_num⟩, ⟨2 ^ 51, 971, by norm_num, by norm_num,
    by norm_num, ?_⟩, ?_, ?_⟩
  · rw [Int.cast_pow, Int.cast_ofNat, ← zpow_natCast, ← zpow_add₀ two_ne_zero]
    rfl
  · rw [← Real.log_le_iff_le_exp (by positivity), Real.log_zpow]
    push_cast
    linarith [Real.log_two_lt_d9]
  · rw [← zpow_natCast, show (4 : ℝ) = 2 ^ (2 : ℤ) by norm_num, ← zpow_add₀ two_ne_zero]
    exact le_of_eq rfl

/-- The hypotheses of the two theorems about two finite bounds, for `[0, 1]` and the free value 0. -/
example : Binary64.ideal.expR 0 = fin 1 ∧ Binary64.ideal.rnd (1 - 0) = fin 1 ∧
    Binary64.ideal.rnd (1 * 1) = fin 1 ∧ Binary64.ideal.rnd (1 + 1) = fin 2 := by
  have c := Binary64.contract
  refine ⟨c.exp_zero, by rw [sub_zero]; exact c.rnd_rep c.one, by rw [mul_one]; exact c.rnd_rep c.one, ?_⟩
  rw [one_add_one_eq_two]
  exact c.rnd_rep ⟨2, 0, by norm_num, by norm_num, by norm_num, by norm_num⟩

/-! ### C109: the free round trip -/

/-- **C109** for unbounded parameters: nothing is computed, and the round trip is exact. -/
theorem C109_unbounded_partial (o : FloatOps) (x : ℝ) :
    o.constrain (fin x) ninf pinf = .ok (fin x) ∧ o.unconstrainScalar (fin x) ninf pinf = .ok (fin x) := by
  simp [FloatOps.constrain, FloatOps.unconstrainScalar, FloatOps.unconstrain, Flt.eq]

/-- **C109** is false: in double precision with lower bound 1 the free value -40 is stored as 1, and
`get_free()` returns minus infinity. -/
theorem C109_counterexample (expR logR : ℝ → Flt) (sumR : List ℝ → Flt)
    (c : FloatContract (Binary64.ops expR logR sumR) (2 ^ 1024) (2 ^ (-1075 : ℤ))) :
    (Binary64.ops expR logR sumR).constrain (fin (-40)) (fin 1) pinf = .ok (fin 1) ∧
    (Binary64.ops expR logR sumR).unconstrainScalar (fin 1) (fin 1) pinf = .ok ninf := by
  set o := Binary64.ops expR logR sumR with ho
  have hone : Binary64.Rep 1 := c.one
  constructor
  · obtain ⟨t, ht, ht0, ht1⟩ := Flt.between_fin (c.exp_nonneg (-40))
      (c.exp_le (x := -40) (Binary64.rep_zpow (-57) (by norm_num) (by norm_num)) exp_neg40)
    have h1 : o.exp (fin (-40)) = fin t := ht
    have h2 : o.add (fin t) (fin 1) = fin 1 := by
      show Binary64.rnd (t + 1) = fin 1
      refine Binary64.rnd_of_near ?_ hone
      have ht2 : t ≤ 1 / 2 ^ 57 := ht1.trans (le_of_eq (by norm_num))
      have hE : Binary64.expo (t + 1) = 0 - 52 :=
        Binary64.expo_eq (by simpa using ht0) (by norm_num at ht2 ⊢; linarith) (by norm_num)
      have hx : t + 1 = ((2 ^ 52 : ℤ) : ℝ) * 2 ^ (0 - 52 : ℤ) + t := by
        norm_num
        ring
      rw [hx] at hE ⊢
      rw [Binary64.near_add hE ht0 (by norm_num at ht2 ⊢; linarith)]
      norm_num
    simp only [FloatOps.constrain, Flt.eq, h1, h2]
    simp
  · have h1 : o.sub (fin 1) (fin 1) = fin 0 := by
      show Binary64.rnd (1 + -1) = fin 0
      rw [add_neg_cancel]
      exact c.rnd_rep c.zero
    have h2 : o.log (fin 0) = ninf := by simp [FloatOps.log, Flt.log]
    simp only [FloatOps.unconstrainScalar, FloatOps.unconstrain, Flt.eq, h1, h2]
    simp

/-- **C109** for positive parameters: in double precision with lower bound 0 the round trip is accurate up
to a few units in the last place, for free values between -708 and 709. -/
theorem C109_positive_partial (expR logR : ℝ → Flt) (sumR : List ℝ → Flt)
    (c : FloatContract (Binary64.ops expR logR sumR) (2 ^ 1024) (2 ^ (-1075 : ℤ))) (x : ℝ)
    (hx1 : -708 ≤ x) (hx2 : x ≤ 709) :
    ∃ v y, (Binary64.ops expR logR sumR).constrain (fin x) (fin 0) pinf = .ok (fin v) ∧
      (Binary64.ops expR logR sumR).unconstrainScalar (fin v) (fin 0) pinf = .ok (fin y) ∧
      |y - x| ≤ 2 ^ (-52 : ℤ) * (|x| + 3) := by
  obtain ⟨e, y, he, hepos, hre, hy, -, herr⟩ := Binary64.exp_log_error c hx1 hx2
  set o := Binary64.ops expR logR sumR with ho
  have h1 : o.exp (fin x) = fin e := he
  have h2 : o.add (fin e) (fin 0) = fin e := by
    show Binary64.rnd (e + 0) = fin e
    rw [add_zero]
    exact c.rnd_rep hre
  have h3 : o.sub (fin e) (fin 0) = fin e := by
    show Binary64.rnd (e + -0) = fin e
    rw [neg_zero, add_zero]
    exact c.rnd_rep hre
  have h4 : o.log (fin e) = fin y := by
    show (if 0 < e then o.logR e else Flt.log (fin e)) = fin y
    rw [if_pos hepos]
    exact hy
  refine ⟨e, y, ?_, ?_, herr⟩
  · simp only [FloatOps.constrain, Flt.eq, h1, h2]
    simp
  · simp only [FloatOps.unconstrainScalar, FloatOps.unconstrain, Flt.eq, h3, h4]
    simp [hepos.le]

/-- **C109** for negative parameters: the same with upper bound 0, for free values between -709 and 708. -/
theorem C109_negative_partial (expR logR : ℝ → Flt) (sumR : List ℝ → Flt)
    (c : FloatContract (Binary64.ops expR logR sumR) (2 ^ 1024) (2 ^ (-1075 : ℤ))) (x : ℝ)
    (hr : Binary64.Rep x) (hx1 : -709 ≤ x) (hx2 : x ≤ 708) :
    ∃ v y, (Binary64.ops expR logR sumR).constrain (fin x) ninf (fin 0) = .ok (fin v) ∧
      (Binary64.ops expR logR sumR).unconstrainScalar (fin v) ninf (fin 0) = .ok (fin y) ∧
      |y - x| ≤ 2 ^ (-52 : ℤ) * (|x| + 3) := by
  obtain ⟨e, y, he, hepos, hre, hy, hry, herr⟩ := Binary64.exp_log_error c (x := -x) (by linarith) (by linarith)
  set o := Binary64.ops expR logR sumR with ho
  have h0 : o.mul (fin (-1)) (fin x) = fin (-x) := by
    show Binary64.rnd (-1 * x) = fin (-x)
    rw [neg_one_mul]
    exact c.rnd_rep (c.neg hr)
  have h1 : o.exp (fin (-x)) = fin e := he
  have h2 : o.sub (fin 0) (fin e) = fin (-e) := by
    show Binary64.rnd (0 + -e) = fin (-e)
    rw [zero_add]
    exact c.rnd_rep (c.neg hre)
  have h3 : o.sub (fin 0) (fin (-e)) = fin e := by
    show Binary64.rnd (0 + - -e) = fin e
    rw [zero_add, neg_neg]
    exact c.rnd_rep hre
  have h4 : o.log (fin e) = fin y := by
    show (if 0 < e then o.logR e else Flt.log (fin e)) = fin y
    rw [if_pos hepos]
    exact hy
  have h5 : o.mul (fin (-1)) (fin y) = fin (-y) := by
    show Binary64.rnd (-1 * y) = fin (-y)
    rw [neg_one_mul]
    exact c.rnd_rep (c.neg hry)
  refine ⟨-e, -y, ?_, ?_, ?_⟩
  · simp only [FloatOps.constrain, Flt.eq, h0, h1, h2]
    simp
  · simp only [FloatOps.unconstrainScalar, FloatOps.unconstrain, Flt.eq, h3, h4, h5]
    simp [hepos.le]
  · rw [abs_neg] at herr
    rw [show -y - x = -(y - -x) by ring, abs_neg]
    exact herr

end

end LRVB
