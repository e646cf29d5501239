import Verif.Props.Draws
import Mathlib.MeasureTheory.Integral.DominatedConvergence

/-!
# C161: estimates with more and more standard draws converge to the normal expectation
-/

namespace LRVB

open Arr ExpFam Modeling MeasureTheory ProbabilityTheory Filter Topology Set

noncomputable section

/-- The standard normal distribution. -/
abbrev stdNormal : Measure ℝ := gaussianReal 0 1

theorem stdNormal_Iic (x : ℝ) : stdNormal.real (Iic x) = Phi x := by
  simp only [Phi, cdf_eq_real]

theorem stdNormal_Ioc {a b : ℝ} (h : a ≤ b) : stdNormal.real (Ioc a b) = Phi b - Phi a := by
  rw [← Iic_sdiff_Iic, measureReal_diff (Iic_subset_Iic.2 h) measurableSet_Iic, stdNormal_Iic, stdNormal_Iic]

theorem stdNormal_Ioi (a : ℝ) : stdNormal.real (Ioi a) = 1 - Phi a := by
  rw [← compl_Iic, measureReal_compl measurableSet_Iic, stdNormal_Iic]
  simp

theorem const_setIntegral {s : Set ℝ} (c : ℝ) : ∫ _ in s, c ∂stdNormal = c * stdNormal.real s := by
  rw [setIntegral_const, smul_eq_mul, mul_comm]

variable {f : ℝ → ℝ}

theorem le_setIntegral (hf : Integrable f stdNormal) {s : Set ℝ} (hs : MeasurableSet s) {c : ℝ}
    (h : ∀ x ∈ s, c ≤ f x) : c * stdNormal.real s ≤ ∫ x in s, f x ∂stdNormal := by
  rw [← const_setIntegral]
  exact setIntegral_mono_on (integrable_const _).integrableOn hf.integrableOn hs h

theorem setIntegral_le (hf : Integrable f stdNormal) {s : Set ℝ} (hs : MeasurableSet s) {c : ℝ}
    (h : ∀ x ∈ s, f x ≤ c) : ∫ x in s, f x ∂stdNormal ≤ c * stdNormal.real s := by
  rw [← const_setIntegral]
  exact setIntegral_mono_on hf.integrableOn (integrable_const _).integrableOn hs h

/-- The average of an increasing function over the quantiles is between two integrals. -/
theorem quantile_bounds (hm : Monotone f) (hf : Integrable f stdNormal) {X : ℕ → ℝ} {h : ℝ} {N : ℕ}
    (hX : ∀ i ≤ N, Phi (X i) = (i + 1) * h) (hN : (N + 2) * h = 1) :
    ∫ x in Iic (X N), f x ∂stdNormal ≤ h * ∑ i ∈ Finset.range (N + 1), f (X i) ∧
      h * ∑ i ∈ Finset.range (N + 1), f (X i) ≤ ∫ x in Ioi (X 0), f x ∂stdNormal := by
  have hpos : 0 < h := by
    by_contra hc
    have : ((N : ℝ) + 2) * h ≤ 0 := mul_nonpos_of_nonneg_of_nonpos (by positivity) (not_lt.1 hc)
    linarith
  have hstep : ∀ k, k + 1 ≤ N → X k ≤ X (k + 1) ∧ stdNormal.real (Ioc (X k) (X (k + 1))) = h := by
    intro k hk
    have h1 : X k ≤ X (k + 1) := by
      refine Phi_strictMono.le_iff_le.1 ?_
      rw [hX k (by omega), hX (k + 1) hk]
      push_cast
      nlinarith
    refine ⟨h1, ?_⟩
    rw [stdNormal_Ioc h1, hX k (by omega), hX (k + 1) hk]
    push_cast
    ring
  constructor
  · have key : ∀ k ≤ N, ∫ x in Iic (X k), f x ∂stdNormal ≤ h * ∑ i ∈ Finset.range (k + 1), f (X i) := by
      intro k
      induction k with
      | zero =>
        intro _
        have h1 := setIntegral_le hf (measurableSet_Iic (a := X 0)) (c := f (X 0)) fun x hx => hm hx
        rw [stdNormal_Iic, hX 0 (Nat.zero_le _)] at h1
        simp only [zero_add, Finset.sum_range_one]
        simp only [Nat.cast_zero, zero_add, one_mul] at h1
        linarith
      | succ k ih =>
        intro hk
        obtain ⟨a, b⟩ := hstep k hk
        have h1 := setIntegral_le hf (measurableSet_Ioc (a := X k) (b := X (k + 1))) (c := f (X (k + 1)))
          fun x hx => hm hx.2
        rw [b] at h1
        rw [← Iic_union_Ioc_eq_Iic a, setIntegral_union (Iic_disjoint_Ioc le_rfl) measurableSet_Ioc
          hf.integrableOn hf.integrableOn, Finset.sum_range_succ, mul_add]
        have := ih (by omega)
        linarith
    exact key N le_rfl
  · have key : ∀ k ≤ N, h * ∑ i ∈ Finset.range (k + 1), f (X i) ≤
        (∫ x in Ioc (X 0) (X k), f x ∂stdNormal) + h * f (X k) ∧ X 0 ≤ X k := by
      intro k
      induction k with
      | zero => intro _; simp
      | succ k ih =>
        intro hk
        obtain ⟨a, b⟩ := hstep k hk
        obtain ⟨i1, i2⟩ := ih (by omega)
        have h1 := le_setIntegral hf (measurableSet_Ioc (a := X k) (b := X (k + 1))) (c := f (X k))
          fun x hx => hm hx.1.le
        rw [b] at h1
        refine ⟨?_, i2.trans a⟩
        rw [← Ioc_union_Ioc_eq_Ioc i2 a, setIntegral_union (Ioc_disjoint_Ioc_of_le le_rfl) measurableSet_Ioc
          hf.integrableOn hf.integrableOn, Finset.sum_range_succ, mul_add]
        linarith
    obtain ⟨k1, k2⟩ := key N le_rfl
    have h1 := le_setIntegral hf (measurableSet_Ioi (a := X N)) (c := f (X N)) fun x hx => hm (le_of_lt hx)
    rw [stdNormal_Ioi, hX N le_rfl] at h1
    have h2 : 1 - ((N : ℝ) + 1) * h = h := by linarith
    rw [h2] at h1
    rw [← Ioc_union_Ioi_eq_Ioi k2, setIntegral_union Ioc_disjoint_Ioi_same measurableSet_Ioi
      hf.integrableOn hf.integrableOn]
    linarith

/-- Integrals over half lines that exhaust the line. -/
theorem tendsto_Ioi (hf : Integrable f stdNormal) {a : ℕ → ℝ} (ha : ∀ x, ∀ᶠ n in atTop, a n < x) :
    Tendsto (fun n => ∫ x in Ioi (a n), f x ∂stdNormal) atTop (𝓝 (∫ x, f x ∂stdNormal)) := by
  simp_rw [← integral_indicator measurableSet_Ioi]
  refine tendsto_integral_of_dominated_convergence (fun x => ‖f x‖)
    (fun n => hf.aestronglyMeasurable.indicator measurableSet_Ioi) hf.norm
    (fun n => Eventually.of_forall fun x => norm_indicator_le_norm_self f x) (Eventually.of_forall fun x => ?_)
  refine tendsto_const_nhds.congr' ?_
  filter_upwards [ha x] with n hn
  rw [indicator_of_mem (mem_Ioi.2 hn)]

theorem tendsto_Iic (hf : Integrable f stdNormal) {a : ℕ → ℝ} (ha : ∀ x, ∀ᶠ n in atTop, x < a n) :
    Tendsto (fun n => ∫ x in Iic (a n), f x ∂stdNormal) atTop (𝓝 (∫ x, f x ∂stdNormal)) := by
  simp_rw [← integral_indicator measurableSet_Iic]
  refine tendsto_integral_of_dominated_convergence (fun x => ‖f x‖)
    (fun n => hf.aestronglyMeasurable.indicator measurableSet_Iic) hf.norm
    (fun n => Eventually.of_forall fun x => norm_indicator_le_norm_self f x) (Eventually.of_forall fun x => ?_)
  refine tendsto_const_nhds.congr' ?_
  filter_upwards [ha x] with n hn
  rw [indicator_of_mem (mem_Iic.2 hn.le)]

theorem Phi_pos (x : ℝ) : 0 < Phi x :=
  lt_of_le_of_lt (cdf_nonneg _ (x - 1)) (Phi_strictMono (sub_one_lt x))

theorem Phi_lt_one (x : ℝ) : Phi x < 1 :=
  lt_of_lt_of_le (Phi_strictMono (lt_add_one x)) (cdf_le_one _ (x + 1))

/-- Averages over the draws of `n = 1, 2, ...` draws converge. -/
def DrawsConverge (f : ℝ → ℝ) : Prop :=
  ∃ v : ℕ → ℝ, (∀ n, 0 < n → ∃ xs, getStandardDraws n = .ok xs ∧ v n = (xs.map f).sum / n) ∧
    Tendsto v atTop (𝓝 (∫ x, f x ∂stdNormal))

/-- The lists of draws. -/
theorem exists_draws : ∃ D : ℕ → List ℝ, ∀ n, getStandardDraws n = .ok (D n) ∧ (D n).length = n ∧
    ∀ i (h : i < (D n).length), Phi ((D n)[i]) = ((i : ℝ) + 1) / (n + 1) := by
  choose D hD using C82_standard_draws
  exact ⟨D, fun n => ⟨(hD n).1, (hD n).2.1, (hD n).2.2.1⟩⟩

theorem drawsConverge_iff {D : ℕ → List ℝ} (hD : ∀ n, getStandardDraws n = .ok (D n)) (f : ℝ → ℝ) :
    DrawsConverge f ↔
      Tendsto (fun n => ((D n).map f).sum / n) atTop (𝓝 (∫ x, f x ∂stdNormal)) := by
  constructor
  · rintro ⟨v, h1, h2⟩
    refine h2.congr' ?_
    filter_upwards [eventually_gt_atTop 0] with n hn
    obtain ⟨xs, a, b⟩ := h1 n hn
    rw [hD n] at a
    cases a
    exact b
  · intro h
    exact ⟨_, fun n _ => ⟨D n, hD n, rfl⟩, h⟩

theorem drawsConverge_mono (hm : Monotone f) (hf : Integrable f stdNormal) : DrawsConverge f := by
  obtain ⟨D, hD⟩ := exists_draws
  rw [drawsConverge_iff (fun n => (hD n).1)]
  have hcdf : ∀ N i, i ≤ N → Phi ((D (N + 1)).getD i 0) = ((i : ℝ) + 1) * (1 / (N + 2)) := by
    intro N i hi
    have hl : i < (D (N + 1)).length := by rw [(hD _).2.1]; omega
    have := (hD (N + 1)).2.2 i hl
    have hg : (D (N + 1)).getD i 0 = (D (N + 1))[i] := by simp [hl]
    rw [hg, this]
    push_cast
    rw [mul_one_div]
    congr 1
    ring
  have hsum : ∀ N, ((D (N + 1)).map f).sum = ∑ i ∈ Finset.range (N + 1), f ((D (N + 1)).getD i 0) := by
    intro N
    rw [← list_sum_range_draws]
    congr 1
    refine List.ext_getElem (by simp [(hD _).2.1]) fun i hi1 hi2 => ?_
    have hi : i < (D (N + 1)).length := by simpa using hi1
    simp [hi]
  have hb := fun N => quantile_bounds hm hf (X := fun i => (D (N + 1)).getD i 0) (h := 1 / ((N : ℝ) + 2))
    (N := N) (hcdf N) (by field_simp)
  have hsmall : ∀ ε > (0 : ℝ), ∀ᶠ N : ℕ in atTop, 1 / ((N : ℝ) + 2) < ε := by
    intro ε hε
    have h1 : Tendsto (fun N : ℕ => 1 / ((N : ℝ) + 2)) atTop (𝓝 0) := by
      have := (tendsto_one_div_add_atTop_nhds_zero_nat (𝕜 := ℝ)).comp (tendsto_add_atTop_nat 1)
      refine this.congr fun N => ?_
      simp only [Function.comp_apply]
      push_cast
      congr 1
      ring
    exact h1.eventually_lt_const hε
  have hlo : Tendsto (fun N : ℕ => ∫ x in Iic ((D (N + 1)).getD N 0), f x ∂stdNormal) atTop
      (𝓝 (∫ x, f x ∂stdNormal)) := by
    refine tendsto_Iic hf fun x => ?_
    filter_upwards [hsmall (1 - Phi x) (by linarith [Phi_lt_one x])] with N hN
    refine Phi_strictMono.lt_iff_lt.1 ?_
    rw [hcdf N N le_rfl]
    have : ((N : ℝ) + 1) * (1 / (N + 2)) = 1 - 1 / (N + 2) := by field_simp; ring
    rw [this]
    linarith
  have hhi : Tendsto (fun N : ℕ => ∫ x in Ioi ((D (N + 1)).getD 0 0), f x ∂stdNormal) atTop
      (𝓝 (∫ x, f x ∂stdNormal)) := by
    refine tendsto_Ioi hf fun x => ?_
    filter_upwards [hsmall (Phi x) (Phi_pos x)] with N hN
    refine Phi_strictMono.lt_iff_lt.1 ?_
    rw [hcdf N 0 (Nat.zero_le _)]
    simpa using hN
  have hmid := tendsto_of_tendsto_of_tendsto_of_le_of_le hlo hhi (fun N => (hb N).1) (fun N => (hb N).2)
  have hratio : Tendsto (fun N : ℕ => ((N : ℝ) + 2) / (N + 1)) atTop (𝓝 1) := by
    have h1 := (tendsto_one_div_add_atTop_nhds_zero_nat (𝕜 := ℝ)).const_add 1
    rw [add_zero] at h1
    refine h1.congr fun N => ?_
    field_simp
    ring
  have hall := hratio.mul hmid
  rw [one_mul] at hall
  rw [← tendsto_add_atTop_iff_nat 1]
  refine hall.congr fun N => ?_
  rw [hsum N]
  push_cast
  field_simp

theorem DrawsConverge.neg (h : DrawsConverge f) : DrawsConverge fun x => -f x := by
  obtain ⟨D, hD⟩ := exists_draws
  rw [drawsConverge_iff (fun n => (hD n).1)] at h ⊢
  rw [integral_neg]
  refine h.neg.congr fun n => ?_
  rw [← neg_div]
  congr 1
  generalize D n = l
  induction l with
  | nil => simp
  | cons a l ih => simp [← ih]; ring

theorem DrawsConverge.add {g : ℝ → ℝ} (hf : Integrable f stdNormal) (hg : Integrable g stdNormal)
    (h1 : DrawsConverge f) (h2 : DrawsConverge g) : DrawsConverge fun x => f x + g x := by
  obtain ⟨D, hD⟩ := exists_draws
  rw [drawsConverge_iff (fun n => (hD n).1)] at h1 h2 ⊢
  rw [integral_add hf hg]
  refine (h1.add h2).congr fun n => ?_
  rw [← add_div]
  congr 1
  generalize D n = l
  induction l with
  | nil => simp
  | cons a l ih => simp [← ih]; ring

theorem drawsConverge_anti (hm : Antitone f) (hf : Integrable f stdNormal) : DrawsConverge f := by
  have := (drawsConverge_mono (f := fun x => -f x) hm.neg hf.neg).neg
  simpa using this

theorem integrable_affine (a b : ℝ) : Integrable (fun x : ℝ => a * x + b) stdNormal := by
  have h1 : Integrable (fun x : ℝ => x) stdNormal := (memLp_id_gaussianReal 1).integrable (by simp)
  exact (h1.const_mul a).add (integrable_const b)

theorem integrable_log1pExp (a b : ℝ) :
    Integrable (fun x : ℝ => Real.log (1 + Real.exp (a * x + b))) stdNormal := by
  refine Integrable.mono ((integrable_affine a b).norm.add (integrable_const (Real.log 2))) ?_ ?_
  · refine Continuous.aestronglyMeasurable ?_
    exact Continuous.log (by fun_prop) fun x => by positivity
  · refine Eventually.of_forall fun x => ?_
    have h0 : 0 ≤ Real.log (1 + Real.exp (a * x + b)) := Real.log_nonneg (by linarith [Real.exp_pos (a * x + b)])
    have h1 : Real.log (1 + Real.exp (a * x + b)) ≤ |a * x + b| + Real.log 2 := by
      have h2 : 1 + Real.exp (a * x + b) ≤ Real.exp |a * x + b| * 2 := by
        have := Real.exp_le_exp.2 (le_abs_self (a * x + b))
        have := Real.one_le_exp (abs_nonneg (a * x + b))
        linarith
      have := Real.log_le_log (by positivity) h2
      rwa [Real.log_mul (Real.exp_pos _).ne' two_ne_zero, Real.log_exp] at this
    rw [Real.norm_of_nonneg h0]
    simp only [Pi.add_apply, Real.norm_eq_abs]
    rw [abs_of_nonneg (by positivity : (0 : ℝ) ≤ |a * x + b| + Real.log 2)]
    exact h1

theorem monotone_or_antitone_affine (a b : ℝ) {g : ℝ → ℝ} (hg : Monotone g) :
    Monotone (fun x => g (a * x + b)) ∨ Antitone fun x => g (a * x + b) := by
  rcases le_total 0 a with h | h
  · exact .inl fun x y hxy => hg (by nlinarith)
  · exact .inr fun x y hxy => hg (by nlinarith)

theorem drawsConverge_affine (a b : ℝ) {g : ℝ → ℝ} (hg : Monotone g)
    (hi : Integrable (fun x => g (a * x + b)) stdNormal) : DrawsConverge fun x => g (a * x + b) := by
  rcases monotone_or_antitone_affine a b hg with h | h
  · exact drawsConverge_mono h hi
  · exact drawsConverge_anti h hi

theorem drawsConverge_logLik (y a b : ℝ) : DrawsConverge fun x => logisticLogLik y (a * x + b) := by
  have e : (fun x => logisticLogLik y (a * x + b)) = fun x : ℝ =>
      (y * a * x + y * b) + -Real.log (1 + Real.exp (a * x + b)) := by
    funext x
    rw [logisticLogLik_eq]
    ring
  rw [e]
  refine DrawsConverge.add (integrable_affine _ _) (integrable_log1pExp a b).neg
    (drawsConverge_affine (y * a) (y * b) (g := fun x => x) monotone_id (integrable_affine _ _)) ?_
  refine DrawsConverge.neg (drawsConverge_affine a b (g := fun x => Real.log (1 + Real.exp x)) ?_
    (integrable_log1pExp a b))
  intro x y h
  exact Real.log_le_log (by positivity) (by have := Real.exp_le_exp.2 h; linarith)

/-- Expectation under the normal distribution with mean `m` and standard deviation `s`. -/
theorem integral_normal (m s : ℝ) (g : ℝ → ℝ) (hg : Continuous g) :
    ∫ z, g z ∂gaussianReal m ⟨s ^ 2, sq_nonneg s⟩ = ∫ x, g (s * x + m) ∂stdNormal := by
  have h1 : gaussianReal m ⟨s ^ 2, sq_nonneg s⟩ = stdNormal.map fun x => s * x + m := by
    have : (fun x : ℝ => s * x + m) = (· + m) ∘ (s * ·) := rfl
    rw [this, ← Measure.map_map (by fun_prop) (by fun_prop), gaussianReal_map_const_mul,
      gaussianReal_map_add_const]
    congr 1
    · simp
    · rw [mul_one]; rfl
  rw [h1, integral_map (by fun_prop) hg.aestronglyMeasurable]

theorem continuous_logLik (y : ℝ) : Continuous (logisticLogLik y) := by
  have : logisticLogLik y = fun z => y * z - Real.log (1 + Real.exp z) := funext (logisticLogLik_eq y)
  rw [this]
  exact (by fun_prop : Continuous fun z : ℝ => y * z).sub
    (Continuous.log (by fun_prop) fun x => by positivity)

theorem tendsto_list_sum {α : Type*} (l : List α) {F : α → ℕ → ℝ} {c : α → ℝ}
    (h : ∀ a ∈ l, Tendsto (F a) atTop (𝓝 (c a))) :
    Tendsto (fun n => (l.map fun a => F a n).sum) atTop (𝓝 ((l.map c).sum)) := by
  induction l with
  | nil => simp
  | cons a l ih =>
    simp only [List.map_cons, List.sum_cons]
    exact (h a (by simp)).add (ih fun b hb => h b (by simp [hb]))

/-- **C161** The average of an increasing, or a decreasing, function over the draws of
`get_standard_draws(n)` converges to its expectation under the standard normal distribution, as the
number `n` of draws grows. -/
theorem C161_draws (f : ℝ → ℝ) (hm : Monotone f ∨ Antitone f) (hf : Integrable f (gaussianReal 0 1)) :
    ∃ v : ℕ → ℝ, (∀ n, 0 < n → ∃ xs, getStandardDraws n = .ok xs ∧ v n = (xs.map f).sum / n) ∧
      Tendsto v atTop (𝓝 (∫ x, f x ∂gaussianReal 0 1)) := by
  rcases hm with h | h
  · exact drawsConverge_mono h hf
  · exact drawsConverge_anti h hf

/-- **C161** `get_e_logistic_term(y, z_mean, z_sd, get_standard_draws(n))` converges, as `n` grows, to the
sum over the observations of the expectation of the logistic log likelihood under the normal
distribution with mean `z_mean` and standard deviation `z_sd`. -/
theorem C161_logistic_term (s : List ℕ) (y zm zs : Arr) (hy : IsArr y s) (hm : IsArr zm s)
    (hs : IsArr zs s) :
    ∃ v : ℕ → ℝ, (∀ n, 0 < n → ∃ xs, getStandardDraws n = .ok xs ∧
        getELogisticTerm y zm zs (vec xs) = .ok (v n)) ∧
      Tendsto v atTop (𝓝 ((indexProduct s).map fun idx =>
        ∫ z, logisticLogLik (y.get idx) z ∂gaussianReal (zm.get idx)
          ⟨zs.get idx ^ 2, sq_nonneg (zs.get idx)⟩).sum) := by
  obtain ⟨D, hD⟩ := exists_draws
  refine ⟨fun n => ((indexProduct s).map fun idx =>
    ((D n).map fun d => logisticLogLik (y.get idx) (zs.get idx * d + zm.get idx)).sum / n).sum,
    fun n hn => ?_, ?_⟩
  · obtain ⟨xs, v, h1, h2, h3, -⟩ := C91_standard_draws n hn s y zm zs hy hm hs
    have := (hD n).1
    rw [h1] at this
    cases this
    exact ⟨_, h1, h2.trans (congrArg Except.ok h3)⟩
  · refine tendsto_list_sum _ fun idx _ => ?_
    rw [integral_normal _ _ _ (continuous_logLik _)]
    exact (drawsConverge_iff (fun n => (hD n).1) _).1 (drawsConverge_logLik _ _ _)

/-- Two observations with different means and standard deviations meet the hypotheses. -/
example : IsArr ⟨[2], [1, 0]⟩ [2] ∧ IsArr ⟨[2], [3, -1]⟩ [2] ∧ IsArr ⟨[2], [1 / 2, 2]⟩ [2] := by
  refine ⟨⟨?_, rfl⟩, ⟨?_, rfl⟩, ⟨?_, rfl⟩⟩ <;> simp [WF]

/-- The identity is an increasing function with an expectation. -/
example : (Monotone (fun x : ℝ => x) ∨ Antitone fun x : ℝ => x) ∧
    Integrable (fun x : ℝ => x) (gaussianReal 0 1) :=
  ⟨.inl monotone_id, (memLp_id_gaussianReal 1).integrable (by simp)⟩

end

end LRVB
