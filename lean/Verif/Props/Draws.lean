import Verif.Props.Quadrature

/-!
# Standard draws and the logistic terms: C82, C91
-/

namespace LRVB

open Arr ExpFam Modeling MeasureTheory ProbabilityTheory Filter Topology Set

noncomputable section

/-- The standard normal distribution function. -/
abbrev Phi : ℝ → ℝ := fun x => cdf (gaussianReal 0 1) x

theorem Phi_strictMono : StrictMono Phi := by
  intro x y h
  by_contra hc
  have h1 : (cdf (gaussianReal 0 1)).measure (Ioc x y) = 0 := by
    rw [StieltjesFunction.measure_Ioc, ENNReal.ofReal_eq_zero]
    simp only [Phi] at hc
    linarith
  rw [measure_cdf] at h1
  have h2 := gaussianReal_absolutelyContinuous' 0 (v := 1) one_ne_zero h1
  simp at h2
  linarith

theorem Phi_continuous : Continuous Phi := by
  rw [continuous_iff_continuousAt]
  intro x
  have hm : Monotone Phi := monotone_cdf _
  rw [hm.continuousAt_iff_leftLim_eq_rightLim]
  have h1 : Function.rightLim Phi x = Phi x := (cdf (gaussianReal 0 1)).rightLim_eq x
  rw [h1]
  have h2 := StieltjesFunction.measure_singleton (cdf (gaussianReal 0 1)) x
  have : NullSingletonClass (gaussianReal 0 1) := nullSingletonClass_gaussianReal one_ne_zero
  rw [measure_cdf, measure_singleton] at h2
  have h3 := ENNReal.ofReal_eq_zero.1 h2.symm
  have h4 := hm.leftLim_le (le_refl x)
  simp only [Phi] at h4 ⊢
  linarith

theorem Phi_neg (x : ℝ) : Phi (-x) = 1 - Phi x := by
  have : NullSingletonClass (gaussianReal 0 1) := nullSingletonClass_gaussianReal one_ne_zero
  simp only [Phi, cdf_eq_real]
  have h1 : (gaussianReal 0 1).map (fun t => -t) = gaussianReal 0 1 := by
    have := gaussianReal_map_neg (μ := 0) (v := 1)
    simpa using this
  have h2 : (gaussianReal 0 1).real (Iic (-x)) = (gaussianReal 0 1).real (Ioi x) := by
    conv_lhs => rw [← h1]
    rw [Measure.real, Measure.map_apply (by fun_prop) measurableSet_Iic, Measure.real]
    congr 1
    have : (fun t : ℝ => -t) ⁻¹' Iic (-x) = Ici x := by ext t; simp
    rw [this]
    exact measure_congr Ioi_ae_eq_Ici.symm
  rw [h2, ← compl_Iic, measureReal_compl measurableSet_Iic]
  simp

theorem exists_Phi {q : ℝ} (h0 : 0 < q) (h1 : q < 1) : ∃ x, Phi x = q := by
  have ht := tendsto_cdf_atTop (gaussianReal 0 1)
  have hb := tendsto_cdf_atBot (gaussianReal 0 1)
  obtain ⟨b, hb⟩ := (hb.eventually_lt_const h0).exists
  obtain ⟨a, ha⟩ := (ht.eventually_const_lt h1).exists
  exact mem_range_of_exists_le_of_exists_ge Phi_continuous ⟨b, hb.le⟩ ⟨a, ha.le⟩

theorem normPpf_ok {q : ℝ} (h0 : 0 < q) (h1 : q < 1) : ∃ x, normPpf q = .ok x ∧ Phi x = q := by
  unfold normPpf
  have h : 0 < q ∧ q < 1 ∧ ∃ x, cdf (gaussianReal 0 1) x = q := ⟨h0, h1, exists_Phi h0 h1⟩
  rw [dif_pos h]
  exact ⟨_, rfl, h.2.2.choose_spec⟩

theorem linspace_eq (n : ℕ) :
    linspace (1 / (n + 1)) (1 - 1 / (n + 1)) n = (List.range n).map fun i : ℕ => ((i : ℝ) + 1) / (n + 1) := by
  unfold linspace
  split_ifs with h
  · subst h
    norm_num [List.range_succ]
  · refine List.map_congr_left fun i hi => ?_
    have hn : (n : ℝ) + 1 ≠ 0 := by positivity
    have hn1 : (n : ℝ) - 1 ≠ 0 := by
      intro h0
      apply h
      have : (n : ℝ) = 1 := by linarith
      exact_mod_cast this
    field_simp
    ring

/-- **C82** For every `n`, `get_standard_draws(n)` returns `n` numbers, the quantiles of the standard
normal distribution at `1/(n+1), ..., n/(n+1)`; they are strictly increasing and symmetric around
zero. -/
theorem C82_standard_draws (n : ℕ) :
    ∃ xs, getStandardDraws n = .ok xs ∧ xs.length = n ∧
      (∀ i (h : i < xs.length), cdf (gaussianReal 0 1) xs[i] = ((i : ℝ) + 1) / (n + 1)) ∧
      xs.Pairwise (· < ·) ∧ xs.reverse = xs.map (- ·) := by
  have hq : ∀ i : ℕ, i < n → 0 < ((i : ℝ) + 1) / (n + 1) ∧ ((i : ℝ) + 1) / (n + 1) < 1 := by
    intro i hi
    have : (i : ℝ) < n := by exact_mod_cast hi
    exact ⟨by positivity, by rw [div_lt_one (by positivity)]; linarith⟩
  have hx : ∀ i : ℕ, ∃ x, i < n → normPpf (((i : ℝ) + 1) / (n + 1)) = .ok x ∧
      Phi x = ((i : ℝ) + 1) / (n + 1) := by
    intro i
    by_cases hi : i < n
    · obtain ⟨x, h⟩ := normPpf_ok (hq i hi).1 (hq i hi).2
      exact ⟨x, fun _ => h⟩
    · exact ⟨0, fun h => absurd h hi⟩
  choose X hX using hx
  have hlen : ((List.range n).map X).length = n := by simp
  have hcdf : ∀ i (h : i < ((List.range n).map X).length),
      cdf (gaussianReal 0 1) ((List.range n).map X)[i] = ((i : ℝ) + 1) / (n + 1) := by
    intro i h
    have hi : i < n := by simpa using h
    simp only [List.getElem_map, List.getElem_range]
    exact (hX i hi).2
  refine ⟨(List.range n).map X, ?_, hlen, hcdf, ?_, ?_⟩
  · unfold getStandardDraws
    simp only
    rw [linspace_eq, List.mapM_map]
    exact mapM_ok_of _ fun i hi => (hX i (List.mem_range.1 hi)).1
  · rw [List.pairwise_iff_getElem]
    intro i j hi hj hij
    refine Phi_strictMono.lt_iff_lt.1 ?_
    simp only [Phi]
    rw [hcdf i hi, hcdf j hj]
    have : (i : ℝ) < j := by exact_mod_cast hij
    gcongr
  · refine List.ext_getElem (by simp) fun i h1 h2 => ?_
    have hi : i < n := by simpa using h1
    rw [List.getElem_reverse]
    simp only [List.getElem_map, List.getElem_range, List.length_map, List.length_range]
    apply Phi_strictMono.injective
    rw [Phi_neg, (hX _ (by omega)).2, (hX i hi).2]
    have hc : ((n - 1 - i : ℕ) : ℝ) = (n : ℝ) - 1 - i := by
      rw [Nat.cast_sub (by omega), Nat.cast_sub (by omega)]
      simp
    rw [hc]
    field_simp
    ring

/-! ## C91 -/

theorem logisticLogLik_eq (y z : ℝ) : logisticLogLik y z = y * z - Real.log (1 + Real.exp z) := by
  have h1 : Real.log (1 / (1 + Real.exp (-z))) = z - Real.log (1 + Real.exp z) := by
    have e : 1 / (1 + Real.exp (-z)) = Real.exp z / (1 + Real.exp z) := by
      rw [Real.exp_neg]
      field_simp
      ring
    rw [e, Real.log_div (by positivity) (by positivity), Real.log_exp]
  have h2 : Real.log (1 - 1 / (1 + Real.exp (-z))) = -Real.log (1 + Real.exp z) := by
    have e : 1 - 1 / (1 + Real.exp (-z)) = 1 / (1 + Real.exp z) := by
      rw [Real.exp_neg]
      field_simp
      ring
    rw [e, one_div, Real.log_inv]
  unfold logisticLogLik
  rw [h1, h2]
  ring

/-- The tangent of `log(1 + exp(z))`. -/
theorem log1pExp_tangent (m z : ℝ) :
    Real.log (1 + Real.exp m) + Real.exp m / (1 + Real.exp m) * (z - m) ≤
      Real.log (1 + Real.exp z) := by
  have hm : 0 < 1 + Real.exp m := by positivity
  set σ := Real.exp m / (1 + Real.exp m) with hσ
  have hσ0 : 0 ≤ σ := by positivity
  have hσ1 : 0 ≤ 1 - σ := by
    rw [hσ, sub_nonneg, div_le_one hm]
    linarith
  have h := convexOn_exp.2 (mem_univ (0 : ℝ)) (mem_univ (z - m)) hσ1 hσ0 (by ring)
  simp only [smul_eq_mul, mul_zero, zero_add, Real.exp_zero, mul_one] at h
  have e : (1 + Real.exp m) * (1 - σ + σ * Real.exp (z - m)) = 1 + Real.exp z := by
    rw [Real.exp_sub, hσ]
    field_simp
    ring
  rw [← e, Real.log_mul hm.ne' (lt_of_lt_of_le (Real.exp_pos _) h).ne']
  have := Real.log_le_log (Real.exp_pos _) h
  rw [Real.log_exp] at this
  linarith

theorem indexProduct_snoc (s : List ℕ) (n : ℕ) :
    indexProduct (s ++ [n]) = (indexProduct s).flatMap fun i => (List.range n).map fun k => i ++ [k] := by
  induction s with
  | nil => simp [indexProduct, ← List.map_eq_flatMap]
  | cons m s ih =>
    simp only [List.cons_append, indexProduct, ih, List.map_flatMap, List.map_map,
      List.flatMap_assoc, List.flatMap_map]
    rfl

theorem list_sum_flatMap {α : Type*} (l : List α) (f : α → List ℝ) :
    (l.flatMap f).sum = (l.map fun a => (f a).sum).sum := by
  induction l with
  | nil => rfl
  | cons a l ih => simp [ih]

theorem list_sum_range_draws (n : ℕ) (f : ℕ → ℝ) :
    ((List.range n).map f).sum = ∑ k ∈ Finset.range n, f k := by
  induction n with
  | zero => rfl
  | succ n ih => simp [List.range_succ, ih, Finset.sum_range_succ]

theorem list_sum_sub_div {α : Type*} (l : List α) (f g : α → ℝ) (c : ℝ) :
    (l.map f).sum - (l.map g).sum / c = (l.map fun a => f a - g a / c).sum := by
  induction l with
  | nil => simp
  | cons a l ih =>
    simp only [List.map_cons, List.sum_cons, ← ih]
    ring

theorem sumAll_snoc (s : List ℕ) (n : ℕ) (f : List ℕ → ℝ) :
    (ofFn (s ++ [n]) f).sumAll =
      ((indexProduct s).map fun i => ∑ k ∈ Finset.range n, f (i ++ [k])).sum := by
  rw [sumAll_ofFn, indexProduct_snoc, List.map_flatMap, list_sum_flatMap]
  congr 1
  refine List.map_congr_left fun i _ => ?_
  rw [List.map_map, ← list_sum_range_draws]
  rfl

theorem logisticTerm_ok {s : List ℕ} {K : ℕ} (hK : 0 < K) {y zm zs d : Arr} (hy : IsArr y s)
    (hm : IsArr zm s) (hs : IsArr zs s) (hd : IsArr d [K]) :
    getELogisticTerm y zm zs d = .ok (((indexProduct s).map fun idx => y.get idx * zm.get idx -
      (∑ k ∈ Finset.range K, Real.log (1 + Real.exp (zs.get idx * d.get [k] + zm.get idx))) / K).sum) := by
  have hsz : d.size = K := by
    have := hd.1
    rw [WF, hd.2] at this
    simpa [Arr.size] using this
  unfold getELogisticTerm
  rw [if_neg (by rw [hy.2, hm.2, hs.2]; simp), hsz]
  simp only [if_neg hK.ne']
  conv_lhs => rw [arr_eq hy, arr_eq hm, arr_eq hs, arr_eq hd]
  rw [expandLast_ofFn, expandLast_ofFn, Arr.mul, bin_snoc_one_single, py_ok_bind, Arr.add,
    bin_snoc_snoc_one, py_ok_bind, Arr.mul, bin_ofFn, py_ok_bind, map_ofFn, sumAll_snoc, sumAll_ofFn]
  congr 1
  rw [list_sum_sub_div]
  congr 1
  refine List.map_congr_left fun idx _ => ?_
  simp [log1pExp]

/-- **C91** For draws that add up to zero, `get_e_logistic_term(y, z_mean, z_sd, std_draws)` is the
sum over the observations of the average over the draws of the logistic log likelihood at
`z_sd * draw + z_mean`; it is at most the log likelihood at `z_mean`. -/
theorem C91_average_over_draws (s : List ℕ) (K : ℕ) (hK : 0 < K) (y zm zs d : Arr) (hy : IsArr y s)
    (hm : IsArr zm s) (hs : IsArr zs s) (hd : IsArr d [K])
    (h0 : ∑ k ∈ Finset.range K, d.get [k] = 0) :
    ∃ v, getELogisticTerm y zm zs d = .ok v ∧
      v = ((indexProduct s).map fun idx => (∑ k ∈ Finset.range K,
        logisticLogLik (y.get idx) (zs.get idx * d.get [k] + zm.get idx)) / K).sum ∧
      v ≤ ((indexProduct s).map fun idx => logisticLogLik (y.get idx) (zm.get idx)).sum := by
  have hK' : (K : ℝ) ≠ 0 := by exact_mod_cast hK.ne'
  refine ⟨_, logisticTerm_ok hK hy hm hs hd, ?_, ?_⟩
  · congr 1
    refine List.map_congr_left fun idx _ => ?_
    simp only [logisticLogLik_eq, Finset.sum_sub_distrib, ← Finset.mul_sum, Finset.sum_add_distrib,
      h0, Finset.sum_const, Finset.card_range, nsmul_eq_mul]
    field_simp
    ring
  · refine List.sum_le_sum fun idx _ => ?_
    rw [logisticLogLik_eq]
    have h1 : Real.log (1 + Real.exp (zm.get idx)) ≤ (∑ k ∈ Finset.range K,
        Real.log (1 + Real.exp (zs.get idx * d.get [k] + zm.get idx))) / K := by
      rw [le_div_iff₀ (by positivity)]
      have h2 := Finset.sum_le_sum fun (k : ℕ) (_ : k ∈ Finset.range K) =>
        log1pExp_tangent (zm.get idx) (zs.get idx * d.get [k] + zm.get idx)
      simp only [add_sub_cancel_right, Finset.sum_add_distrib, ← Finset.mul_sum, h0, mul_zero,
        Finset.sum_const, Finset.card_range, nsmul_eq_mul, add_zero] at h2
      linarith
    linarith

/-- The draws of `get_standard_draws` add up to zero. -/
theorem sum_eq_zero_of_symm {xs : List ℝ} (h : xs.reverse = xs.map (- ·)) : xs.sum = 0 := by
  have h1 := congrArg List.sum h
  have h2 : ∀ l : List ℝ, (l.map (- ·)).sum = -l.sum := by
    intro l
    induction l with
    | nil => simp
    | cons a l ih =>
      simp only [List.map_cons, List.sum_cons, ih]
      ring
  rw [List.sum_reverse, h2] at h1
  linarith

/-- **C91** The draws returned by `get_standard_draws(n)` meet the hypothesis, for every `n ≥ 1`. -/
theorem C91_standard_draws (n : ℕ) (hn : 0 < n) (s : List ℕ) (y zm zs : Arr) (hy : IsArr y s)
    (hm : IsArr zm s) (hs : IsArr zs s) :
    ∃ xs v, getStandardDraws n = .ok xs ∧ getELogisticTerm y zm zs (vec xs) = .ok v ∧
      v = ((indexProduct s).map fun idx =>
        (xs.map fun d => logisticLogLik (y.get idx) (zs.get idx * d + zm.get idx)).sum / n).sum ∧
      v ≤ ((indexProduct s).map fun idx => logisticLogLik (y.get idx) (zm.get idx)).sum := by
  obtain ⟨xs, h1, h2, -, -, h3⟩ := C82_standard_draws n
  have hd : IsArr (vec xs) [n] := ⟨by simp [vec, WF], by simp [vec, h2]⟩
  have hg : ∀ f : ℝ → ℝ, ∑ k ∈ Finset.range n, f ((vec xs).get [k]) = (xs.map f).sum := by
    intro f
    rw [← list_sum_range_draws]
    congr 1
    refine List.ext_getElem (by simp [h2]) fun i hi1 hi2 => ?_
    have hi : i < xs.length := by simpa using hi2
    simp [Arr.get, vec, flat, hi]
  obtain ⟨v, e1, e2, e3⟩ := C91_average_over_draws s n hn y zm zs (vec xs) hy hm hs hd (by
    have := hg fun t => t
    simpa [sum_eq_zero_of_symm h3] using this)
  refine ⟨xs, v, h1, e1, ?_, e3⟩
  rw [e2]
  congr 1
  refine List.map_congr_left fun idx _ => ?_
  rw [hg fun d => logisticLogLik (y.get idx) (zs.get idx * d + zm.get idx)]

/-- **C91** `get_e_logistic_term_guass_hermite` without aggregation returns, for every observation,
the quadrature estimate of `E log(1 + exp(Z))` for `Z` normal with mean `z_mean` and standard
deviation `z_sd`, which is at least `log(1 + exp(z_mean))` when the weights are nonnegative and the
rule is exact on linear functions; with aggregation it returns the sum. -/
theorem C91_gauss_hermite (s : List ℕ) (K : ℕ) (zm zs x w : Arr) (hm : IsArr zm s)
    (hs : IsPosArr zs s) (hx : IsArr x [K]) (hw : IsArr w [K]) :
    ∃ e, getELogisticTermGHEach zm zs x w = .ok e ∧ IsArr e s ∧
      getELogisticTermGH zm zs x w = .ok e.sumAll ∧
      (∀ idx, InShape idx s → e.get idx = quadrature x w K (zm.get idx) (1 / zs.get idx ^ 2)
        fun z => Real.log (1 + Real.exp z)) ∧
      ((∀ k < K, 0 ≤ w.get [k]) → ExactRule x w K 1 → ∀ idx, InShape idx s →
        Real.log (1 + Real.exp (zm.get idx)) ≤ e.get idx) := by
  have ht : gaussHermiteTerms zm zs x w = .ok (ofFn (s ++ [K]) fun idx =>
      w.get [idx.getLastD 0] * Real.log (1 + Real.exp (√2 * zs.get idx.dropLast *
        x.get [idx.getLastD 0] + zm.get idx.dropLast)) / √Real.pi) := by
    unfold gaussHermiteTerms
    rw [if_neg (by rw [hm.2, hs.1.2]; simp)]
    conv_lhs => rw [arr_eq hm, arr_eq hs.1, arr_eq hx, arr_eq hw]
    rw [expandLast_ofFn, expandLast_ofFn, map_ofFn, Arr.mul, bin_snoc_one_single, py_ok_bind,
      Arr.add, bin_snoc_snoc_one, py_ok_bind, map_ofFn, Arr.mul, bin_single_snoc, py_ok_bind,
      map_ofFn]
    simp [log1pExp]
  have hq : ∀ idx, InShape idx s → ∑ k ∈ Finset.range K, w.get [k] * Real.log (1 + Real.exp
      (√2 * zs.get idx * x.get [k] + zm.get idx)) / √Real.pi =
      quadrature x w K (zm.get idx) (1 / zs.get idx ^ 2) fun z => Real.log (1 + Real.exp z) := by
    intro idx h
    have hp := hs.2 idx h
    unfold quadrature
    rw [Finset.sum_div]
    refine Finset.sum_congr rfl fun k _ => ?_
    have e : √(1 / zs.get idx ^ 2) = 1 / zs.get idx := by
      rw [Real.sqrt_div zero_le_one, Real.sqrt_one, Real.sqrt_sq hp.le]
    rw [e]
    congr 5
    field_simp
  refine ⟨ofFn s fun idx => ∑ k ∈ Finset.range K, w.get [k] * Real.log (1 + Real.exp
    (√2 * zs.get idx * x.get [k] + zm.get idx)) / √Real.pi, ?_, ofFn_arr _ _, ?_, ?_, ?_⟩
  · unfold getELogisticTermGHEach
    rw [ht, py_ok_bind, if_neg (by simp [hs.1.2]), sumLast_ofFn]
    simp
  · unfold getELogisticTermGH
    rw [ht, py_ok_bind, sumAll_snoc, sumAll_ofFn]
    simp
  · intro idx h
    rw [get_ofFn _ h, hq idx h]
  · intro hw0 hrule idx h
    rw [get_ofFn _ h]
    have hpi : 0 < √Real.pi := Real.sqrt_pos.2 Real.pi_pos
    have w1 : ∑ k ∈ Finset.range K, w.get [k] = √Real.pi := by
      have := hrule 1 (by simp)
      simpa [integral_exp_neg_sq] using this
    have w2 : ∑ k ∈ Finset.range K, w.get [k] * x.get [k] = 0 := by
      have h1 := hrule Polynomial.X (by simp)
      have h2 := exactRule_two Polynomial.X (by simp)
      rw [← h2] at h1
      simp [Finset.sum_range_succ, Arr.get, flat] at h1 ⊢
      linarith
    rw [← Finset.sum_div, le_div_iff₀ hpi]
    have h2 := Finset.sum_le_sum fun (k : ℕ) (hk : k ∈ Finset.range K) =>
      mul_le_mul_of_nonneg_left (log1pExp_tangent (zm.get idx)
        (√2 * zs.get idx * x.get [k] + zm.get idx)) (hw0 k (Finset.mem_range.1 hk))
    refine le_trans (le_of_eq ?_) h2
    simp only [add_sub_cancel_right, mul_add, Finset.sum_add_distrib, ← Finset.sum_mul, w1]
    have e : ∑ k ∈ Finset.range K, w.get [k] * (Real.exp (zm.get idx) /
        (1 + Real.exp (zm.get idx)) * (√2 * zs.get idx * x.get [k])) =
        Real.exp (zm.get idx) / (1 + Real.exp (zm.get idx)) * (√2 * zs.get idx) *
          ∑ k ∈ Finset.range K, w.get [k] * x.get [k] := by
      rw [Finset.mul_sum]
      exact Finset.sum_congr rfl fun k _ => by ring
    rw [e, w2]
    ring

/-- Two observations. -/
example : IsArr ⟨[2], [0, 1]⟩ [2] ∧ IsArr ⟨[2], [0.3, -1]⟩ [2] ∧ IsPosArr ⟨[2], [1, 2]⟩ [2] ∧
    IsArr ⟨[3], [-1, 0, 1]⟩ [3] ∧
    ∑ k ∈ Finset.range 3, (⟨[3], [-1, 0, 1]⟩ : Arr).get [k] = 0 :=
  ⟨⟨rfl, rfl⟩, ⟨rfl, rfl⟩, ⟨⟨rfl, rfl⟩, fun _ hi => forall_data_get (a := ⟨[2], [1, 2]⟩)
    (P := fun x => 0 < x) rfl (by simp) hi⟩, ⟨rfl, rfl⟩, by
      simp [Finset.sum_range_succ, Arr.get, flat]⟩

end

end LRVB
