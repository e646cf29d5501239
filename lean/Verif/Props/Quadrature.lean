import Verif.Props.Gamma

/-!
# Numeric integration: C83, C90
-/

namespace LRVB

open Arr ExpFam Families MeasureTheory ProbabilityTheory

noncomputable section

theorem eFun_ok {s : List ℕ} {K : ℕ} {means infos x w : Arr} (hm : IsArr means s)
    (hi : IsPosArr infos s) (hx : IsArr x [K]) (hw : IsArr w [K]) (f : ℝ → ℝ) :
    getEFunNormal means infos x w (fun z => .ok (z.map f)) =
      .ok (ofFn s fun idx => quadrature x w K (means.get idx) (infos.get idx) f) := by
  unfold getEFunNormal
  rw [if_neg (by rw [hm.2, hi.1.2]; simp)]
  conv_lhs => rw [arr_eq hm, arr_eq hi.1, arr_eq hx, arr_eq hw]
  simp only [map_ofFn, expandLast_ofFn]
  have hpos : ∀ idx, InShape idx (s ++ [1]) → 0 < infos.get idx.dropLast := by
    intro idx h
    obtain ⟨i, k, rfl, h1, h2⟩ := exists_of_forall₂_snoc h
    simpa using hi.2 i h1
  have hs : (ofFn (s ++ [1]) fun idx => infos.get idx.dropLast).sqrt =
      .ok (ofFn (s ++ [1]) fun idx => √(infos.get idx.dropLast)) :=
    mapPy_ofFn fun idx h => by rw [if_pos (hpos idx h).le]
  rw [hs, py_ok_bind, div_eq (zero_notMem_ofFn fun idx h => (Real.sqrt_pos.2 (hpos idx h)).ne'),
    bin_single_snoc_one, py_ok_bind, Arr.add, bin_snoc_snoc_one, py_ok_bind, py_ok_bind, Arr.mul,
    map_ofFn, bin_single_snoc, py_ok_bind, if_neg (by simp), sumLast_ofFn]
  congr 1
  refine ofFn_congr fun idx _ => ?_
  unfold quadrature
  rw [Finset.sum_div]
  refine Finset.sum_congr rfl fun k _ => ?_
  simp
  ring

/-! ## C90 -/

theorem integral_normal_comp {m i : ℝ} (hi : 0 < i) (f : ℝ → ℝ) (hf : Continuous f) :
    ∫ x, f x ∂normal m i = (∫ t, f (√2 * t / √i + m) * Real.exp (-t ^ 2)) / √Real.pi := by
  have h1 : normal m i = (gaussianReal 0 (1 / 2)).map fun t => √2 / √i * t + m := by
    rw [show (fun t => √2 / √i * t + m) = (fun t => t + m) ∘ fun t => √2 / √i * t from rfl,
      ← Measure.map_map (by fun_prop) (by fun_prop), gaussianReal_map_const_mul,
      gaussianReal_map_add_const, normal]
    congr 1
    · ring
    · ext
      rw [varOf_coe hi]
      have h2 : √2 ^ 2 = 2 := Real.sq_sqrt (by norm_num)
      have h3 : √i ^ 2 = i := Real.sq_sqrt hi.le
      simp only [NNReal.coe_mul, NNReal.coe_mk, div_pow, h2, h3]
      norm_num
  rw [h1, integral_map (by fun_prop) hf.aestronglyMeasurable,
    integral_gaussianReal_eq_integral_smul (by norm_num), ← integral_div]
  congr 1
  funext t
  simp only [smul_eq_mul, gaussianPDFReal]
  norm_num
  rw [show √2 * t / √i + m = √2 / √i * t + m by ring]
  have h2 : √2 ≠ 0 := by positivity
  have h3 : √Real.pi ≠ 0 := (Real.sqrt_pos.2 Real.pi_pos).ne'
  field_simp

/-- **C90** If the nodes and weights integrate polynomials of degree at most `D` exactly against
`exp(-t²)`, then `get_e_fun_normal` returns the expectation of every polynomial of degree at most `D`
under the normal distributions with the given means and precisions. -/
theorem C90_exact_on_polynomials (s : List ℕ) (K D : ℕ) (means infos x w : Arr)
    (hm : IsArr means s) (hi : IsPosArr infos s) (hx : IsArr x [K]) (hw : IsArr w [K])
    (hrule : ExactRule x w K D) (p : Polynomial ℝ) (hp : p.natDegree ≤ D) :
    getEFunNormal means infos x w (fun z => .ok (z.map p.eval)) =
      .ok (ofFn s fun idx => ∫ t, p.eval t ∂normal (means.get idx) (infos.get idx)) := by
  rw [eFun_ok hm hi hx hw]
  congr 1
  refine ofFn_congr fun idx h => ?_
  rw [integral_normal_comp (hi.2 idx h) _ p.continuous, quadrature]
  congr 1
  have h1 := hrule (p.comp (Polynomial.C (√2 / √(infos.get idx)) * Polynomial.X +
    Polynomial.C (means.get idx))) (by
      refine (Polynomial.natDegree_comp_le).trans ?_
      calc p.natDegree * _ ≤ p.natDegree * 1 :=
            Nat.mul_le_mul_left _ Polynomial.natDegree_linear_le
        _ ≤ D := by omega)
  simp only [Polynomial.eval_comp, Polynomial.eval_add, Polynomial.eval_mul, Polynomial.eval_C,
    Polynomial.eval_X] at h1
  have e : ∀ t, √2 * t / √(infos.get idx) + means.get idx =
      √2 / √(infos.get idx) * t + means.get idx := fun t => by ring
  simp only [e]
  exact h1

theorem integral_exp_neg_sq : ∫ t : ℝ, Real.exp (-t ^ 2) = √Real.pi := by
  have := integral_gaussian 1
  simpa using this

/-- A rule with two nodes that is exact for degree one. -/
theorem exactRule_two : ExactRule ⟨[2], [-1, 1]⟩ ⟨[2], [√Real.pi / 2, √Real.pi / 2]⟩ 2 1 := by
  intro p hp
  obtain ⟨a, b, rfl⟩ := Polynomial.exists_eq_X_add_C_of_natDegree_le_one hp
  have h0 : ∫ t : ℝ, t * Real.exp (-t ^ 2) = 0 := by
    have := integral_neg_eq_self (fun t : ℝ => t * Real.exp (-t ^ 2)) volume
    simp only [neg_sq, neg_mul, integral_neg] at this
    linarith
  have i1 : Integrable fun t : ℝ => t * Real.exp (-t ^ 2) := by
    simpa using integrable_mul_exp_neg_mul_sq (b := 1) one_pos
  have i2 : Integrable fun t : ℝ => Real.exp (-t ^ 2) := by
    simpa using integrable_exp_neg_mul_sq (b := 1) one_pos
  have e : (fun t : ℝ => (Polynomial.C a * Polynomial.X + Polynomial.C b).eval t *
      Real.exp (-t ^ 2)) = fun t => a * (t * Real.exp (-t ^ 2)) + b * Real.exp (-t ^ 2) := by
    funext t
    simp
    ring
  rw [e, integral_add (i1.const_mul a) (i2.const_mul b), integral_const_mul, integral_const_mul, h0,
    integral_exp_neg_sq]
  simp [Finset.sum_range_succ, Arr.get, flat]
  ring

/-- Two normal variables and the rule with two nodes. -/
example : IsArr ⟨[2], [1, -3]⟩ [2] ∧ IsPosArr ⟨[2], [1, 3]⟩ [2] ∧ IsArr ⟨[2], [-1, 1]⟩ [2] ∧
    IsArr ⟨[2], [√Real.pi / 2, √Real.pi / 2]⟩ [2] ∧
    ExactRule ⟨[2], [-1, 1]⟩ ⟨[2], [√Real.pi / 2, √Real.pi / 2]⟩ 2 1 :=
  ⟨⟨rfl, rfl⟩, ⟨⟨rfl, rfl⟩, fun _ hi => forall_data_get (a := ⟨[2], [1, 3]⟩) (P := fun x => 0 < x)
    rfl (by simp) hi⟩, ⟨rfl, rfl⟩, ⟨rfl, rfl⟩, exactRule_two⟩

/-! ## C83 -/

theorem log_expit (x : ℝ) : Real.log (1 / (1 + Real.exp (-x))) = -Real.log (1 + Real.exp (-x)) := by
  rw [one_div, Real.log_inv]

theorem logV_large {x : ℝ} (h : x > -100) : logV x = Real.log (1 / (1 + Real.exp (-x))) := by
  unfold logV
  norm_num
  rw [if_pos h, if_neg (by linarith)]
  rw [max_eq_left]
  · ring
  · have h1 : Real.exp (-x) ≤ Real.exp 100 := Real.exp_le_exp.2 (by linarith)
    have h2 : 1 + Real.exp (-x) ≤ Real.exp 101 := by
      have : Real.exp 101 = Real.exp 1 * Real.exp 100 := by rw [← Real.exp_add]; norm_num
      have h3 : (2 : ℝ) ≤ Real.exp 1 := by
        have := Real.add_one_le_exp (1 : ℝ); linarith
      have h4 : 1 ≤ Real.exp 100 := Real.one_le_exp (by norm_num)
      nlinarith
    have h5 : Real.log (1 + Real.exp (-x)) ≤ 101 := by
      rw [Real.log_le_iff_le_exp (by positivity)]; exact h2
    linarith

/-- **C83** The function used for `log(expit(x))` differs from it by at most `exp(-100)` at every
real number, and equals it for `x > -100`. -/
theorem C83_log_expit (x : ℝ) :
    |logV x - Real.log (1 / (1 + Real.exp (-x)))| ≤ Real.exp (-100) ∧
      (x > -100 → logV x = Real.log (1 / (1 + Real.exp (-x)))) := by
  refine ⟨?_, logV_large⟩
  by_cases h : x > -100
  · rw [logV_large h, sub_self, abs_zero]
    positivity
  · have h' : x ≤ -100 := not_lt.1 h
    have e : logV x = x := by
      unfold logV
      norm_num
      rw [if_neg h, if_pos h']
      ring
    have e2 : x - Real.log (1 / (1 + Real.exp (-x))) = Real.log (1 + Real.exp x) := by
      rw [log_expit, sub_neg_eq_add]
      have h1 : x + Real.log (1 + Real.exp (-x)) =
          Real.log (Real.exp x) + Real.log (1 + Real.exp (-x)) := by rw [Real.log_exp]
      rw [h1, ← Real.log_mul (by positivity) (by positivity), mul_add, mul_one,
        ← Real.exp_add, add_neg_cancel, Real.exp_zero, add_comm]
    rw [e, e2, abs_of_nonneg (Real.log_nonneg (by linarith [Real.exp_pos x]))]
    have := Real.log_le_sub_one_of_pos (show 0 < 1 + Real.exp x by positivity)
    have h2 := Real.exp_le_exp.2 h'
    linarith

theorem quadrature_sub_le {x w : Arr} {K : ℕ} {m i ε : ℝ} {f g : ℝ → ℝ}
    (hw0 : ∀ k < K, 0 ≤ w.get [k]) (hw : ∑ k ∈ Finset.range K, w.get [k] = √Real.pi)
    (h : ∀ t, |f t - g t| ≤ ε) : |quadrature x w K m i f - quadrature x w K m i g| ≤ ε := by
  have hpi : 0 < √Real.pi := Real.sqrt_pos.2 Real.pi_pos
  unfold quadrature
  rw [← sub_div, abs_div, abs_of_pos hpi, div_le_iff₀ hpi, ← Finset.sum_sub_distrib, ← hw,
    Finset.mul_sum]
  refine (Finset.abs_sum_le_sum_abs _ _).trans (Finset.sum_le_sum fun k hk => ?_)
  rw [← mul_sub, abs_mul, abs_of_nonneg (hw0 k (Finset.mem_range.1 hk)), mul_comm]
  exact mul_le_mul_of_nonneg_right (h _) (hw0 k (Finset.mem_range.1 hk))

/-- **C83** For a rule with nonnegative weights that is exact on linear functions, the two arrays
returned by `get_e_log_logitnormal` are within `exp(-100)` of the quadrature estimates of
`E log(V)` and of `E log(1 - V)`, where `V = expit(X)`. -/
theorem C83_log_logitnormal (s : List ℕ) (K : ℕ) (means infos x w : Arr) (hm : IsArr means s)
    (hi : IsPosArr infos s) (hx : IsArr x [K]) (hw : IsArr w [K]) (hw0 : ∀ k < K, 0 ≤ w.get [k])
    (hrule : ExactRule x w K 1) :
    ∃ e e1, getELogLogitnormal means infos x w = .ok (e, e1) ∧ IsArr e s ∧ IsArr e1 s ∧
      ∀ idx, InShape idx s →
        |e.get idx - quadrature x w K (means.get idx) (infos.get idx)
          (fun t => Real.log (1 / (1 + Real.exp (-t))))| ≤ Real.exp (-100) ∧
        |e1.get idx - quadrature x w K (means.get idx) (infos.get idx)
          (fun t => Real.log (1 - 1 / (1 + Real.exp (-t))))| ≤ Real.exp (-100) := by
  have hpi : √Real.pi ≠ 0 := (Real.sqrt_pos.2 Real.pi_pos).ne'
  have w1 : ∑ k ∈ Finset.range K, w.get [k] = √Real.pi := by
    have := hrule 1 (by simp)
    simpa [integral_exp_neg_sq] using this
  have lin : ∀ m i, 0 < i → quadrature x w K m i (fun t => t) = m := by
    intro m i hi
    have hm' : IsArr (scalar m) [] := ⟨rfl, rfl⟩
    have hi' : IsPosArr (scalar i) [] := ⟨⟨rfl, rfl⟩, fun idx _ => by simpa using hi⟩
    have h1 := C90_exact_on_polynomials [] K 1 (scalar m) (scalar i) x w hm' hi' hx hw hrule
      Polynomial.X (by simp)
    rw [eFun_ok hm' hi' hx hw] at h1
    have h2 := congrArg (fun a => Arr.get a []) (Except.ok.inj h1)
    simp only [scalar_get] at h2
    rw [get_ofFn _ .nil, get_ofFn _ .nil] at h2
    simpa [normal, integral_id_gaussianReal] using h2
  refine ⟨ofFn s fun idx => quadrature x w K (means.get idx) (infos.get idx) logV,
    ofFn s fun idx => -means.get idx + quadrature x w K (means.get idx) (infos.get idx) logV,
    ?_, ofFn_arr s _, ofFn_arr s _, fun idx h => ⟨?_, ?_⟩⟩
  · unfold getELogLogitnormal
    rw [eFun_ok hm hi hx hw, py_ok_bind, Arr.add, map_arr hm, bin_ofFn]
    rfl
  · rw [get_ofFn _ h]
    exact quadrature_sub_le hw0 w1 fun t => (C83_log_expit t).1
  · rw [get_ofFn _ h]
    have e : -means.get idx + quadrature x w K (means.get idx) (infos.get idx) logV =
        quadrature x w K (means.get idx) (infos.get idx) fun t => logV t - t := by
      conv_lhs => rw [← lin (means.get idx) (infos.get idx) (hi.2 idx h)]
      rw [lin (means.get idx) (infos.get idx) (hi.2 idx h)]
      have h3 := lin (means.get idx) (infos.get idx) (hi.2 idx h)
      unfold quadrature at h3 ⊢
      simp only [mul_sub, Finset.sum_sub_distrib, sub_div]
      linarith
    rw [e]
    refine quadrature_sub_le hw0 w1 fun t => ?_
    have e2 : Real.log (1 - 1 / (1 + Real.exp (-t))) = Real.log (1 / (1 + Real.exp (-t))) - t := by
      have h4 : 1 - 1 / (1 + Real.exp (-t)) = Real.exp (-t) * (1 / (1 + Real.exp (-t))) := by
        field_simp
        ring
      rw [h4, Real.log_mul (by positivity) (by positivity), Real.log_exp]
      ring
    rw [e2]
    have := (C83_log_expit t).1
    convert this using 2
    ring

example : ∀ k < 2, 0 ≤ (⟨[2], [√Real.pi / 2, √Real.pi / 2]⟩ : Arr).get [k] := by
  intro k hk
  have := Real.sqrt_nonneg Real.pi
  interval_cases k <;> simp [Arr.get, flat] <;> positivity

end

end LRVB
