import Verif.Props.Quadrature

/-!
# Logit-normal estimates: C97
-/

namespace LRVB

open Arr ExpFam Families

noncomputable section

/-- **C97** For a rule with nonnegative weights that integrates constants exactly,
`get_e_logitnormal` returns for every entry the quadrature estimate of `E expit(X)`; it lies strictly
between zero and one, and it increases with the mean. -/
theorem C97_logitnormal_mean (s : List ℕ) (K : ℕ) (means means' infos x w : Arr)
    (hm : IsArr means s) (hm' : IsArr means' s)
    (hi : IsPosArr infos s) (hx : IsArr x [K]) (hw : IsArr w [K]) (hw0 : ∀ k < K, 0 ≤ w.get [k])
    (hrule : ExactRule x w K 0) :
    ∃ e e', getELogitnormal means infos x w = .ok e ∧ getELogitnormal means' infos x w = .ok e' ∧
      IsArr e s ∧ IsArr e' s ∧ ∀ idx, InShape idx s →
        e.get idx = quadrature x w K (means.get idx) (infos.get idx)
          (fun t => 1 / (1 + Real.exp (-t))) ∧
        0 < e.get idx ∧ e.get idx < 1 ∧
        (means.get idx < means'.get idx → e.get idx < e'.get idx) ∧
        (means.get idx = means'.get idx → e.get idx = e'.get idx) := by
  have hpi : 0 < √Real.pi := Real.sqrt_pos.2 Real.pi_pos
  have w1 : ∑ k ∈ Finset.range K, w.get [k] = √Real.pi := by
    have := hrule 1 (by simp)
    simpa [integral_exp_neg_sq] using this
  -- one weight is positive
  obtain ⟨k0, hk0, hk0'⟩ : ∃ k < K, 0 < w.get [k] := by
    by_contra hno
    push Not at hno
    have : ∑ k ∈ Finset.range K, w.get [k] ≤ 0 :=
      Finset.sum_nonpos fun k hk => hno k (Finset.mem_range.1 hk)
    linarith
  have lt : ∀ f g : ℕ → ℝ, (∀ k, f k < g k) →
      ∑ k ∈ Finset.range K, w.get [k] * f k < ∑ k ∈ Finset.range K, w.get [k] * g k :=
    fun f g h => Finset.sum_lt_sum
      (fun k hk => mul_le_mul_of_nonneg_left (h k).le (hw0 k (Finset.mem_range.1 hk)))
      ⟨k0, Finset.mem_range.2 hk0, mul_lt_mul_of_pos_left (h k0) hk0'⟩
  have e0 : ∀ t, 0 < expit t := fun t => by unfold expit; positivity
  have e1 : ∀ t, expit t < 1 := fun t => by
    unfold expit
    rw [div_lt_one (by positivity)]
    linarith [Real.exp_pos (-t)]
  have e2 : ∀ t u, t < u → expit t < expit u := fun t u h => by
    unfold expit
    refine one_div_lt_one_div_of_lt (by positivity) ?_
    have := Real.exp_lt_exp.2 (neg_lt_neg h)
    linarith
  refine ⟨_, _, eFun_ok hm hi hx hw expit, eFun_ok hm' hi hx hw expit, ofFn_arr _ _, ofFn_arr _ _,
    fun idx h => ?_⟩
  rw [get_ofFn _ h, get_ofFn _ h]
  refine ⟨rfl, ?_, ?_, fun hlt => ?_, fun heq => by rw [heq]⟩
  · unfold quadrature
    refine div_pos ?_ hpi
    have := lt (fun _ => 0) (fun k => expit (√2 * x.get [k] / √(infos.get idx) + means.get idx))
      fun k => e0 _
    simpa using this
  · unfold quadrature
    rw [div_lt_one hpi]
    have := lt (fun k => expit (√2 * x.get [k] / √(infos.get idx) + means.get idx)) (fun _ => 1)
      fun k => e1 _
    simpa [w1] using this
  · unfold quadrature
    refine div_lt_div_of_pos_right ?_ hpi
    exact lt _ _ fun k => e2 _ _ (by linarith)

/-- **C97** The stick-breaking prior computed by `get_e_dp_prior_logitnorm_approx` is, up to
`|alpha - 1| exp(-100)`, the quadrature estimate of `E[(alpha - 1) log(1 - V)]` for `V = expit(X)`;
for `alpha = 1` it is zero. -/
theorem C97_dp_prior (s : List ℕ) (K : ℕ) (means infos x w : Arr) (α : ℝ) (hm : IsArr means s)
    (hi : IsPosArr infos s) (hx : IsArr x [K]) (hw : IsArr w [K]) (hw0 : ∀ k < K, 0 ≤ w.get [k])
    (hrule : ExactRule x w K 1) :
    ∃ e, getEDpPriorLogitnormApprox (scalar α) means infos x w = .ok e ∧ IsArr e s ∧
      ∀ idx, InShape idx s →
        |e.get idx - quadrature x w K (means.get idx) (infos.get idx)
          (fun t => (α - 1) * Real.log (1 - 1 / (1 + Real.exp (-t))))| ≤
            |α - 1| * Real.exp (-100) ∧
        (α = 1 → e.get idx = 0) := by
  obtain ⟨e, e1, h1, h2, h3, h4⟩ := C83_log_logitnormal s K means infos x w hm hi hx hw hw0 hrule
  refine ⟨ofFn s fun idx => (α - 1) * e1.get idx, ?_, ofFn_arr _ _, fun idx h => ⟨?_, fun h1 => ?_⟩⟩
  · unfold getEDpPriorLogitnormApprox
    rw [h1, py_ok_bind]
    have : (scalar α).minus (scalar 1) = .ok (scalar (α - 1)) := by
      rw [Arr.minus, bin_scalar_right]
      rfl
    rw [this, py_ok_bind, Arr.mul, bin_scalar_left, h3.2]
  · rw [get_ofFn _ h]
    have e : quadrature x w K (means.get idx) (infos.get idx)
        (fun t => (α - 1) * Real.log (1 - 1 / (1 + Real.exp (-t)))) =
        (α - 1) * quadrature x w K (means.get idx) (infos.get idx)
          (fun t => Real.log (1 - 1 / (1 + Real.exp (-t)))) := by
      unfold quadrature
      rw [mul_div_assoc', Finset.mul_sum]
      congr 1
      exact Finset.sum_congr rfl fun k _ => by ring
    rw [e, ← mul_sub, abs_mul]
    exact mul_le_mul_of_nonneg_left (h4 idx h).2 (abs_nonneg _)
  · rw [get_ofFn _ h, h1]
    ring

/-- The rule with two nodes integrates constants exactly as well. -/
example : ExactRule ⟨[2], [-1, 1]⟩ ⟨[2], [√Real.pi / 2, √Real.pi / 2]⟩ 2 0 :=
  fun p hp => exactRule_two p (by omega)

end

end LRVB
