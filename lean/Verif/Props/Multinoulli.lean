import Verif.Props.Quadrature
import Verif.Spec.Multinoulli
import Mathlib.Analysis.Convex.Jensen
import Mathlib.Analysis.Convex.SpecificFunctions.Basic

/-!
# Discrete distributions: C96
-/

namespace LRVB

open Arr ExpFam

noncomputable section

theorem multinoulliEntropy_eq {p : Arr} {r c : ℕ} {ε : ℝ} (hp : IsArr p [r, c])
    (h : ∀ i < r, ∀ j < c, 0 < p.get [i, j] + ε) :
    multinoulliEntropy p ε = .ok (ofFn [r] fun idx =>
      -∑ j ∈ Finset.range c, p.get (idx ++ [j]) * Real.log (p.get (idx ++ [j]) + ε)) := by
  unfold multinoulliEntropy
  rw [hp.2]
  simp only [Arr.add, bin_scalar_right, map_ofFn, py_ok_bind, hp.2]
  rw [log_ofFn (fun idx hidx => by
    obtain ⟨i, j, rfl, hi, hj⟩ := exists_of_forall₂_two hidx
    exact h i hi j hj), py_ok_bind, Arr.mul]
  nth_rw 1 [arr_eq hp]
  rw [bin_ofFn, py_ok_bind, show [r, c] = [r] ++ [c] from rfl, sumLast_ofFn, py_ok_bind, map_ofFn]
  simp

theorem shannon_le_log {c : ℕ} {q : ℕ → ℝ} (h0 : ∀ j < c, 0 ≤ q j)
    (h1 : ∑ j ∈ Finset.range c, q j = 1) : shannon c q ≤ Real.log c := by
  have hc : 0 < c := by
    rcases Nat.eq_zero_or_pos c with rfl | h
    · simp at h1
    · exact h
  have hc' : (0 : ℝ) < c := by exact_mod_cast hc
  have key : ∀ j ∈ Finset.range c, -(q j * Real.log (q j)) ≤ q j * Real.log c + (1 / c - q j) := by
    intro j hj
    rcases (h0 j (Finset.mem_range.1 hj)).eq_or_lt with h | h
    · rw [← h]; simp
    · have := Real.log_le_sub_one_of_pos (show 0 < 1 / (c * q j) by positivity)
      rw [one_div, Real.log_inv, Real.log_mul hc'.ne' h.ne'] at this
      have h2 := mul_le_mul_of_nonneg_left this h.le
      have h3 : q j * ((c * q j)⁻¹ - 1) = 1 / c - q j := by field_simp
      rw [h3] at h2
      nlinarith
  have := Finset.sum_le_sum key
  rw [Finset.sum_add_distrib, Finset.sum_sub_distrib, ← Finset.sum_mul, h1, Finset.sum_neg_distrib]
    at this
  simp only [Finset.sum_const, Finset.card_range, nsmul_eq_mul] at this
  unfold shannon
  have h4 : (c : ℝ) * (1 / c) = 1 := by field_simp
  rw [h4] at this
  linarith

/-- **C96** For an array whose rows are probabilities and any positive `min_prob`,
`multinoulli_entropy` returns one number for each row: the Shannon entropy of the row, too small by
at most `min_prob` for each column, and so never larger than the logarithm of the number of
columns. -/
theorem C96_multinoulli_entropy (r c : ℕ) (p : Arr) (hp : IsProbRows p r c) (ε : ℝ) (hε : 0 < ε) :
    ∃ e, multinoulliEntropy p ε = .ok e ∧ IsArr e [r] ∧ ∀ i < r,
      shannon c (fun j => p.get [i, j]) - c * ε ≤ e.get [i] ∧
      e.get [i] ≤ shannon c (fun j => p.get [i, j]) ∧
      e.get [i] ≤ Real.log c := by
  refine ⟨_, multinoulliEntropy_eq hp.arr fun i hi j hj => by
    linarith [hp.nonneg i hi j hj], ofFn_arr _ _, fun i hi => ?_⟩
  rw [get_ofFn _ (List.Forall₂.cons hi .nil)]
  have term : ∀ j < c, p.get [i, j] * Real.log (p.get [i, j]) ≤
      p.get [i, j] * Real.log (p.get [i, j] + ε) ∧
      p.get [i, j] * Real.log (p.get [i, j] + ε) ≤
        p.get [i, j] * Real.log (p.get [i, j]) + ε := by
    intro j hj
    rcases (hp.nonneg i hi j hj).eq_or_lt with h | h
    · rw [← h]
      constructor
      · simp
      · simpa using hε.le
    · constructor
      · exact mul_le_mul_of_nonneg_left (Real.log_le_log h (by linarith)) h.le
      · have e1 : Real.log (p.get [i, j] + ε) =
            Real.log (p.get [i, j]) + Real.log (1 + ε / p.get [i, j]) := by
          rw [← Real.log_mul h.ne' (by positivity)]
          congr 1
          field_simp
        have e2 := Real.log_le_sub_one_of_pos (show 0 < 1 + ε / p.get [i, j] by positivity)
        have e3 := mul_le_mul_of_nonneg_left e2 h.le
        have e4 : p.get [i, j] * (1 + ε / p.get [i, j] - 1) = ε := by field_simp; ring
        rw [e1, mul_add]
        linarith
  have a1 := Finset.sum_le_sum fun j hj => (term j (Finset.mem_range.1 hj)).1
  have a2 := Finset.sum_le_sum fun j hj => (term j (Finset.mem_range.1 hj)).2
  rw [Finset.sum_add_distrib] at a2
  simp only [Finset.sum_const, Finset.card_range, nsmul_eq_mul] at a2
  have a3 := shannon_le_log (hp.nonneg i hi) (hp.sum i hi)
  simp only [List.cons_append, List.nil_append]
  unfold shannon at a3 ⊢
  refine ⟨by linarith, by linarith, by linarith⟩

/-- **C96** Without `min_prob` the entropy is exact when no probability is zero, and is not a number
when one of them is. -/
theorem C96_zero_min_prob (r c : ℕ) (p : Arr) (hp : IsProbRows p r c) :
    ((∀ i < r, ∀ j < c, p.get [i, j] ≠ 0) → ∃ e, multinoulliEntropy p 0 = .ok e ∧ IsArr e [r] ∧
      ∀ i < r, e.get [i] = shannon c fun j => p.get [i, j]) ∧
    ((∃ i < r, ∃ j < c, p.get [i, j] = 0) → multinoulliEntropy p 0 = .error .nonFinite) := by
  constructor
  · intro h
    refine ⟨_, multinoulliEntropy_eq hp.arr fun i hi j hj => by
      rw [add_zero]
      exact lt_of_le_of_ne (hp.nonneg i hi j hj) (h i hi j hj).symm, ofFn_arr _ _, fun i hi => ?_⟩
    rw [get_ofFn _ (List.Forall₂.cons hi .nil)]
    simp [shannon]
  · rintro ⟨i, hi, j, hj, h⟩
    have hl : p.log = .error .nonFinite := by
      have hmem : (0 : ℝ) ∈ p.data := by
        rw [← h]
        exact get_mem hp.arr.1 (by rw [hp.arr.2]; exact forall₂_two hi hj)
      unfold Arr.log Arr.mapPy
      have : ∀ l : List ℝ, 0 ∈ l → l.mapM logR = .error .nonFinite := by
        intro l hl
        induction l with
        | nil => simp at hl
        | cons x l ih =>
          rw [List.mapM_cons]
          by_cases hx : 0 < x
          · rw [logR, if_pos hx, py_ok_bind, ih (by
              rcases List.mem_cons.1 hl with h | h
              · exact absurd h hx.ne
              · exact h)]
            rfl
          · rw [logR, if_neg hx]
            rfl
      rw [this _ hmem]
      rfl
    unfold multinoulliEntropy
    rw [hp.arr.2]
    simp only [Arr.add, bin_scalar_right, py_ok_bind, add_zero]
    rw [ofFn_get hp.arr.1, hl]
    rfl

/-- The result can be negative: a row that gives probability one to one value has the entropy zero,
and the value returned is below zero for every positive `min_prob`. -/
theorem C96_certain_value (ε : ℝ) (hε : 0 < ε) :
    IsProbRows ⟨[1, 2], [1, 0]⟩ 1 2 ∧ shannon 2 (fun j => (⟨[1, 2], [1, 0]⟩ : Arr).get [0, j]) = 0 ∧
    ∃ e, multinoulliEntropy ⟨[1, 2], [1, 0]⟩ ε = .ok e ∧ e.get [0] < 0 := by
  have hp : IsProbRows ⟨[1, 2], [1, 0]⟩ 1 2 := by
    refine ⟨⟨rfl, rfl⟩, fun i hi j hj => ?_, fun i hi => ?_⟩
    · interval_cases i; interval_cases j <;> simp [Arr.get, flat]
    · interval_cases i; simp [Finset.sum_range_succ, Arr.get, flat]
  refine ⟨hp, by simp [shannon, Finset.sum_range_succ, Arr.get, flat], _,
    multinoulliEntropy_eq hp.arr fun i hi j hj => by linarith [hp.nonneg i hi j hj], ?_⟩
  rw [get_ofFn _ (List.Forall₂.cons one_pos .nil)]
  simp only [List.cons_append, List.nil_append, Finset.sum_range_succ, Finset.sum_range_zero,
    Arr.get, flat]
  simp
  exact Real.log_pos (by linarith)

/-- Two rows with three columns. -/
example : IsProbRows ⟨[2, 3], [1 / 2, 1 / 2, 0, 1 / 4, 1 / 4, 1 / 2]⟩ 2 3 := by
  refine ⟨⟨rfl, rfl⟩, fun i hi j hj => ?_, fun i hi => ?_⟩
  · interval_cases i <;> interval_cases j <;> norm_num [Arr.get, flat]
  · interval_cases i <;> norm_num [Finset.sum_range_succ, Arr.get, flat]

end

end LRVB
