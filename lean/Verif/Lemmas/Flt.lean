import Verif.Model.Bounds
import Mathlib.Tactic.Ring
import Mathlib.Tactic.Linarith
import Mathlib.Tactic.FieldSimp
import Mathlib.Tactic.Positivity

namespace LRVB

open Flt

namespace Flt

@[simp] theorem fin_le_fin (a b : ℝ) : (fin a ≤ fin b) ↔ a ≤ b := Iff.rfl
@[simp] theorem fin_lt_fin (a b : ℝ) : (fin a < fin b) ↔ a < b := Iff.rfl
@[simp] theorem nan_le (a : Flt) : (nan ≤ a) ↔ False := by cases a <;> exact Iff.rfl
@[simp] theorem le_nan (a : Flt) : (a ≤ nan) ↔ False := by cases a <;> exact Iff.rfl
@[simp] theorem nan_lt (a : Flt) : (nan < a) ↔ False := by cases a <;> exact Iff.rfl
@[simp] theorem lt_nan (a : Flt) : (a < nan) ↔ False := by cases a <;> exact Iff.rfl
@[simp] theorem ninf_le_fin (a : ℝ) : (ninf ≤ fin a) ↔ True := Iff.rfl
@[simp] theorem ninf_le_pinf : (ninf ≤ pinf) ↔ True := Iff.rfl
@[simp] theorem ninf_le_ninf : (ninf ≤ ninf) ↔ True := Iff.rfl
@[simp] theorem pinf_le_pinf : (pinf ≤ pinf) ↔ True := Iff.rfl
@[simp] theorem fin_le_pinf (a : ℝ) : (fin a ≤ pinf) ↔ True := Iff.rfl
@[simp] theorem pinf_le_fin (a : ℝ) : (pinf ≤ fin a) ↔ False := Iff.rfl
@[simp] theorem pinf_le_ninf : (pinf ≤ ninf) ↔ False := Iff.rfl
@[simp] theorem fin_le_ninf (a : ℝ) : (fin a ≤ ninf) ↔ False := Iff.rfl
@[simp] theorem ninf_lt_fin (a : ℝ) : (ninf < fin a) ↔ True := Iff.rfl
@[simp] theorem ninf_lt_pinf : (ninf < pinf) ↔ True := Iff.rfl
@[simp] theorem ninf_lt_ninf : (ninf < ninf) ↔ False := Iff.rfl
@[simp] theorem pinf_lt (a : Flt) : (pinf < a) ↔ False := by cases a <;> exact Iff.rfl
@[simp] theorem fin_lt_pinf (a : ℝ) : (fin a < pinf) ↔ True := Iff.rfl
@[simp] theorem fin_lt_ninf (a : ℝ) : (fin a < ninf) ↔ False := Iff.rfl

@[simp] theorem fin_eq_fin (a b : ℝ) : (fin a).eq (fin b) ↔ a = b := Iff.rfl
@[simp] theorem fin_eq_pinf (a : ℝ) : (fin a).eq pinf ↔ False := Iff.rfl
@[simp] theorem fin_eq_ninf (a : ℝ) : (fin a).eq ninf ↔ False := Iff.rfl
@[simp] theorem pinf_eq_pinf : pinf.eq pinf ↔ True := Iff.rfl
@[simp] theorem ninf_eq_ninf : ninf.eq ninf ↔ True := Iff.rfl
@[simp] theorem ninf_eq_pinf : ninf.eq pinf ↔ False := Iff.rfl
@[simp] theorem pinf_eq_ninf : pinf.eq ninf ↔ False := Iff.rfl
@[simp] theorem nan_eq (a : Flt) : nan.eq a ↔ False := by cases a <;> exact Iff.rfl

@[simp] theorem fin_add_fin (a b : ℝ) : fin a + fin b = fin (a + b) := rfl
@[simp] theorem fin_sub_fin (a b : ℝ) : fin a - fin b = fin (a - b) := by
  change add (fin a) (fin (-b)) = _; simp [add, sub_eq_add_neg]
@[simp] theorem fin_mul_fin (a b : ℝ) : fin a * fin b = fin (a * b) := rfl
theorem fin_div_fin (a b : ℝ) (h : b ≠ 0) : fin a / fin b = fin (a / b) := by
  change div _ _ = _; simp [div, h]
@[simp] theorem exp_fin (a : ℝ) : Flt.exp (fin a) = fin (Real.exp a) := rfl
@[simp] theorem exp_ninf : Flt.exp ninf = fin 0 := rfl
@[simp] theorem exp_pinf : Flt.exp pinf = pinf := rfl
theorem log_fin_pos (a : ℝ) (h : 0 < a) : Flt.log (fin a) = fin (Real.log a) := by
  simp [Flt.log, h]
@[simp] theorem log_fin_zero : Flt.log (fin 0) = ninf := by simp [Flt.log]
@[simp] theorem ninf_sub_fin (a : ℝ) : ninf - fin a = ninf := rfl
@[simp] theorem fin_sub_ninf (a : ℝ) : fin a - ninf = pinf := rfl
@[simp] theorem fin_sub_pinf (a : ℝ) : fin a - pinf = ninf := rfl
@[simp] theorem pinf_sub_fin (a : ℝ) : pinf - fin a = pinf := rfl
@[simp] theorem fin_add_pinf (a : ℝ) : fin a + pinf = pinf := rfl
@[simp] theorem pinf_div_pinf : pinf / pinf = nan := rfl
@[simp] theorem nan_add (a : Flt) : nan + a = nan := by cases a <;> rfl
@[simp] theorem fin_neg_one_mul_ninf : fin (-1) * ninf = pinf := by
  have h : infMul (-1) = ninf := by norm_num [infMul]
  change neg (infMul (-1)) = _; rw [h]; rfl
@[simp] theorem fin_neg_one_mul_pinf : fin (-1) * pinf = ninf := by
  change infMul (-1) = _; simp [infMul]
theorem fin_pos_mul_pinf (a : ℝ) (h : 0 < a) : fin a * pinf = pinf := by
  change infMul a = _; simp [infMul, h]
@[simp] theorem toReal_fin (a : ℝ) : (fin a).toReal = .ok a := rfl

/-- Legal bounds come in four shapes. -/
theorem lt_cases {lb ub : Flt} (h : lb < ub) :
    (lb = ninf ∧ ub = pinf) ∨ (∃ a, lb = fin a ∧ ub = pinf) ∨
    (∃ b, lb = ninf ∧ ub = fin b) ∨ (∃ a b, lb = fin a ∧ ub = fin b ∧ a < b) := by
  cases lb <;> cases ub <;> simp_all

theorem not_le_of_lt {lb ub : Flt} (h : lb < ub) : ¬ ub ≤ lb := by
  rcases lt_cases h with ⟨rfl, rfl⟩ | ⟨a, rfl, rfl⟩ | ⟨b, rfl, rfl⟩ | ⟨a, b, rfl, rfl, hab⟩ <;> simp_all

end Flt

/-! Closed forms of the transforms in the four bound configurations. -/

theorem constrain_free (x : Flt) : constrain x ninf pinf = .ok x := by simp [constrain]
theorem constrain_lower (x a : ℝ) : constrain (fin x) (fin a) pinf = .ok (fin (Real.exp x + a)) := by
  simp [constrain]
theorem constrain_upper (x b : ℝ) : constrain (fin x) ninf (fin b) = .ok (fin (b - Real.exp (-x))) := by
  simp [constrain]
theorem constrain_both (x a b : ℝ) (h : a < b) :
    constrain (fin x) (fin a) (fin b) =
      .ok (fin ((b - a) * Real.exp x / (1 + Real.exp x) + a)) := by
  have h1 : (1 + Real.exp x) ≠ 0 := by positivity
  simp [constrain, not_le.mpr h, fin_div_fin _ _ h1]

theorem unconstrain_free (v : Flt) : unconstrain v ninf pinf = .ok v := by simp [unconstrain]
theorem unconstrain_lower (v a : ℝ) (h : a < v) :
    unconstrain (fin v) (fin a) pinf = .ok (fin (Real.log (v - a))) := by
  simp [unconstrain, log_fin_pos _ (sub_pos.mpr h)]
theorem unconstrain_upper (v b : ℝ) (h : v < b) :
    unconstrain (fin v) ninf (fin b) = .ok (fin (-Real.log (b - v))) := by
  simp [unconstrain, log_fin_pos _ (sub_pos.mpr h)]
theorem unconstrain_both (v a b : ℝ) (h1 : a < v) (h2 : v < b) :
    unconstrain (fin v) (fin a) (fin b) = .ok (fin (Real.log (v - a) - Real.log (b - v))) := by
  simp [unconstrain, not_le.mpr (h1.trans h2), log_fin_pos _ (sub_pos.mpr h1),
    log_fin_pos _ (sub_pos.mpr h2)]

/-- The constrained value of a finite free value. -/
theorem constrain_inside {lb ub : Flt} (h : lb < ub) (x : ℝ) :
    ∃ v : ℝ, constrain (fin x) lb ub = .ok (fin v) ∧ lb < fin v ∧ fin v < ub := by
  rcases lt_cases h with ⟨rfl, rfl⟩ | ⟨a, rfl, rfl⟩ | ⟨b, rfl, rfl⟩ | ⟨a, b, rfl, rfl, hab⟩
  · exact ⟨x, constrain_free _, by simp, by simp⟩
  · exact ⟨_, constrain_lower x a, by simp [Real.exp_pos], by simp⟩
  · exact ⟨_, constrain_upper x b, by simp, by simp [Real.exp_pos]⟩
  · refine ⟨_, constrain_both x a b hab, ?_, ?_⟩
    · have : 0 < (b - a) * Real.exp x / (1 + Real.exp x) := by
        have := sub_pos.mpr hab; positivity
      simpa using this
    · have hp := Real.exp_pos x
      have : (b - a) * Real.exp x / (1 + Real.exp x) < b - a := by
        rw [div_lt_iff₀ (by positivity)]
        have := sub_pos.mpr hab
        nlinarith
      simp only [fin_lt_fin]; linarith

theorem unconstrain_constrain {lb ub : Flt} (h : lb < ub) (x v : ℝ)
    (hv : constrain (fin x) lb ub = .ok (fin v)) : unconstrain (fin v) lb ub = .ok (fin x) := by
  obtain ⟨w, hw, h1, h2⟩ := constrain_inside h x
  rw [hv] at hw
  simp only [Except.ok.injEq, fin.injEq] at hw
  subst hw
  rcases lt_cases h with ⟨rfl, rfl⟩ | ⟨a, rfl, rfl⟩ | ⟨b, rfl, rfl⟩ | ⟨a, b, rfl, rfl, hab⟩
  · rw [constrain_free] at hv; rw [unconstrain_free]; simpa using hv.symm
  · rw [constrain_lower] at hv
    rw [unconstrain_lower _ _ (by simpa using h1)]
    simp only [Except.ok.injEq, fin.injEq] at hv
    simp [← hv]
  · rw [constrain_upper] at hv
    rw [unconstrain_upper _ _ (by simpa using h2)]
    simp only [Except.ok.injEq, fin.injEq] at hv
    simp [← hv]
  · rw [constrain_both _ _ _ hab] at hv
    rw [unconstrain_both _ _ _ (by simpa using h1) (by simpa using h2)]
    simp only [Except.ok.injEq, fin.injEq] at hv ⊢
    have hp := Real.exp_pos x
    have hd := sub_pos.mpr hab
    have e1 : v - a = (b - a) * Real.exp x / (1 + Real.exp x) := by rw [← hv]; ring
    have e2 : b - v = (b - a) / (1 + Real.exp x) := by rw [← hv]; field_simp; ring
    rw [e1, e2, Real.log_div (by positivity) (by positivity), Real.log_div (by positivity) (by positivity),
      Real.log_mul (by positivity) (by positivity), Real.log_exp]
    ring

theorem constrain_unconstrain {lb ub : Flt} (v : ℝ)
    (h1 : lb < fin v) (h2 : fin v < ub) :
    ∃ x : ℝ, unconstrain (fin v) lb ub = .ok (fin x) ∧ constrain (fin x) lb ub = .ok (fin v) := by
  cases lb with
  | nan => simp at h1
  | pinf => simp at h1
  | ninf =>
    cases ub with
    | nan => simp at h2
    | ninf => simp at h2
    | pinf => exact ⟨v, unconstrain_free _, constrain_free _⟩
    | fin b =>
      have h2' : v < b := by simpa using h2
      refine ⟨_, unconstrain_upper v b h2', ?_⟩
      rw [constrain_upper]; simp [Real.exp_log (sub_pos.mpr h2')]
  | fin a =>
    have h1' : a < v := by simpa using h1
    cases ub with
    | nan => simp at h2
    | ninf => simp at h2
    | pinf =>
      refine ⟨_, unconstrain_lower v a h1', ?_⟩
      rw [constrain_lower]; simp [Real.exp_log (sub_pos.mpr h1')]
    | fin b =>
      have h2' : v < b := by simpa using h2
      refine ⟨_, unconstrain_both v a b h1' h2', ?_⟩
      have p1 := sub_pos.mpr h1'
      have p2 := sub_pos.mpr h2'
      rw [constrain_both _ _ _ (h1'.trans h2'), Real.exp_sub, Real.exp_log p1, Real.exp_log p2]
      have : (b - a) * ((v - a) / (b - v)) / (1 + (v - a) / (b - v)) + a = v := by
        have h3 : 1 + (v - a) / (b - v) = (b - a) / (b - v) := by field_simp; ring
        have h4 : b - a ≠ 0 := by linarith
        rw [h3]; field_simp; ring
      rw [this]

theorem constrain_strictMono {lb ub : Flt} (h : lb < ub) {x y u v : ℝ} (hxy : x < y)
    (hu : constrain (fin x) lb ub = .ok (fin u)) (hv : constrain (fin y) lb ub = .ok (fin v)) :
    u < v := by
  have he := Real.exp_lt_exp.mpr hxy
  rcases lt_cases h with ⟨rfl, rfl⟩ | ⟨a, rfl, rfl⟩ | ⟨b, rfl, rfl⟩ | ⟨a, b, rfl, rfl, hab⟩
  · rw [constrain_free] at hu hv
    simp only [Except.ok.injEq, fin.injEq] at hu hv; linarith
  · rw [constrain_lower] at hu hv
    simp only [Except.ok.injEq, fin.injEq] at hu hv; linarith
  · rw [constrain_upper] at hu hv
    simp only [Except.ok.injEq, fin.injEq] at hu hv
    have := Real.exp_lt_exp.mpr (neg_lt_neg hxy)
    linarith
  · rw [constrain_both _ _ _ hab] at hu hv
    simp only [Except.ok.injEq, fin.injEq] at hu hv
    rw [← hu, ← hv]
    have hd := sub_pos.mpr hab
    have p1 := Real.exp_pos x
    have p2 := Real.exp_pos y
    have : (b - a) * Real.exp x / (1 + Real.exp x) < (b - a) * Real.exp y / (1 + Real.exp y) := by
      rw [div_lt_div_iff₀ (by positivity) (by positivity)]
      nlinarith
    linarith

end LRVB
