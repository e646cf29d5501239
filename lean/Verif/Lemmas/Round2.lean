import Verif.Lemmas.Round

/-!
# Consequences of the contract of floating point arithmetic
-/

namespace LRVB

open Classical Flt

noncomputable section

theorem Flt.le_cases {f : ℝ} {x : Flt} (h : fin f ≤ x) : x = pinf ∨ ∃ r, x = fin r ∧ f ≤ r := by
  cases x with
  | fin r => exact Or.inr ⟨r, rfl, h⟩
  | pinf => exact Or.inl rfl
  | ninf => exact h.elim
  | nan => exact h.elim

theorem Flt.ge_cases {f : ℝ} {x : Flt} (h : x ≤ fin f) : x = ninf ∨ ∃ r, x = fin r ∧ r ≤ f := by
  cases x with
  | fin r => exact Or.inr ⟨r, rfl, h⟩
  | pinf => exact h.elim
  | ninf => exact Or.inl rfl
  | nan => exact h.elim

theorem Flt.between_fin {a b : ℝ} {x : Flt} (h1 : fin a ≤ x) (h2 : x ≤ fin b) : ∃ r, x = fin r ∧ a ≤ r ∧ r ≤ b := by
  rcases Flt.le_cases h1 with rfl | ⟨r, rfl, h⟩
  · exact h2.elim
  · exact ⟨r, rfl, h, h2⟩

@[simp] theorem Flt.r_fin_le_fin {a b : ℝ} : (fin a ≤ fin b) ↔ a ≤ b := Iff.rfl
@[simp] theorem Flt.r_fin_le_pinf {a : ℝ} : fin a ≤ pinf := trivial
@[simp] theorem Flt.r_pinf_le_pinf : pinf ≤ pinf := trivial
@[simp] theorem Flt.r_ninf_le_fin {a : ℝ} : ninf ≤ fin a := trivial
@[simp] theorem Flt.r_ninf_le_pinf : ninf ≤ pinf := trivial
@[simp] theorem Flt.r_not_pinf_le_fin {a : ℝ} : ¬ pinf ≤ fin a := id
@[simp] theorem Flt.r_not_nan_le {a : Flt} : ¬ nan ≤ a := by cases a <;> exact id
@[simp] theorem Flt.r_not_fin_le_ninf {a : ℝ} : ¬ fin a ≤ ninf := id
@[simp] theorem Flt.r_not_pinf_le_ninf : ¬ pinf ≤ ninf := id

namespace FloatContract

variable {o : FloatOps} {over under : ℝ} (c : FloatContract o over under)
include c

theorem le_rnd {f x : ℝ} (hf : o.Rep f) (h : f ≤ x) : fin f ≤ o.rnd x := by
  have := c.rnd_mono h
  rwa [c.rnd_rep hf] at this

theorem rnd_le {f x : ℝ} (hf : o.Rep f) (h : x ≤ f) : o.rnd x ≤ fin f := by
  have := c.rnd_mono h
  rwa [c.rnd_rep hf] at this

theorem rnd_ne_nan (x : ℝ) : o.rnd x ≠ nan := by
  intro h
  have := c.rnd_mono (le_refl x)
  rw [h] at this
  exact this

theorem exp_nonneg (x : ℝ) : fin 0 ≤ o.expR x := c.exp_ge c.zero (Real.exp_pos x).le

theorem exp_zero : o.expR 0 = fin 1 := by
  obtain ⟨r, h, h1, h2⟩ := Flt.between_fin (c.exp_ge (x := 0) c.one (by simp)) (c.exp_le (x := 0) c.one (by simp))
  rw [h]
  congr 1
  linarith

theorem exp_le_one {x : ℝ} (h : x ≤ 0) : o.expR x ≤ fin 1 := c.exp_le c.one (by simpa using h)

theorem log_one : o.logR 1 = fin 0 := by
  obtain ⟨r, h, h1, h2⟩ := Flt.between_fin (c.log_ge (x := 1) one_pos c.zero (by simp))
    (c.log_le (x := 1) one_pos c.zero (by simp))
  rw [h]
  congr 1
  linarith

theorem over_gt {x : ℝ} (h : o.Rep x) : x < over := by
  by_contra hc
  have h1 := c.rnd_over (not_lt.1 hc)
  rw [c.rnd_rep h] at h1
  cases h1

end FloatContract

end

end LRVB
