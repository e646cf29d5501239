import Verif.Props.Dirichlet
import Verif.Lemmas.DirichletMoments
import Verif.Lemmas.Einsum
import Mathlib.Probability.Distributions.Beta

/-!
# Moments and entropy of Dirichlet and beta parameters: C95
-/

namespace LRVB

open Arr ExpFam Families MeasureTheory ProbabilityTheory Set

noncomputable section

theorem eLogDirichlet_ofFn {n : ℕ} (hn : 0 < n) {s : List ℕ} {f : List ℕ → ℝ}
    (h : ∀ idx, InShape idx (n :: s) → 0 < f idx) :
    getELogDirichlet (ofFn (n :: s) f) =
      .ok (ofFn (n :: s) fun idx => psi (f idx) - psi (∑ i ∈ Finset.range n, f (i :: idx.tail))) := by
  have hs : ∀ idx, InShape idx (1 :: s) → 0 < ∑ i ∈ Finset.range n, f (i :: idx.tail) := by
    intro idx hi
    cases hi with
    | cons h1 h2 => exact sum_pos_col hn h h2
  unfold getELogDirichlet minus
  rw [sum0Keep_ofFn, py_ok_bind, digamma_ofFn hs, py_ok_bind, digamma_ofFn h, py_ok_bind,
    bin_cons_one]
  rfl

/-- **C95** For every array of positive `alpha` with `m + 1` components along the first axis and any
further axes, the function with these parameters is a probability density on the simplex; the entries
of `get_e_dirichlet` are the means of its coordinates, those of `get_e_log_dirichlet` the
expectations of their logarithms, and those of `dirichlet_entropy` its differential entropies. -/
theorem C95_dirichlet_moments (m : ℕ) (s : List ℕ) (alpha : Arr) (h : IsPosArr alpha ((m + 1) :: s)) :
    ∃ e l H, getEDirichlet alpha = .ok e ∧ getELogDirichlet alpha = .ok l ∧
      dirichletEntropy alpha = .ok H ∧ IsArr e ((m + 1) :: s) ∧ IsArr l ((m + 1) :: s) ∧ IsArr H s ∧
      ∀ idx, InShape idx s →
        let α : Fin (m + 1) → ℝ := fun i => alpha.get ((i : ℕ) :: idx)
        (∀ x, 0 ≤ dirichletPdf α x) ∧ (∫ x, dirichletPdf α x = 1) ∧
        (∀ i : Fin (m + 1), e.get ((i : ℕ) :: idx) = ∫ x, dirichletPdf α x * simplexPoint x i) ∧
        (∀ i : Fin (m + 1),
          Integrable (fun x => dirichletPdf α x * Real.log (simplexPoint x i)) ∧
          l.get ((i : ℕ) :: idx) = ∫ x, dirichletPdf α x * Real.log (simplexPoint x i)) ∧
        Integrable (fun x => dirichletPdf α x * Real.log (dirichletPdf α x)) ∧
        H.get idx = -∫ x, dirichletPdf α x * Real.log (dirichletPdf α x) := by
  have hn : 0 < m + 1 := by omega
  refine ⟨_, _, _, by rw [arr_eq h.1]; exact eDirichlet_ofFn hn h.2,
    by rw [arr_eq h.1]; exact eLogDirichlet_ofFn hn h.2,
    by rw [arr_eq h.1]; exact dirichletEntropy_ofFn hn h.2, ofFn_arr _ _, ofFn_arr _ _, ofFn_arr _ _,
    fun idx hi => ?_⟩
  intro α
  have hα : ∀ i, 0 < α i := fun i => h.2 _ (List.Forall₂.cons i.2 hi)
  have hin : ∀ i : Fin (m + 1), InShape ((i : ℕ) :: idx) ((m + 1) :: s) := fun i =>
    List.Forall₂.cons i.2 hi
  have hsum : ∑ i ∈ Finset.range (m + 1), alpha.get (i :: idx) = ∑ i, α i :=
    Finset.sum_range fun i => alpha.get (i :: idx)
  refine ⟨dirichletPdf_nonneg hα, integral_dirichletPdf hα, fun i => ?_,
    fun i => ⟨(dirichlet_log hα i).1, ?_⟩, (entropy_dirichlet hα).1, ?_⟩
  · rw [get_ofFn _ (hin i), dirichlet_mean hα i, List.tail_cons, hsum]
  · rw [get_ofFn _ (hin i), (dirichlet_log hα i).2, List.tail_cons, hsum]
  · rw [get_ofFn _ hi, (entropy_dirichlet hα).2, hsum,
      Finset.sum_range fun i => Real.log (Real.Gamma (alpha.get (i :: idx))),
      Finset.sum_range fun i => (alpha.get (i :: idx) - 1) * psi (alpha.get (i :: idx))]
    push_cast
    rfl

/-- **C95** The methods of a Dirichlet parameter are these functions of the `alpha` it holds, after
any history of calls. -/
theorem C95_dirichlet_methods (p : Param) (ops : List ParamOp) (alpha : Arr)
    (h : Holds (p.run ops) "alpha" alpha) :
    dirichletE (p.run ops) = getEDirichlet alpha ∧ dirichletELog (p.run ops) = getELogDirichlet alpha ∧
      dirichletParEntropy (p.run ops) = dirichletEntropy alpha := by
  unfold dirichletE dirichletELog dirichletParEntropy
  rw [h.item]
  exact ⟨rfl, rfl, rfl⟩

/-- Three components, two columns. -/
example : IsPosArr ⟨[2 + 1, 2], [1, 2, 0.5, 4, 3, 0.1]⟩ [2 + 1, 2] :=
  ⟨⟨rfl, rfl⟩, fun _ hi => forall_data_get (a := ⟨[3, 2], [1, 2, 0.5, 4, 3, 0.1]⟩)
    (P := fun x => 0 < x) rfl (by norm_num) hi⟩

/-- A Dirichlet parameter of shape `(3, 2)` after `set_free`: the hypothesis of
`C95_dirichlet_methods`. -/
example : ∃ p ops alpha, mkDirichlet "d" [3, 2] 0.1 none = .ok ⟨p, [3, 2]⟩ ∧
    Holds (p.run ops) "alpha" alpha ∧ IsPosArr alpha [3, 2] := by
  obtain ⟨p, h1, -, h2⟩ := C77_after_set_free "d" 0.1 (by norm_num) 3 (by norm_num) [2] []
  obtain ⟨q, a, e, h3, h4, h5, -⟩ := h2 (List.replicate 6 0.5) (by simp)
  refine ⟨p, [.setFree (List.replicate 6 0.5)], a, h1, ?_, h5⟩
  have : p.run [.setFree (List.replicate 6 0.5)] = q := congrArg Prod.fst h3
  rw [this]
  exact h4

/-! ### The beta distribution -/

theorem simplexPoint_one (t : ℝ) : simplexPoint (fun _ : Fin 1 => t) = ![1 - t, t] := by
  funext i
  fin_cases i <;> simp [simplexPoint]

theorem betaPDFReal_ae (a b : ℝ) :
    ∀ᵐ t : ℝ, betaPDFReal a b t = dirichletPdf ![b, a] (fun _ : Fin 1 => t) := by
  filter_upwards [Measure.ae_ne volume (0 : ℝ), Measure.ae_ne volume (1 : ℝ)] with t h0 h1
  unfold betaPDFReal dirichletPdf
  rw [simplexPoint_one]
  have e1 : (∀ i : Fin (1 + 1), 0 ≤ (![1 - t, t] : Fin (1 + 1) → ℝ) i) ↔ 0 ≤ 1 - t ∧ 0 ≤ t :=
    Fin.forall_fin_two
  have e2 : ∑ i : Fin (1 + 1), (![b, a] : Fin (1 + 1) → ℝ) i = b + a := Fin.sum_univ_two _
  have e3 : ∏ i : Fin (1 + 1), Real.Gamma ((![b, a] : Fin (1 + 1) → ℝ) i) =
    Real.Gamma b * Real.Gamma a := Fin.prod_univ_two _
  have e4 : ∏ i : Fin (1 + 1), (![1 - t, t] : Fin (1 + 1) → ℝ) i ^
    ((![b, a] : Fin (1 + 1) → ℝ) i - 1) = (1 - t) ^ (b - 1) * t ^ (a - 1) := Fin.prod_univ_two _
  simp only [e1, e2, e3, e4]
  by_cases h : 0 < t ∧ t < 1
  · rw [if_pos h, if_pos ⟨by linarith [h.2], h.1.le⟩, ProbabilityTheory.beta, add_comm b a]
    field_simp
  · rw [if_neg h, if_neg]
    rintro ⟨h2, h3⟩
    exact h ⟨lt_of_le_of_ne h3 (Ne.symm h0), lt_of_le_of_ne (by linarith) h1⟩

theorem integral_fin_one (f : (Fin 1 → ℝ) → ℝ) : ∫ t : ℝ, f (fun _ => t) = ∫ x, f x := by
  have h := (volume_preserving_funUnique (Fin 1) ℝ).symm
  exact h.integral_comp (MeasurableEquiv.measurableEmbedding _) f

theorem diffEntropy_beta {a b : ℝ} (ha : 0 < a) (hb : 0 < b) :
    diffEntropy (betaPDFReal a b) =
      Real.log (Real.Gamma a) + Real.log (Real.Gamma b) - Real.log (Real.Gamma (a + b)) -
        (a - 1) * psi a - (b - 1) * psi b + (a + b - 2) * psi (a + b) := by
  have hα : ∀ i : Fin 2, 0 < (![b, a] : Fin 2 → ℝ) i := by
    intro i
    fin_cases i
    · exact hb
    · exact ha
  have h1 : ∫ t, betaPDFReal a b t * Real.log (betaPDFReal a b t) =
      ∫ t : ℝ, dirichletPdf ![b, a] (fun _ : Fin 1 => t) *
        Real.log (dirichletPdf ![b, a] (fun _ : Fin 1 => t)) :=
    integral_congr_ae ((betaPDFReal_ae a b).mono fun t ht => by simp only [ht])
  unfold diffEntropy
  rw [h1, integral_fin_one fun x => dirichletPdf ![b, a] x * Real.log (dirichletPdf ![b, a] x),
    (entropy_dirichlet hα).2]
  have e2 : ∀ f : Fin (1 + 1) → ℝ, ∑ i, f i = f 0 + f 1 := fun f => Fin.sum_univ_two _
  simp only [e2, Matrix.cons_val_zero, Matrix.cons_val_one]
  rw [add_comm b a]
  push_cast
  ring

/-- **C95** For every array of positive parameters with two columns, `beta_entropy(tau)` is the sum
over the rows of the differential entropies of the beta densities with these parameters. -/
theorem C95_beta_entropy (r : ℕ) (tau : Arr) (h : IsPosArr tau [r, 2]) :
    betaEntropy tau = .ok (∑ i ∈ Finset.range r,
      diffEntropy (betaPDFReal (tau.get [i, 0]) (tau.get [i, 1]))) := by
  conv_lhs => rw [arr_eq h.1]
  rw [betaEntropy_ofFn h.2]
  congr 1
  have h1 : indexProduct [r] = (List.range r).map fun i => [i] := by
    simp only [indexProduct, List.map_cons, List.map_nil]
    exact List.flatMap_pure_eq_map _ _
  have h2 : ∀ f : ℕ → ℝ, ∑ i ∈ Finset.range r, f i = ((List.range r).map f).sum := fun f => (sum_map_range r f).symm
  rw [h1, List.map_map, h2]
  refine congrArg List.sum (List.map_congr_left fun i hi => ?_)
  have hi : i < r := List.mem_range.1 hi
  rw [diffEntropy_beta (h.2 _ (List.Forall₂.cons hi (List.Forall₂.cons (by omega) List.Forall₂.nil)))
    (h.2 _ (List.Forall₂.cons hi (List.Forall₂.cons (by omega) List.Forall₂.nil)))]
  rfl

end

end LRVB
