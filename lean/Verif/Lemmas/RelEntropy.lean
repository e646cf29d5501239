import Mathlib.InformationTheory.KullbackLeibler.Basic
import Mathlib.Probability.Independence.Integration
import Verif.Lemmas.Arr
import Verif.Spec.Families

/-!
# Relative entropies: from densities, of products, and the evidence bound
-/

namespace LRVB

open MeasureTheory ProbabilityTheory InformationTheory Set
open scoped ENNReal

noncomputable section

variable {α β : Type*} [MeasurableSpace α] [MeasurableSpace β]

/-- The relative entropy of `q` with respect to `p` is finite and equal to `K`. -/
def HasKL (q p : Measure α) (K : ℝ) : Prop := q ≪ p ∧ Integrable (llr q p) q ∧ ∫ x, llr q p x ∂q = K

theorem hasKL_iff {q p : Measure α} [IsProbabilityMeasure q] [IsProbabilityMeasure p] {K : ℝ} :
    HasKL q p K ↔ klDiv q p ≠ ∞ ∧ (klDiv q p).toReal = K := by
  rw [klDiv_ne_top_iff, and_assoc]
  refine and_congr_right fun h1 => and_congr_right fun h2 => ?_
  rw [toReal_klDiv_of_measure_eq h1 (by simp)]

theorem llr_withDensity {q p : Measure α} [SigmaFinite p] {ρ : α → ℝ≥0∞} (hρ : Measurable ρ)
    (h : q = p.withDensity ρ) : q ≪ p ∧ llr q p =ᵐ[q] fun x => Real.log (ρ x).toReal := by
  have h1 : q ≪ p := by
    rw [h]
    exact withDensity_absolutelyContinuous _ _
  refine ⟨h1, ?_⟩
  have h2 := Measure.rnDeriv_withDensity p hρ
  rw [← h] at h2
  filter_upwards [h1.ae_le h2] with x hx
  rw [llr, hx]

/-- The relative entropy by densities. -/
theorem HasKL.of_density {μ : Measure α} {q p : α → ℝ} (hq : Measurable q) (hp : Measurable p) (hq0 : ∀ x, 0 ≤ q x)
    (hp0 : ∀ x, 0 ≤ p x) (hpos : ∀ᵐ x ∂μ, q x ≠ 0 → 0 < p x)
    [IsProbabilityMeasure (μ.withDensity fun x => ENNReal.ofReal (p x))]
    (i1 : Integrable (fun x => q x * Real.log (p x)) μ) (i2 : Integrable (fun x => q x * Real.log (q x)) μ) :
    HasKL (μ.withDensity fun x => ENNReal.ofReal (q x)) (μ.withDensity fun x => ENNReal.ofReal (p x))
      (-(∫ x, q x * Real.log (p x) ∂μ + -∫ x, q x * Real.log (q x) ∂μ)) := by
  have hρ : Measurable fun x => ENNReal.ofReal (q x / p x) := (hq.div hp).ennreal_ofReal
  obtain ⟨h1, h2⟩ := llr_withDensity (p := μ.withDensity fun x => ENNReal.ofReal (p x)) hρ rfl
  have e : (μ.withDensity fun x => ENNReal.ofReal (p x)).withDensity (fun x => ENNReal.ofReal (q x / p x)) =
      μ.withDensity fun x => ENNReal.ofReal (q x) := by
    rw [← withDensity_mul _ hp.ennreal_ofReal hρ]
    refine withDensity_congr_ae ?_
    filter_upwards [hpos] with x hx
    rw [Pi.mul_apply, ← ENNReal.ofReal_mul (hp0 x)]
    congr 1
    by_cases hz : q x = 0
    · simp [hz]
    · exact mul_div_cancel₀ _ (hx hz).ne'
  rw [e] at h1 h2
  have h3 : (fun x => (ENNReal.ofReal (q x)).toReal • Real.log (ENNReal.ofReal (q x / p x)).toReal) =ᵐ[μ]
      fun x => q x * Real.log (q x) - q x * Real.log (p x) := by
    filter_upwards [hpos] with x hx
    rw [ENNReal.toReal_ofReal (hq0 x), ENNReal.toReal_ofReal (div_nonneg (hq0 x) (hp0 x)), smul_eq_mul]
    by_cases hz : q x = 0
    · simp [hz]
    · rw [Real.log_div hz (hx hz).ne']
      ring
  refine ⟨h1, ?_, ?_⟩
  · rw [integrable_congr h2, integrable_withDensity_iff_integrable_smul' hq.ennreal_ofReal (by simp),
      integrable_congr h3]
    exact i2.sub i1
  · rw [integral_congr_ae h2, integral_withDensity_eq_integral_toReal_smul hq.ennreal_ofReal (by simp),
      integral_congr_ae h3, integral_sub i2 i1]
    ring

/-- Relative entropies of products add. -/
theorem HasKL.prod {q₁ p₁ : Measure α} {q₂ p₂ : Measure β} [IsProbabilityMeasure q₁] [IsProbabilityMeasure p₁]
    [IsProbabilityMeasure q₂] [IsProbabilityMeasure p₂] {K₁ K₂ : ℝ} (h₁ : HasKL q₁ p₁ K₁) (h₂ : HasKL q₂ p₂ K₂) :
    HasKL (q₁.prod q₂) (p₁.prod p₂) (K₁ + K₂) := by
  obtain ⟨a1, b1, c1⟩ := h₁
  obtain ⟨a2, b2, c2⟩ := h₂
  have m1 := Measure.measurable_rnDeriv q₁ p₁
  have m2 := Measure.measurable_rnDeriv q₂ p₂
  have e : q₁.prod q₂ = (p₁.prod p₂).withDensity fun z => q₁.rnDeriv p₁ z.1 * q₂.rnDeriv p₂ z.2 := by
    rw [← prod_withDensity m1 m2, Measure.withDensity_rnDeriv_eq _ _ a1, Measure.withDensity_rnDeriv_eq _ _ a2]
  obtain ⟨h1, h2⟩ := llr_withDensity (by fun_prop) e
  have f1 : ∀ᵐ x ∂q₁, 0 < q₁.rnDeriv p₁ x ∧ q₁.rnDeriv p₁ x < ∞ :=
    (Measure.rnDeriv_pos a1).and (a1.ae_le (Measure.rnDeriv_lt_top _ _))
  have f2 : ∀ᵐ x ∂q₂, 0 < q₂.rnDeriv p₂ x ∧ q₂.rnDeriv p₂ x < ∞ :=
    (Measure.rnDeriv_pos a2).and (a2.ae_le (Measure.rnDeriv_lt_top _ _))
  have g1 := Measure.quasiMeasurePreserving_fst (μ := q₁) (ν := q₂) |>.ae f1
  have g2 := Measure.quasiMeasurePreserving_snd (μ := q₁) (ν := q₂) |>.ae f2
  have h3 : llr (q₁.prod q₂) (p₁.prod p₂) =ᵐ[q₁.prod q₂] fun z => llr q₁ p₁ z.1 + llr q₂ p₂ z.2 := by
    filter_upwards [h2, g1, g2] with z hz u v
    rw [hz, ENNReal.toReal_mul, Real.log_mul (ENNReal.toReal_pos u.1.ne' u.2.ne).ne'
      (ENNReal.toReal_pos v.1.ne' v.2.ne).ne']
    rfl
  have j1 : Integrable (fun z : α × β => llr q₁ p₁ z.1) (q₁.prod q₂) := b1.comp_fst _
  have j2 : Integrable (fun z : α × β => llr q₂ p₂ z.2) (q₁.prod q₂) := b2.comp_snd _
  refine ⟨h1, ?_, ?_⟩
  · rw [integrable_congr h3]
    exact j1.add j2
  · rw [integral_congr_ae h3, integral_add j1 j2, integral_fun_fst (fun x => llr q₁ p₁ x),
      integral_fun_snd (fun x => llr q₂ p₂ x), c1, c2]
    simp

/-- Finite products of measures with densities. -/
theorem pi_withDensity {ι : Type*} [Fintype ι] {Ω : ι → Type*} [∀ i, MeasurableSpace (Ω i)]
    (p : ∀ i, Measure (Ω i)) [∀ i, IsProbabilityMeasure (p i)] {ρ : ∀ i, Ω i → ℝ≥0∞} (hρ : ∀ i, Measurable (ρ i))
    [∀ i, IsProbabilityMeasure ((p i).withDensity (ρ i))] :
    Measure.pi (fun i => (p i).withDensity (ρ i)) = (Measure.pi p).withDensity fun x => ∏ i, ρ i (x i) := by
  refine Measure.pi_eq fun s hs => ?_
  rw [withDensity_apply _ (MeasurableSet.univ_pi hs), ← lintegral_indicator (MeasurableSet.univ_pi hs)]
  have h1 : ∀ x : ∀ i, Ω i, (univ.pi s).indicator (fun x => ∏ i, ρ i (x i)) x =
      ∏ i, (s i).indicator (ρ i) (x i) := by
    intro x
    by_cases hg : x ∈ univ.pi s
    · rw [indicator_of_mem hg]
      exact Finset.prod_congr rfl fun i _ => (indicator_of_mem (hg i (mem_univ i)) _).symm
    · rw [indicator_of_notMem hg]
      simp only [mem_univ_pi, not_forall] at hg
      obtain ⟨i, hi⟩ := hg
      exact (Finset.prod_eq_zero (Finset.mem_univ i) (indicator_of_notMem hi _)).symm
  simp only [h1]
  have hm := fun i => (hρ i).indicator (hs i)
  rw [lintegral_prod_eq_prod_lintegral_of_indepFun Finset.univ _
    (iIndepFun_pi (μ := p) (X := fun i => (s i).indicator (ρ i)) fun i => (hm i).aemeasurable)
    fun i => (hm i).comp (measurable_pi_apply i)]
  refine Finset.prod_congr rfl fun i _ => ?_
  rw [withDensity_apply _ (hs i), ← lintegral_indicator (hs i),
    (measurePreserving_eval p i).lintegral_comp (hm i)]

/-- Relative entropies of finite products add. -/
theorem HasKL.pi {ι : Type*} [Fintype ι] {Ω : ι → Type*} [∀ i, MeasurableSpace (Ω i)]
    {q p : ∀ i, Measure (Ω i)} [∀ i, IsProbabilityMeasure (q i)] [∀ i, IsProbabilityMeasure (p i)] {K : ι → ℝ}
    (h : ∀ i, HasKL (q i) (p i) (K i)) : HasKL (Measure.pi q) (Measure.pi p) (∑ i, K i) := by
  have m := fun i => Measure.measurable_rnDeriv (q i) (p i)
  have eq : ∀ i, (p i).withDensity ((q i).rnDeriv (p i)) = q i := fun i =>
    Measure.withDensity_rnDeriv_eq _ _ (h i).1
  have : ∀ i, IsProbabilityMeasure ((p i).withDensity ((q i).rnDeriv (p i))) := fun i => by
    rw [eq i]
    infer_instance
  have e : Measure.pi q = (Measure.pi p).withDensity fun x => ∏ i, (q i).rnDeriv (p i) (x i) := by
    rw [← pi_withDensity p m]
    simp only [eq]
  obtain ⟨h1, h2⟩ := llr_withDensity (Finset.measurable_prod _ fun i _ => (m i).comp (measurable_pi_apply i)) e
  have f : ∀ i, ∀ᵐ x ∂q i, 0 < (q i).rnDeriv (p i) x ∧ (q i).rnDeriv (p i) x < ∞ := fun i =>
    (Measure.rnDeriv_pos (h i).1).and ((h i).1.ae_le (Measure.rnDeriv_lt_top _ _))
  have g : ∀ᵐ x ∂Measure.pi q, ∀ i, 0 < (q i).rnDeriv (p i) (x i) ∧ (q i).rnDeriv (p i) (x i) < ∞ := by
    rw [ae_all_iff]
    exact fun i => (Measure.quasiMeasurePreserving_eval q i).ae (f i)
  have h3 : llr (Measure.pi q) (Measure.pi p) =ᵐ[Measure.pi q] fun x => ∑ i, llr (q i) (p i) (x i) := by
    filter_upwards [h2, g] with x hx u
    simp only [Function.comp_apply] at hx
    rw [hx, ENNReal.toReal_prod, Real.log_prod fun i _ => (ENNReal.toReal_pos (u i).1.ne' (u i).2.ne).ne']
    rfl
  have j : ∀ i ∈ Finset.univ, Integrable (fun x : ∀ i, Ω i => llr (q i) (p i) (x i)) (Measure.pi q) := fun i _ =>
    (measurePreserving_eval q i).integrable_comp_of_integrable (h i).2.1
  refine ⟨h1, ?_, ?_⟩
  · rw [integrable_congr h3]
    exact integrable_finsetSum _ j
  · rw [integral_congr_ae h3, integral_finsetSum _ j]
    refine Finset.sum_congr rfl fun i _ => ?_
    rw [← (h i).2.2, ← (measurePreserving_eval q i).map_eq,
      integral_map (measurable_pi_apply i).aemeasurable (measurable_llr _ _).aestronglyMeasurable]

/-- The evidence bound: the expectation of `f` under `q` minus the relative entropy of `q` is at most the log
of the expectation of `exp f` under `p`, with equality exactly when `q` is proportional to `exp f` times `p`. -/
theorem HasKL.evidence {q p : Measure α} [IsProbabilityMeasure q] [IsProbabilityMeasure p] {K : ℝ} (h : HasKL q p K)
    {f : α → ℝ} (hexp : Integrable (fun x => Real.exp (f x)) p) (hf : Integrable f q) :
    ∫ x, f x ∂q - K ≤ Real.log (∫ x, Real.exp (f x) ∂p) ∧
    (∫ x, f x ∂q - K = Real.log (∫ x, Real.exp (f x) ∂p) ↔
      p.withDensity (fun x => ENNReal.ofReal (Real.exp (f x))) =
        ENNReal.ofReal (∫ x, Real.exp (f x) ∂p) • q) := by
  obtain ⟨a, b, c⟩ := h
  set Z := ∫ x, Real.exp (f x) ∂p with hZ
  have hZpos : 0 < Z := integral_exp_pos hexp
  have := isProbabilityMeasure_tilted hexp
  have ac : q ≪ p.tilted f := a.trans (absolutelyContinuous_tilted hexp)
  have hi := integrable_llr_tilted_right a hf b hexp
  have hv := integral_llr_tilted_right a hf hexp b
  have hk := toReal_klDiv_of_measure_eq ac (by simp : q univ = p.tilted f univ)
  rw [hv, c, ← hZ] at hk
  have h0 : 0 ≤ (klDiv q (p.tilted f)).toReal := ENNReal.toReal_nonneg
  have hfin := klDiv_ne_top ac hi
  refine ⟨by linarith, ?_⟩
  have e1 : p.withDensity (fun x => ENNReal.ofReal (Real.exp (f x))) = ENNReal.ofReal Z • p.tilted f := by
    rw [Measure.tilted, ← withDensity_smul' _ _ ENNReal.ofReal_ne_top]
    congr 1
    funext x
    rw [Pi.smul_apply, smul_eq_mul, ← ENNReal.ofReal_mul hZpos.le, ← hZ, mul_div_cancel₀ _ hZpos.ne']
  have hz0 : ENNReal.ofReal Z ≠ 0 := by simpa using hZpos
  rw [e1]
  constructor
  · intro heq
    have : klDiv q (p.tilted f) = 0 := by
      have h1 : (klDiv q (p.tilted f)).toReal = 0 := by linarith
      exact ((ENNReal.toReal_eq_zero_iff _).1 h1).resolve_right hfin
    rw [← klDiv_eq_zero_iff.1 this]
  · intro heq
    have hq : p.tilted f = q := by
      ext t ht
      have := congrArg (fun μ => μ t) heq
      simp only [Measure.smul_apply, smul_eq_mul] at this
      exact (ENNReal.mul_right_inj hz0 ENNReal.ofReal_ne_top).1 this
    rw [hq, klDiv_self, ENNReal.toReal_zero] at hk
    linarith

/-- The positions of an array of shape `s`. -/
abbrev Idx (s : List ℕ) := {idx : List ℕ // InShape idx s}

instance (s : List ℕ) : Fintype (Idx s) :=
  @Fintype.ofFinite _ ((List.finite_toSet (indexProduct s)).subset fun _ h => mem_indexProduct.2 h).to_subtype

theorem indexProduct_nodup (s : List ℕ) : (indexProduct s).Nodup := by
  induction s with
  | nil => simp [indexProduct]
  | cons n s ih =>
    simp only [indexProduct]
    rw [List.nodup_flatMap]
    refine ⟨fun i _ => ih.map fun a b h => by simpa using h, ?_⟩
    refine List.nodup_range.imp fun hab => ?_
    simp only [Function.onFun, List.disjoint_left, List.mem_map]
    rintro x ⟨y, -, rfl⟩ ⟨z, -, hz⟩
    exact hab (by simpa using (List.cons.inj hz).1.symm)

/-- A sum over the positions. -/
theorem sum_idx (s : List ℕ) (f : List ℕ → ℝ) : ∑ k : Idx s, f k = ((indexProduct s).map f).sum := by
  rw [← List.sum_toFinset f (indexProduct_nodup s)]
  exact (Finset.sum_subtype _ (fun x => by rw [List.mem_toFinset]; exact mem_indexProduct) f).symm

end

end LRVB
