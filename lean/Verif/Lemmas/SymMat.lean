import Verif.Spec.Wishart

/-!
# Integration over symmetric matrices: reindexing and splitting off one row
-/

namespace LRVB

open MeasureTheory Matrix

noncomputable section

variable {ι κ : Type*}

theorem symmMat_apply (z : Sym2 ι → ℝ) (i j : ι) : symmMat z i j = z s(i, j) := rfl

theorem symmMat_isHermitian (z : Sym2 ι → ℝ) : (symmMat z).IsHermitian := by
  ext i j
  simp only [conjTranspose_apply, star_trivial, symmMat_apply]
  rw [Sym2.eq_swap]

/-! ### Measurability -/

section

variable [Fintype ι] [DecidableEq ι]

theorem measurable_symmMat_apply (i j : ι) : Measurable fun z : Sym2 ι → ℝ => symmMat z i j :=
  measurable_pi_apply _

theorem continuous_symmMat_det : Continuous fun z : Sym2 ι → ℝ => (symmMat z).det := by
  refine Continuous.matrix_det ?_
  exact continuous_matrix fun i j => continuous_apply _

theorem measurable_symmMat_det : Measurable fun z : Sym2 ι → ℝ => (symmMat z).det :=
  continuous_symmMat_det.measurable

theorem measurable_trace (W : Matrix ι ι ℝ) :
    Measurable fun z : Sym2 ι → ℝ => (W * symmMat z).trace := by
  simp only [trace, diag_apply, mul_apply]
  exact Finset.measurable_sum _ fun i _ => Finset.measurable_sum _ fun j _ =>
    (measurable_symmMat_apply j i).const_mul _

theorem measurableSet_posDef : MeasurableSet {z : Sym2 ι → ℝ | (symmMat z).PosDef} := by
  have h1 : {z : Sym2 ι → ℝ | (symmMat z).PosDef} =
      (⋂ x : ι → ℝ, {z | 0 ≤ x ⬝ᵥ (symmMat z *ᵥ x)}) ∩ {z | (symmMat z).det ≠ 0} := by
    ext z
    simp only [Set.mem_setOf_eq, Set.mem_inter_iff, Set.mem_iInter]
    constructor
    · intro h
      exact ⟨fun x => by simpa using h.posSemidef.dotProduct_mulVec_nonneg x, h.det_pos.ne'⟩
    · rintro ⟨h, h0⟩
      have : (symmMat z).PosSemidef :=
        .of_dotProduct_mulVec_nonneg (symmMat_isHermitian z) fun x => by simpa using h x
      exact this.posDef_iff_det_ne_zero.2 h0
  rw [h1]
  refine MeasurableSet.inter (IsClosed.measurableSet (isClosed_iInter fun x => ?_)) ?_
  · refine isClosed_le continuous_const ?_
    simp only [dotProduct, mulVec, symmMat_apply]
    fun_prop
  · exact (measurableSet_singleton (0 : ℝ)).compl.preimage measurable_symmMat_det

end

/-! ### Reindexing -/

section

variable [Fintype ι] [DecidableEq ι] [Fintype κ] [DecidableEq κ]

/-- Unordered pairs under a change of names. -/
def pairCongr (e : ι ≃ κ) : Sym2 ι ≃ Sym2 κ where
  toFun := Sym2.map e
  invFun := Sym2.map e.symm
  left_inv z := by rw [Sym2.map_map]; simp
  right_inv z := by rw [Sym2.map_map]; simp

/-- Integration does not depend on the names of the indices. -/
theorem lintegral_symmMat_equiv (e : ι ≃ κ) (F : Matrix κ κ ℝ → ENNReal) :
    ∫⁻ z : Sym2 κ → ℝ, F (symmMat z) = ∫⁻ z : Sym2 ι → ℝ, F ((symmMat z).submatrix e.symm e.symm) := by
  have h := volume_measurePreserving_piCongrLeft (fun _ : Sym2 κ => ℝ) (pairCongr e)
  rw [← h.lintegral_comp_emb (MeasurableEquiv.measurableEmbedding _)]
  refine lintegral_congr fun z => ?_
  congr 1
  ext i j
  rw [symmMat_apply, submatrix_apply, symmMat_apply]
  have := MeasurableEquiv.piCongrLeft_apply_apply (pairCongr e) (β := fun _ : Sym2 κ => ℝ) z
    s(e.symm i, e.symm j)
  rw [← this]
  congr 1
  simp [pairCongr]

end

/-! ### Splitting off one row -/

/-- The unordered pairs of indices of a matrix with one more row. -/
def pairSplitFun (ι : Type*) : Unit ⊕ (ι ⊕ Sym2 ι) → Sym2 (Unit ⊕ ι)
  | .inl _ => s(.inl (), .inl ())
  | .inr (.inl i) => s(.inl (), .inr i)
  | .inr (.inr z) => z.map Sum.inr

theorem pairSplit_bij (ι : Type*) : Function.Bijective (pairSplitFun ι) := by
  constructor
  · rintro (_ | i | z) (_ | j | w) h
    · rfl
    · simp [pairSplitFun] at h
    · induction w using Sym2.ind
      simp [pairSplitFun] at h
    · simp [pairSplitFun] at h
    · simpa [pairSplitFun] using h
    · induction w using Sym2.ind
      simp [pairSplitFun] at h
    · induction z using Sym2.ind
      simp [pairSplitFun] at h
    · induction z using Sym2.ind
      simp [pairSplitFun] at h
    · exact congrArg _ (congrArg _ (Sym2.map.injective Sum.inr_injective h))
  · intro p
    induction p using Sym2.ind with
    | _ x y =>
      rcases x with ⟨⟩ | i <;> rcases y with ⟨⟩ | j
      · exact ⟨.inl (), rfl⟩
      · exact ⟨.inr (.inl j), rfl⟩
      · exact ⟨.inr (.inl i), Sym2.eq_swap⟩
      · exact ⟨.inr (.inr s(i, j)), rfl⟩

/-- The unordered pairs of indices of a matrix with one more row. -/
def pairSplit (ι : Type*) : Unit ⊕ (ι ⊕ Sym2 ι) ≃ Sym2 (Unit ⊕ ι) :=
  Equiv.ofBijective _ (pairSplit_bij ι)

section

variable [Fintype ι] [DecidableEq ι]

/-- The coordinates of a symmetric matrix from the corner, the rest of the first row, and the rest. -/
def symJoin (ι : Type*) : (ℝ × (ι → ℝ) × (Sym2 ι → ℝ)) ≃ᵐ (Sym2 (Unit ⊕ ι) → ℝ) :=
  ((MeasurableEquiv.prodCongr (MeasurableEquiv.funUnique Unit ℝ).symm
    (MeasurableEquiv.sumPiEquivProdPi fun _ : ι ⊕ Sym2 ι => ℝ).symm).trans
      (MeasurableEquiv.sumPiEquivProdPi fun _ : Unit ⊕ (ι ⊕ Sym2 ι) => ℝ).symm).trans
        (MeasurableEquiv.piCongrLeft (fun _ => ℝ) (pairSplit ι))

theorem symJoin_preserving : MeasurePreserving (symJoin ι) volume volume := by
  unfold symJoin
  refine MeasurePreserving.trans (MeasurePreserving.trans (μb := volume) ?_ ?_)
    (volume_measurePreserving_piCongrLeft (fun _ => ℝ) (pairSplit ι))
  · exact MeasurePreserving.prod ((volume_preserving_funUnique Unit ℝ).symm)
      (volume_measurePreserving_sumPiEquivProdPi_symm fun _ : ι ⊕ Sym2 ι => ℝ)
  · exact volume_measurePreserving_sumPiEquivProdPi_symm fun _ : Unit ⊕ (ι ⊕ Sym2 ι) => ℝ

/-- The symmetric matrix with a given corner, rest of the first row, and rest. -/
def border (a : ℝ) (b : ι → ℝ) (C : Matrix ι ι ℝ) : Matrix (Unit ⊕ ι) (Unit ⊕ ι) ℝ :=
  fromBlocks (of fun _ _ => a) (of fun _ j => b j) (of fun i _ => b i) C

omit [Fintype ι] [DecidableEq ι] in
theorem symmMat_join (a : ℝ) (b : ι → ℝ) (c : Sym2 ι → ℝ) :
    symmMat (symJoin ι (a, b, c)) = border a b (symmMat c) := by
  have h : ∀ q, symJoin ι (a, b, c) (pairSplit ι q) =
      (Sum.elim (fun _ => a) (Sum.elim b c) : Unit ⊕ (ι ⊕ Sym2 ι) → ℝ) q := by
    intro q
    unfold symJoin
    rw [MeasurableEquiv.trans_apply]
    refine (MeasurableEquiv.piCongrLeft_apply_apply (pairSplit ι)
      (β := fun _ : Sym2 (Unit ⊕ ι) => ℝ) _ q).trans ?_
    rcases q with _ | i | z <;> rfl
  ext x y
  rw [symmMat_apply]
  rcases x with ⟨⟩ | i <;> rcases y with ⟨⟩ | j
  · exact h (.inl ())
  · exact h (.inr (.inl j))
  · rw [Sym2.eq_swap]
    exact h (.inr (.inl i))
  · exact h (.inr (.inr s(i, j)))

/-- Integration over symmetric matrices with one more row. -/
theorem lintegral_border (F : Matrix (Unit ⊕ ι) (Unit ⊕ ι) ℝ → ENNReal)
    (hF : Measurable fun z : Sym2 (Unit ⊕ ι) → ℝ => F (symmMat z)) :
    ∫⁻ z : Sym2 (Unit ⊕ ι) → ℝ, F (symmMat z) =
      ∫⁻ c : Sym2 ι → ℝ, ∫⁻ b : ι → ℝ, ∫⁻ a : ℝ, F (border a b (symmMat c)) := by
  rw [← symJoin_preserving.lintegral_comp hF]
  have hm : Measurable fun p : ℝ × (ι → ℝ) × (Sym2 ι → ℝ) => F (border p.1 p.2.1 (symmMat p.2.2)) := by
    have := hF.comp (symJoin ι).measurable
    have e : (fun p : ℝ × (ι → ℝ) × (Sym2 ι → ℝ) => F (border p.1 p.2.1 (symmMat p.2.2))) =
        (fun z : Sym2 (Unit ⊕ ι) → ℝ => F (symmMat z)) ∘ symJoin ι := by
      funext p
      simp only [Function.comp_apply]
      rw [← symmMat_join]
    rw [e]
    exact this
  have h1 : ∀ p : ℝ × (ι → ℝ) × (Sym2 ι → ℝ), F (symmMat (symJoin ι p)) =
      F (border p.1 p.2.1 (symmMat p.2.2)) := fun p => by rw [← symmMat_join]
  simp only [h1]
  rw [Measure.volume_eq_prod, lintegral_prod_symm _ hm.aemeasurable, Measure.volume_eq_prod,
    lintegral_prod_symm]
  exact (Measurable.lintegral_prod_left' (f := fun p : ℝ × ((ι → ℝ) × (Sym2 ι → ℝ)) =>
    F (border p.1 p.2.1 (symmMat p.2.2))) hm).aemeasurable

end

end

end LRVB
