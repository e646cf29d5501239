import Verif.Props.Batches

/-!
# Regression in other coordinates: C172
-/

namespace LRVB

open Matrix Regression Arr

noncomputable section

variable {b : List ℕ} {r : ℕ}

theorem coefficients_ok (D : RegData b r) (hd : ∀ bi, InShape bi b → (quadTerm D.x D.info D.e bi D.s r).det ≠ 0) :
    getRegressionCoefficients D.y D.x D.info = .ok
      (batchVec b r fun bi => (quadTerm D.x D.info D.e bi D.s r)⁻¹ *ᵥ linTerm D.y D.x D.info D.e bi D.s r) := by
  have hL : ∀ bi, (-2 : ℝ) • ((-0.5 * (D.e.prod : ℝ)) •
      ((matAt D.x bi D.s r)ᵀ * (weightAt D.info bi D.s * matAt D.x bi D.s r))) = quadTerm D.x D.info D.e bi D.s r := by
    intro bi
    rw [quadTerm, smul_smul]
    congr 1
    ring
  unfold getRegressionCoefficients
  rw [likelihood_ok D.hy D.hx D.hinfo fun bi hb => isSymm_of_herm (D.psd bi hb).1, py_ok_bind,
    mvn_ok _ _ (fun bi hb => by rw [hL]; exact hd bi hb), py_ok_bind]
  congr 1
  simp only
  refine batchVec_congr fun bi hb => ?_
  rw [hL, transpose_nonsing_inv, (isSymm_of_herm (quadTerm_psd (D.psd bi hb)).1).eq]
  rfl

/-- The coefficients of the criterion in other coordinates. -/
theorem terms_coords (D D' : RegData b r) {bi : List ℕ} (hb : InShape bi b) {A : Matrix (Fin r) (Fin r) ℝ}
    {β₀ : Fin r → ℝ} {c : ℝ} (h : ∀ β, D'.criterion bi β = D.criterion bi (A *ᵥ β + β₀) + c) :
    linTerm D'.y D'.x D'.info D'.e bi D'.s r =
      Aᵀ *ᵥ (linTerm D.y D.x D.info D.e bi D.s r - quadTerm D.x D.info D.e bi D.s r *ᵥ β₀) ∧
    quadTerm D'.x D'.info D'.e bi D'.s r = Aᵀ * quadTerm D.x D.info D.e bi D.s r * A := by
  obtain ⟨k, hk⟩ := wls_terms (y := D.y) (x := D.x) (e := D.e) (r := r) (isSymm_of_herm (D.psd bi hb).1)
  obtain ⟨k', hk'⟩ := wls_terms (y := D'.y) (x := D'.x) (e := D'.e) (r := r) (isSymm_of_herm (D'.psd bi hb).1)
  set l := linTerm D.y D.x D.info D.e bi D.s r
  have hQ := isSymm_of_herm (quadTerm_psd (x := D.x) (e := D.e) (r := r) (D.psd bi hb)).1
  set Q := quadTerm D.x D.info D.e bi D.s r
  have hAQA : (Aᵀ * Q * A).IsSymm := by
    rw [Matrix.IsSymm, transpose_mul, transpose_mul, transpose_transpose, hQ.eq, Matrix.mul_assoc]
  refine quad_coeffs (c := k') (d := k - 2 * (β₀ ⬝ᵥ l) + β₀ ⬝ᵥ (Q *ᵥ β₀) + c)
    (isSymm_of_herm (quadTerm_psd (D'.psd bi hb)).1) hAQA fun β => ?_
  have h1 := h β
  simp only [RegData.criterion, hk, hk'] at h1
  rw [h1]
  have e1 : ∀ v : Fin r → ℝ, β ⬝ᵥ (Aᵀ *ᵥ v) = (A *ᵥ β) ⬝ᵥ v := fun v => by
    rw [dotProduct_mulVec, vecMul_transpose]
  rw [e1, Matrix.mul_assoc, ← mulVec_mulVec, e1, ← mulVec_mulVec, dotProduct_sub, add_dotProduct, mulVec_add,
    add_dotProduct, dotProduct_add, dotProduct_add, symm_dot hQ β₀ (A *ᵥ β)]
  ring

/-- The means and informations `p` are those of `p'` in the coordinates `β = A β' + β₀`. -/
def InCoords (b : List ℕ) (r : ℕ) (A : List ℕ → Matrix (Fin r) (Fin r) ℝ) (β₀ : List ℕ → Fin r → ℝ)
    (p p' : Arr × Arr) : Prop :=
  IsArr p.1 (b ++ [r]) ∧ IsArr p.2 (b ++ [r, r]) ∧ IsArr p'.1 (b ++ [r]) ∧ IsArr p'.2 (b ++ [r, r]) ∧
    ∀ bi, InShape bi b → vecAt p.1 bi r = A bi *ᵥ vecAt p'.1 bi r + β₀ bi ∧
      matAt p'.2 bi r r = (A bi)ᵀ * matAt p.2 bi r r * A bi

theorem posDef_coords {A M : Matrix (Fin r) (Fin r) ℝ} (hA : A.det ≠ 0) (hM : M.PosDef) : (Aᵀ * M * A).PosDef := by
  have h1 := hM.posSemidef.conjTranspose_mul_mul_same A
  rw [conjTranspose_eq_transpose_of_trivial] at h1
  rw [h1.posDef_iff_det_ne_zero, det_mul, det_mul, det_transpose]
  exact mul_ne_zero (mul_ne_zero hA hM.det_pos.ne') hA

/-- Solving in other coordinates. -/
theorem solve_coords {A L : Matrix (Fin r) (Fin r) ℝ} (hA : A.det ≠ 0) (hL : L.det ≠ 0) (v β₀ : Fin r → ℝ) :
    A *ᵥ ((Aᵀ * L * A)⁻¹ *ᵥ (Aᵀ *ᵥ (v - L *ᵥ β₀))) + β₀ = L⁻¹ *ᵥ v := by
  have hA' := isUnit_iff_ne_zero.2 hA
  have hAt : IsUnit (Aᵀ).det := by rwa [det_transpose]
  have hL' := isUnit_iff_ne_zero.2 hL
  rw [Matrix.mul_inv_rev, Matrix.mul_inv_rev, mulVec_mulVec, mulVec_mulVec, ← Matrix.mul_assoc A, mul_nonsing_inv _ hA',
    Matrix.one_mul, Matrix.mul_assoc, nonsing_inv_mul _ hAt, Matrix.mul_one, mulVec_sub, mulVec_mulVec,
    nonsing_inv_mul _ hL', one_mulVec, sub_add_cancel]

/-- **C172** Let the least squares criterion of some data be that of other data in the coordinates `β = A β' + β₀`, up
to a constant.  Then the posteriors are the same distribution in the two coordinates, if the priors are; and so are
the regression coefficients. -/
theorem C172_coordinates (D D' : RegData b r) (A : List ℕ → Matrix (Fin r) (Fin r) ℝ) (β₀ : List ℕ → Fin r → ℝ)
    (c : List ℕ → ℝ) (hA : ∀ bi, InShape bi b → (A bi).det ≠ 0)
    (h : ∀ bi, InShape bi b → ∀ β, D'.criterion bi β = D.criterion bi (A bi *ᵥ β + β₀ bi) + c bi) :
    (∀ p₀ p₀', InCoords b r A β₀ p₀ p₀' → (∀ bi, InShape bi b → (matAt p₀.2 bi r r).PosDef) →
      ∃ p p', D.posterior p₀ = .ok p ∧ D'.posterior p₀' = .ok p' ∧ InCoords b r A β₀ p p') ∧
    (D.e.prod ≠ 0 → (∀ bi, InShape bi b →
        ((matAt D.x bi D.s r)ᵀ * weightAt D.info bi D.s * matAt D.x bi D.s r).det ≠ 0) →
      ∃ m m', getRegressionCoefficients D.y D.x D.info = .ok m ∧
        getRegressionCoefficients D'.y D'.x D'.info = .ok m' ∧ IsArr m (b ++ [r]) ∧ IsArr m' (b ++ [r]) ∧
        ∀ bi, InShape bi b → vecAt m bi r = A bi *ᵥ vecAt m' bi r + β₀ bi) := by
  refine ⟨fun p₀ p₀' hp hpd => ?_, fun he hg => ?_⟩
  · obtain ⟨h1, h2, h1', h2', hp⟩ := hp
    have hpd' : ∀ bi, InShape bi b → (matAt p₀'.2 bi r r).PosDef := fun bi hb => by
      rw [(hp bi hb).2]
      exact posDef_coords (hA bi hb) (hpd bi hb)
    refine ⟨_, _, posterior_ok D.hy D.hx D.hinfo D.psd h1 h2 hpd,
      posterior_ok D'.hy D'.hx D'.hinfo D'.psd h1' h2' hpd', batchVec_arr _ _ _, batchMat_arr _ _ _ _,
      batchVec_arr _ _ _, batchMat_arr _ _ _ _, fun bi hb => ?_⟩
    rw [vecAt_batchVec _ hb, vecAt_batchVec _ hb, matAt_batchMat _ hb, matAt_batchMat _ hb]
    obtain ⟨hl, hq⟩ := terms_coords D D' hb (h bi hb)
    have hL : (quadTerm D.x D.info D.e bi D.s r + matAt p₀.2 bi r r).PosDef :=
      Matrix.PosDef.posSemidef_add (quadTerm_psd (D.psd bi hb)) (hpd bi hb)
    have hq' : quadTerm D'.x D'.info D'.e bi D'.s r + matAt p₀'.2 bi r r =
        (A bi)ᵀ * (quadTerm D.x D.info D.e bi D.s r + matAt p₀.2 bi r r) * A bi := by
      rw [hq, (hp bi hb).2, Matrix.mul_add, Matrix.add_mul]
    refine ⟨?_, hq'⟩
    rw [hq', ← solve_coords (hA bi hb) hL.det_pos.ne' _ (β₀ bi), hl, (hp bi hb).2, (hp bi hb).1]
    congr 3
    rw [Matrix.mul_assoc, ← mulVec_mulVec, ← mulVec_mulVec, ← mulVec_add]
    congr 1
    rw [mulVec_add, add_mulVec]
    abel
  · have hd : ∀ bi, InShape bi b → (quadTerm D.x D.info D.e bi D.s r).det ≠ 0 := fun bi hb => by
      rw [quadTerm, det_smul, ← Matrix.mul_assoc]
      exact mul_ne_zero (pow_ne_zero _ (by exact_mod_cast he)) (hg bi hb)
    refine ⟨_, _, coefficients_ok D hd, coefficients_ok D' (fun bi hb => ?_), batchVec_arr _ _ _, batchVec_arr _ _ _,
      fun bi hb => ?_⟩
    · rw [(terms_coords D D' hb (h bi hb)).2, det_mul, det_mul, det_transpose]
      exact mul_ne_zero (mul_ne_zero (hA bi hb) (hd bi hb)) (hA bi hb)
    · rw [vecAt_batchVec _ hb, vecAt_batchVec _ hb, (terms_coords D D' hb (h bi hb)).1,
        (terms_coords D D' hb (h bi hb)).2, solve_coords (hA bi hb) (hd bi hb)]

/-- **C172** Changing the regressors: with the design `X A` instead of `X`, and responses `y - X β₀` instead of `y`, the
posterior of `β'` is that of `β = A β' + β₀`, if the priors are related in the same way; and so are the regression
coefficients. -/
theorem C172_regressors (D D' : RegData b r) (A : List ℕ → Matrix (Fin r) (Fin r) ℝ) (β₀ : List ℕ → Fin r → ℝ)
    (hA : ∀ bi, InShape bi b → (A bi).det ≠ 0) (he : D'.e = D.e) (hs : D'.s = D.s)
    (hx : ∀ bi, InShape bi b → matAt D'.x bi D.s r = matAt D.x bi D.s r * A bi)
    (hy : ∀ bi ei, InShape bi b → InShape ei D.e →
      vecAt D'.y (bi ++ ei) D.s = vecAt D.y (bi ++ ei) D.s - matAt D.x bi D.s r *ᵥ β₀ bi)
    (hw : ∀ bi, InShape bi b → weightAt D'.info bi D.s = weightAt D.info bi D.s) :
    (∀ p₀ p₀', InCoords b r A β₀ p₀ p₀' → (∀ bi, InShape bi b → (matAt p₀.2 bi r r).PosDef) →
      ∃ p p', D.posterior p₀ = .ok p ∧ D'.posterior p₀' = .ok p' ∧ InCoords b r A β₀ p p') ∧
    (D.e.prod ≠ 0 → (∀ bi, InShape bi b →
        ((matAt D.x bi D.s r)ᵀ * weightAt D.info bi D.s * matAt D.x bi D.s r).det ≠ 0) →
      ∃ m m', getRegressionCoefficients D.y D.x D.info = .ok m ∧
        getRegressionCoefficients D'.y D'.x D'.info = .ok m' ∧ IsArr m (b ++ [r]) ∧ IsArr m' (b ++ [r]) ∧
        ∀ bi, InShape bi b → vecAt m bi r = A bi *ᵥ vecAt m' bi r + β₀ bi) := by
  refine C172_coordinates D D' A β₀ 0 hA fun bi hb β => ?_
  rw [RegData.criterion, RegData.criterion, hs, he, Pi.zero_apply, add_zero, wls, wls]
  congr 1
  refine List.map_congr_left fun ei hei => ?_
  have hei : InShape ei D.e := mem_indexProduct.1 hei
  rw [hx bi hb, hy bi ei hb hei, hw bi hb, mulVec_add, mulVec_mulVec, sub_sub, add_comm (_ *ᵥ β₀ bi)]

theorem inCoords_one {p p' : Arr × Arr} (h : InCoords b r (fun _ => 1) 0 p p') : p = p' := by
  obtain ⟨h1, h2, h1', h2', h⟩ := h
  refine Prod.ext ?_ ?_
  · rw [eq_batchVec h1, eq_batchVec h1']
    exact batchVec_congr fun bi hb => by rw [(h bi hb).1]; simp
  · rw [eq_batchMat h2, eq_batchMat h2']
    exact batchMat_congr fun bi hb => by rw [(h bi hb).2]; simp

/-- Data whose criteria agree up to a constant give the same results. -/
theorem same_results (D D' : RegData b r) (c : List ℕ → ℝ)
    (h : ∀ bi, InShape bi b → ∀ β, D'.criterion bi β = D.criterion bi β + c bi) :
    (∀ m₀ i₀, IsArr m₀ (b ++ [r]) → IsArr i₀ (b ++ [r, r]) → (∀ bi, InShape bi b → (matAt i₀ bi r r).PosDef) →
      ∃ p, D.posterior (m₀, i₀) = .ok p ∧ D'.posterior (m₀, i₀) = .ok p) ∧
    (D.e.prod ≠ 0 → (∀ bi, InShape bi b →
        ((matAt D.x bi D.s r)ᵀ * weightAt D.info bi D.s * matAt D.x bi D.s r).det ≠ 0) →
      ∃ m, getRegressionCoefficients D.y D.x D.info = .ok m ∧
        getRegressionCoefficients D'.y D'.x D'.info = .ok m) := by
  obtain ⟨h1, h2⟩ := C172_coordinates D D' (fun _ => 1) 0 c (fun _ _ => by simp) (fun bi hb β => by
    rw [h bi hb]; simp)
  refine ⟨fun m₀ i₀ hm hi hpd => ?_, fun he hg => ?_⟩
  · obtain ⟨p, p', e1, e2, e3⟩ := h1 (m₀, i₀) (m₀, i₀) ⟨hm, hi, hm, hi, fun bi hb => by simp⟩ hpd
    exact ⟨p, e1, by rw [e2, inCoords_one e3]⟩
  · obtain ⟨m, m', e1, e2, e3, e4, e5⟩ := h2 he hg
    refine ⟨m, e1, ?_⟩
    rw [e2, eq_batchVec e3, eq_batchVec e4]
    congr 1
    exact batchVec_congr fun bi hb => by rw [e5 bi hb]; simp

/-- **C172** Changing the observations: with the design `P X`, responses `P y` and weights `W'` with `Pᵀ W' P = W`, the
results are those for `X`, `y` and `W`.  (With a permutation `P`: the order of the observations does not matter.  With
`Pᵀ P = W`: whitened data with unit weights have the same results.) -/
theorem C172_observations (D D' : RegData b r) (P : List ℕ → Matrix (Fin D'.s) (Fin D.s) ℝ) (he : D'.e = D.e)
    (hx : ∀ bi, InShape bi b → matAt D'.x bi D'.s r = P bi * matAt D.x bi D.s r)
    (hy : ∀ bi ei, InShape bi b → InShape ei D.e → vecAt D'.y (bi ++ ei) D'.s = P bi *ᵥ vecAt D.y (bi ++ ei) D.s)
    (hw : ∀ bi, InShape bi b → (P bi)ᵀ * weightAt D'.info bi D'.s * P bi = weightAt D.info bi D.s) :
    (∀ m₀ i₀, IsArr m₀ (b ++ [r]) → IsArr i₀ (b ++ [r, r]) → (∀ bi, InShape bi b → (matAt i₀ bi r r).PosDef) →
      ∃ p, D.posterior (m₀, i₀) = .ok p ∧ D'.posterior (m₀, i₀) = .ok p) ∧
    (D.e.prod ≠ 0 → (∀ bi, InShape bi b →
        ((matAt D.x bi D.s r)ᵀ * weightAt D.info bi D.s * matAt D.x bi D.s r).det ≠ 0) →
      ∃ m, getRegressionCoefficients D.y D.x D.info = .ok m ∧
        getRegressionCoefficients D'.y D'.x D'.info = .ok m) := by
  refine same_results D D' 0 fun bi hb β => ?_
  simp only [RegData.criterion, wls, he, Pi.zero_apply, add_zero]
  congr 1
  refine List.map_congr_left fun ei hei => ?_
  have hei : InShape ei D.e := mem_indexProduct.1 hei
  rw [hx bi hb, hy bi ei hb hei, ← hw bi hb, ← mulVec_mulVec, ← mulVec_sub, Matrix.mul_assoc, ← mulVec_mulVec,
    ← mulVec_mulVec, dotProduct_mulVec _ (P bi)ᵀ, vecMul_transpose]

/-- **C172** The order of the observations does not matter: with the rows of the design, the responses and the weights
in another order the results are the same. -/
theorem C172_order (D D' : RegData b r) (he : D'.e = D.e) (hs : D'.s = D.s) (σ : List ℕ → Equiv.Perm (Fin D.s))
    (hx : ∀ bi, InShape bi b → ∀ k j, matAt D'.x bi D.s r k j = matAt D.x bi D.s r (σ bi k) j)
    (hy : ∀ bi ei, InShape bi b → InShape ei D.e → ∀ k,
      vecAt D'.y (bi ++ ei) D.s k = vecAt D.y (bi ++ ei) D.s (σ bi k))
    (hw : ∀ bi, InShape bi b → ∀ k l, weightAt D'.info bi D.s k l = weightAt D.info bi D.s (σ bi k) (σ bi l)) :
    (∀ m₀ i₀, IsArr m₀ (b ++ [r]) → IsArr i₀ (b ++ [r, r]) → (∀ bi, InShape bi b → (matAt i₀ bi r r).PosDef) →
      ∃ p, D.posterior (m₀, i₀) = .ok p ∧ D'.posterior (m₀, i₀) = .ok p) ∧
    (D.e.prod ≠ 0 → (∀ bi, InShape bi b →
        ((matAt D.x bi D.s r)ᵀ * weightAt D.info bi D.s * matAt D.x bi D.s r).det ≠ 0) →
      ∃ m, getRegressionCoefficients D.y D.x D.info = .ok m ∧
        getRegressionCoefficients D'.y D'.x D'.info = .ok m) := by
  refine same_results D D' 0 fun bi hb β => ?_
  rw [RegData.criterion, RegData.criterion, hs, he, Pi.zero_apply, add_zero, wls, wls]
  congr 1
  refine List.map_congr_left fun ei hei => ?_
  have hei : InShape ei D.e := mem_indexProduct.1 hei
  have hu : ∀ k, (vecAt D'.y (bi ++ ei) D.s - matAt D'.x bi D.s r *ᵥ β) k =
      (vecAt D.y (bi ++ ei) D.s - matAt D.x bi D.s r *ᵥ β) (σ bi k) := by
    intro k
    simp only [Pi.sub_apply, Matrix.mulVec, dotProduct, hy bi ei hb hei, hx bi hb]
  generalize vecAt D'.y (bi ++ ei) D.s - matAt D'.x bi D.s r *ᵥ β = u' at hu
  generalize vecAt D.y (bi ++ ei) D.s - matAt D.x bi D.s r *ᵥ β = u at hu
  simp only [dotProduct, Matrix.mulVec, hu, hw bi hb]
  simp only [fun k => Equiv.sum_comp (σ bi) (fun l => weightAt D.info bi D.s k l * u l)]
  exact Equiv.sum_comp (σ bi) (fun k => u k * ∑ l, weightAt D.info bi D.s k l * u l)

/-- **C172** Replicated responses: the mean of the replicates of each observation, with the weights multiplied by
their number, gives the results for all replicates. -/
theorem C172_replicates (D D' : RegData b r) (hpos : D.e.prod ≠ 0) (he : D'.e = []) (hs : D'.s = D.s)
    (hx : ∀ bi, InShape bi b → matAt D'.x bi D.s r = matAt D.x bi D.s r)
    (hy : ∀ bi, InShape bi b → (D.e.prod : ℝ) • vecAt D'.y bi D.s =
      ((indexProduct D.e).map fun ei => vecAt D.y (bi ++ ei) D.s).sum)
    (hw : ∀ bi, InShape bi b → weightAt D'.info bi D.s = (D.e.prod : ℝ) • weightAt D.info bi D.s) :
    (∀ m₀ i₀, IsArr m₀ (b ++ [r]) → IsArr i₀ (b ++ [r, r]) → (∀ bi, InShape bi b → (matAt i₀ bi r r).PosDef) →
      ∃ p, D.posterior (m₀, i₀) = .ok p ∧ D'.posterior (m₀, i₀) = .ok p) ∧
    ((∀ bi, InShape bi b →
        ((matAt D.x bi D.s r)ᵀ * weightAt D.info bi D.s * matAt D.x bi D.s r).det ≠ 0) →
      ∃ m, getRegressionCoefficients D.y D.x D.info = .ok m ∧
        getRegressionCoefficients D'.y D'.x D'.info = .ok m) := by
  have key : ∀ bi, InShape bi b → ∃ c, ∀ β, D'.criterion bi β = D.criterion bi β + c := by
    intro bi hb
    obtain ⟨k, hk⟩ := wls_terms (y := D.y) (x := D.x) (e := D.e) (r := r) (isSymm_of_herm (D.psd bi hb).1)
    obtain ⟨k', hk'⟩ := wls_terms (y := D'.y) (x := D'.x) (e := D'.e) (r := r) (isSymm_of_herm (D'.psd bi hb).1)
    refine ⟨k' - k, fun β => ?_⟩
    simp only [RegData.criterion, hk, hk']
    have hl : linTerm D'.y D'.x D'.info D'.e bi D'.s r = linTerm D.y D.x D.info D.e bi D.s r := by
      rw [linTerm, linTerm, he, hs, hx bi hb, hw bi hb]
      have h0 : indexProduct [] = [[]] := rfl
      rw [h0]
      simp only [List.map_cons, List.map_nil, List.sum_cons, List.sum_nil, add_zero, List.append_nil]
      rw [smul_mul, transpose_smul, smul_mulVec, ← mulVec_smul, hy bi hb]
      generalize (weightAt D.info bi D.s * matAt D.x bi D.s r)ᵀ = M
      induction indexProduct D.e with
      | nil => simp
      | cons a l ih => simp only [List.map_cons, List.sum_cons, mulVec_add, ih]
    have hq : quadTerm D'.x D'.info D'.e bi D'.s r = quadTerm D.x D.info D.e bi D.s r := by
      rw [quadTerm, quadTerm, he, hs, hx bi hb, hw bi hb]
      simp
    rw [hl, hq]
    ring
  classical
  obtain ⟨h1, h2⟩ := same_results D D' (fun bi => if hb : InShape bi b then (key bi hb).choose else 0)
    (fun bi hb β => by rw [dif_pos hb]; exact (key bi hb).choose_spec β)
  exact ⟨h1, h2 hpos⟩

/-- The hypotheses of C172 for a change of the regressors hold for the points of a line: shifting the second regressor
and the responses. -/
example (s : ℕ) (y₀ t₀ a δ : ℝ) :
    (∀ bi, InShape bi [] → ((fun _ => !![1, δ; 0, 1] : List ℕ → Matrix (Fin 2) (Fin 2) ℝ) bi).det ≠ 0) ∧
    (∀ bi, InShape bi [] → matAt (exLine s (y₀ - a) (t₀ + δ)).x bi s 2 =
      matAt (exLine s y₀ t₀).x bi s 2 * !![1, δ; 0, 1]) ∧
    (∀ bi ei, InShape bi [] → InShape ei [] → vecAt (exLine s (y₀ - a) (t₀ + δ)).y (bi ++ ei) s =
      vecAt (exLine s y₀ t₀).y (bi ++ ei) s - matAt (exLine s y₀ t₀).x bi s 2 *ᵥ ![a, 0]) ∧
    (∀ bi, InShape bi [] → weightAt (exLine s (y₀ - a) (t₀ + δ)).info bi s = weightAt (exLine s y₀ t₀).info bi s) ∧
    InCoords [] 2 (fun _ => !![1, δ; 0, 1]) (fun _ => ![a, 0])
      (batchVec [] 2 fun _ => ![a + δ, 1], batchMat [] 2 2 fun _ => 1)
      (batchVec [] 2 fun _ => ![0, 1], batchMat [] 2 2 fun _ => !![1, δ; δ, δ ^ 2 + 1]) := by
  refine ⟨fun _ _ => by simp [det_fin_two], fun bi hb => ?_, fun bi ei hb he => ?_, fun _ _ => rfl,
    batchVec_arr _ _ _, batchMat_arr _ _ _ _, batchVec_arr _ _ _, batchMat_arr _ _ _ _, fun bi hb => ?_⟩
  · simp only [exLine]
    rw [matAt_batchMat _ hb, matAt_batchMat _ hb]
    ext k j
    fin_cases j
    · simp [Matrix.mul_apply, Fin.sum_univ_two]
    · simp [Matrix.mul_apply, Fin.sum_univ_two]
      ring
  · obtain rfl : ei = [] := by cases ei; rfl; cases he
    simp only [exLine, List.append_nil]
    rw [matAt_batchMat _ hb, vecAt_batchVec _ hb, vecAt_batchVec _ hb]
    ext k
    simp only [Pi.sub_apply, Matrix.mulVec, dotProduct, Fin.sum_univ_two, Matrix.of_apply, Matrix.cons_val_zero,
      Matrix.cons_val_one, if_true, mul_zero, add_zero, one_mul]
    ring
  · rw [vecAt_batchVec _ hb, vecAt_batchVec _ hb, matAt_batchMat _ hb, matAt_batchMat _ hb]
    constructor
    · ext k
      fin_cases k <;> simp
      ring
    · ext i j
      fin_cases i <;> fin_cases j <;> simp [Matrix.mul_apply, Fin.sum_univ_two]
      ring

/-- The points of the line in reverse order. -/
def exLineRev (s : ℕ) (y₀ t₀ : ℝ) : RegData [] 2 where
  y := batchVec [] s fun _ k => y₀ + (k.rev : ℕ)
  x := batchMat [] s 2 fun _ => of fun k j => if j = 0 then 1 else t₀ + (k.rev : ℕ)
  info := .scalar 2
  e := []
  s := s
  hy := by simpa using batchVec_arr [] s _
  hx := batchMat_arr [] s 2 _
  hinfo := trivial
  psd := (exLine s y₀ t₀).psd

/-- The hypotheses of C172 for the order of the observations hold for these data. -/
example (s : ℕ) (y₀ t₀ : ℝ) (bi : List ℕ) (hb : InShape bi []) :
    (∀ k j, matAt (exLineRev s y₀ t₀).x bi s 2 k j = matAt (exLine s y₀ t₀).x bi s 2 (Fin.revPerm k) j) ∧
    (∀ k, vecAt (exLineRev s y₀ t₀).y (bi ++ []) s k = vecAt (exLine s y₀ t₀).y (bi ++ []) s (Fin.revPerm k)) ∧
    ∀ k l, weightAt (exLineRev s y₀ t₀).info bi s k l =
      weightAt (exLine s y₀ t₀).info bi s (Fin.revPerm k) (Fin.revPerm l) := by
  refine ⟨fun k j => ?_, fun k => ?_, fun k l => ?_⟩
  · simp only [exLine, exLineRev]
    rw [matAt_batchMat _ hb, matAt_batchMat _ hb]
    rfl
  · simp only [exLine, exLineRev, List.append_nil]
    rw [vecAt_batchVec _ hb, vecAt_batchVec _ hb]
    rfl
  · simp [exLine, exLineRev, weightAt, Matrix.one_apply]

/-- The points of the line with responses and regressors multiplied by `√2` and unit weights. -/
def exLineWhite (s : ℕ) (y₀ t₀ : ℝ) : RegData [] 2 where
  y := batchVec [] s fun _ k => √2 * (y₀ + (k : ℕ))
  x := batchMat [] s 2 fun _ => of fun k j => √2 * if j = 0 then 1 else t₀ + (k : ℕ)
  info := .scalar 1
  e := []
  s := s
  hy := by simpa using batchVec_arr [] s _
  hx := batchMat_arr [] s 2 _
  hinfo := trivial
  psd := fun bi _ => by
    rw [weightAt, one_smul]
    exact PosSemidef.one

/-- The hypotheses of C172 for a change of the observations hold for whitened data. -/
example (s : ℕ) (y₀ t₀ : ℝ) (bi : List ℕ) (hb : InShape bi []) :
    matAt (exLineWhite s y₀ t₀).x bi s 2 = (√2 • (1 : Matrix (Fin s) (Fin s) ℝ)) * matAt (exLine s y₀ t₀).x bi s 2 ∧
    vecAt (exLineWhite s y₀ t₀).y (bi ++ []) s =
      (√2 • (1 : Matrix (Fin s) (Fin s) ℝ)) *ᵥ vecAt (exLine s y₀ t₀).y (bi ++ []) s ∧
    (√2 • (1 : Matrix (Fin s) (Fin s) ℝ))ᵀ * weightAt (exLineWhite s y₀ t₀).info bi s * (√2 • 1) =
      weightAt (exLine s y₀ t₀).info bi s := by
  refine ⟨?_, ?_, ?_⟩
  · simp only [exLine, exLineWhite]
    rw [matAt_batchMat _ hb, matAt_batchMat _ hb, smul_mul, Matrix.one_mul]
    rfl
  · simp only [exLine, exLineWhite, List.append_nil]
    rw [vecAt_batchVec _ hb, vecAt_batchVec _ hb, smul_mulVec, one_mulVec]
    rfl
  · simp [exLine, exLineWhite, weightAt, smul_smul]

/-- Replicated measurements of the mean: `n + 1` measurements `t, t + 1, …` of one quantity with weight 1, and their
mean with weight `n + 1`. -/
def exReplicates (n : ℕ) (t : ℝ) : RegData [] 1 where
  y := batchVec [n + 1] 1 fun i _ => t + (i.headD 0 : ℕ)
  x := batchMat [] 1 1 fun _ => 1
  info := .scalar 1
  e := [n + 1]
  s := 1
  hy := batchVec_arr [n + 1] 1 _
  hx := batchMat_arr [] 1 1 _
  hinfo := trivial
  psd := fun bi _ => by
    rw [weightAt, one_smul]
    exact PosSemidef.one

/-- The mean with weight `n + 1`. -/
def exMean (n : ℕ) (t : ℝ) : RegData [] 1 where
  y := batchVec [] 1 fun _ _ => t + n / 2
  x := batchMat [] 1 1 fun _ => 1
  info := .scalar (n + 1)
  e := []
  s := 1
  hy := batchVec_arr [] 1 _
  hx := batchMat_arr [] 1 1 _
  hinfo := trivial
  psd := fun bi _ => PosSemidef.one.smul (by positivity)

/-- The hypotheses of C172 for replicates hold for these data. -/
example (n : ℕ) (t : ℝ) (bi : List ℕ) (hb : InShape bi []) :
    ((exReplicates n t).e.prod : ℝ) • vecAt (exMean n t).y bi 1 =
      ((indexProduct (exReplicates n t).e).map fun ei => vecAt (exReplicates n t).y (bi ++ ei) 1).sum ∧
    weightAt (exMean n t).info bi 1 = ((exReplicates n t).e.prod : ℝ) • weightAt (exReplicates n t).info bi 1 := by
  obtain rfl : bi = [] := by cases bi; rfl; cases hb
  constructor
  · simp only [exMean, exReplicates]
    rw [vecAt_batchVec _ inShape_nil]
    have h1 : ((indexProduct [n + 1]).map fun ei =>
        vecAt (batchVec [n + 1] 1 fun i _ => t + (i.headD 0 : ℕ)) ([] ++ ei) 1) =
        (indexProduct [n + 1]).map fun ei => fun _ => t + (ei.headD 0 : ℕ) :=
      List.map_congr_left fun ei hei => by
        rw [List.nil_append, vecAt_batchVec _ (mem_indexProduct.1 hei)]
    rw [h1]
    have h2 : indexProduct [n + 1] = (List.range (n + 1)).map fun i => [i] := by
      simp only [indexProduct, List.map_cons, List.map_nil]
      induction List.range (n + 1) with
      | nil => rfl
      | cons a l ih => rw [List.flatMap_cons, ih]; rfl
    rw [h2, List.map_map]
    ext k
    have h3 : ∀ m : ℕ, ((List.range m).map ((fun ei : List ℕ => fun _ : Fin 1 => t + (ei.headD 0 : ℕ)) ∘ fun i => [i])).sum k
        = m * t + m * (m - 1) / 2 := by
      intro m
      induction m with
      | zero => simp
      | succ m ih =>
        rw [List.range_succ, List.map_append, List.sum_append, Pi.add_apply, ih]
        simp
        ring
    rw [h3]
    simp
    ring
  · simp [exMean, exReplicates, weightAt]

end

end LRVB
