import Verif.Props.Regression

/-!
# Regression data in batches: C166
-/

namespace LRVB

open Matrix Regression Arr

noncomputable section

/-- Two quadratic polynomials with the same values have the same coefficients. -/
theorem quad_coeffs {r : ℕ} {v w : Fin r → ℝ} {G H : Matrix (Fin r) (Fin r) ℝ} (hG : G.IsSymm) (hH : H.IsSymm)
    {c d : ℝ} (h : ∀ β : Fin r → ℝ, c - 2 * (β ⬝ᵥ v) + β ⬝ᵥ (G *ᵥ β) = d - 2 * (β ⬝ᵥ w) + β ⬝ᵥ (H *ᵥ β)) :
    v = w ∧ G = H := by
  have h0 : c = d := by simpa using h 0
  have hneg : ∀ β : Fin r → ℝ, β ⬝ᵥ v = β ⬝ᵥ w ∧ β ⬝ᵥ (G *ᵥ β) = β ⬝ᵥ (H *ᵥ β) := by
    intro β
    have h1 := h β
    have h2 := h (-β)
    simp only [neg_dotProduct, mulVec_neg, dotProduct_neg] at h2
    constructor <;> linarith
  refine ⟨funext fun i => ?_, ?_⟩
  · simpa using (hneg (Pi.single i 1)).1
  · ext i j
    have hq := fun β => (hneg β).2
    have hbil : ∀ {A : Matrix (Fin r) (Fin r) ℝ} (_ : A.IsSymm) (u w : Fin r → ℝ),
        (u + w) ⬝ᵥ (A *ᵥ (u + w)) = u ⬝ᵥ (A *ᵥ u) + w ⬝ᵥ (A *ᵥ w) + 2 * (u ⬝ᵥ (A *ᵥ w)) := by
      intro A hA u w
      rw [mulVec_add, dotProduct_add, add_dotProduct, add_dotProduct, symm_dot hA w u]
      ring
    have h1 := hq (Pi.single i 1 + Pi.single j 1)
    rw [hbil hG, hbil hH, hq, hq] at h1
    have h2 : (Pi.single i 1 : Fin r → ℝ) ⬝ᵥ (G *ᵥ Pi.single j 1) = Pi.single i 1 ⬝ᵥ (H *ᵥ Pi.single j 1) := by linarith
    simpa using h2

/-- The coefficient of `β` in the criterion, up to the factor `-2`. -/
def linTerm (y x : Arr) (info : Info) (e bi : List ℕ) (s r : ℕ) : Fin r → ℝ :=
  ((indexProduct e).map fun ei => (weightAt info bi s * matAt x bi s r)ᵀ *ᵥ vecAt y (bi ++ ei) s).sum

/-- The coefficient of `β βᵀ` in the criterion. -/
def quadTerm (x : Arr) (info : Info) (e bi : List ℕ) (s r : ℕ) : Matrix (Fin r) (Fin r) ℝ :=
  (e.prod : ℝ) • ((matAt x bi s r)ᵀ * (weightAt info bi s * matAt x bi s r))

theorem isSymm_of_herm {n : ℕ} {A : Matrix (Fin n) (Fin n) ℝ} (h : A.IsHermitian) : A.IsSymm := by
  rwa [Matrix.IsHermitian, conjTranspose_eq_transpose_of_trivial] at h

theorem quadTerm_psd {x : Arr} {info : Info} {e bi : List ℕ} {s r : ℕ} (h : (weightAt info bi s).PosSemidef) :
    (quadTerm x info e bi s r).PosSemidef := by
  have h1 := h.conjTranspose_mul_mul_same (matAt x bi s r)
  rw [conjTranspose_eq_transpose_of_trivial, Matrix.mul_assoc] at h1
  exact h1.smul (Nat.cast_nonneg e.prod)

theorem wls_terms {y x : Arr} {info : Info} {e bi : List ℕ} {s r : ℕ} (h : (weightAt info bi s).IsSymm) :
    ∃ c : ℝ, ∀ β, wls y x info e bi s r β =
      c - 2 * (β ⬝ᵥ linTerm y x info e bi s r) + β ⬝ᵥ (quadTerm x info e bi s r *ᵥ β) := by
  refine ⟨((indexProduct e).map fun ei =>
    vecAt y (bi ++ ei) s ⬝ᵥ (weightAt info bi s *ᵥ vecAt y (bi ++ ei) s)).sum, fun β => ?_⟩
  have h1 := wls_expand (matAt x bi s r) (weightAt info bi s) h
    ((indexProduct e).map fun ei => vecAt y (bi ++ ei) s) β
  simp only [List.map_map, Function.comp_def, List.length_map, indexProduct_length] at h1
  rw [wls, h1, linTerm, quadTerm, smul_mulVec, dotProduct_smul, smul_eq_mul]

theorem posterior_ok {b e : List ℕ} {s r : ℕ} {y x : Arr} {info : Info} {m₀ i₀ : Arr}
    (hy : IsArr y (b ++ e ++ [s])) (hx : IsArr x (b ++ [s, r])) (hi : InfoShape info b s)
    (hpsd : ∀ bi, InShape bi b → (weightAt info bi s).PosSemidef)
    (hm₀ : IsArr m₀ (b ++ [r])) (hi₀ : IsArr i₀ (b ++ [r, r]))
    (hpd₀ : ∀ bi, InShape bi b → (matAt i₀ bi r r).PosDef) :
    getPosteriorRegressionCoefficients y x info m₀ i₀ = .ok
      (batchVec b r fun bi => (quadTerm x info e bi s r + matAt i₀ bi r r)⁻¹ *ᵥ
        (linTerm y x info e bi s r + matAt i₀ bi r r *ᵥ vecAt m₀ bi r),
       batchMat b r r fun bi => quadTerm x info e bi s r + matAt i₀ bi r r) := by
  have hpd : ∀ bi, InShape bi b → (quadTerm x info e bi s r + matAt i₀ bi r r).PosDef := fun bi hb =>
    Matrix.PosDef.posSemidef_add (quadTerm_psd (hpsd bi hb)) (hpd₀ bi hb)
  have hL : ∀ bi, (-2 : ℝ) • ((-0.5 * (e.prod : ℝ)) • ((matAt x bi s r)ᵀ * (weightAt info bi s * matAt x bi s r)) +
      (-0.5 : ℝ) • matAt i₀ bi r r) = quadTerm x info e bi s r + matAt i₀ bi r r := by
    intro bi
    rw [quadTerm, smul_add, smul_smul, smul_smul]
    congr 2
    · ring
    · norm_num
  unfold getPosteriorRegressionCoefficients
  rw [likelihood_ok hy hx hi fun bi hb => isSymm_of_herm (hpsd bi hb).1, py_ok_bind,
    prior_ok hm₀ hi₀ fun bi hb => isSymm_of_herm (hpd₀ bi hb).1, py_ok_bind]
  simp only
  rw [add_batchVec, py_ok_bind, add_batchMat, py_ok_bind, mvn_ok _ _ (fun bi hb => by
      rw [hL]; exact (hpd bi hb).det_pos.ne')]
  congr 2
  · refine batchVec_congr fun bi hb => ?_
    rw [hL, transpose_nonsing_inv, (isSymm_of_herm (hpd bi hb).1).eq]
    rfl
  · exact batchMat_congr fun bi hb => hL bi

/-- Regression data with `r` regressors: `s` observations of each of the responses (of shape `e`), for every batch
index of shape `b`, with positive semidefinite weights. -/
structure RegData (b : List ℕ) (r : ℕ) where
  y : Arr
  x : Arr
  info : Info
  e : List ℕ
  s : ℕ
  hy : IsArr y (b ++ e ++ [s])
  hx : IsArr x (b ++ [s, r])
  hinfo : InfoShape info b s
  psd : ∀ bi, InShape bi b → (weightAt info bi s).PosSemidef

/-- The least squares criterion of the data. -/
def RegData.criterion {b : List ℕ} {r : ℕ} (D : RegData b r) (bi : List ℕ) (β : Fin r → ℝ) : ℝ :=
  wls D.y D.x D.info D.e bi D.s r β

/-- The posterior mean and information for a prior mean and information. -/
def RegData.posterior {b : List ℕ} {r : ℕ} (D : RegData b r) (prior : Arr × Arr) : Py (Arr × Arr) :=
  getPosteriorRegressionCoefficients D.y D.x D.info prior.1 prior.2

/-- **C166** Let the least squares criterion of some data be the sum of the criteria of two parts.  The posterior for
the second part, with the posterior for the first part as the prior, is the posterior for all data; and the order of
the parts does not matter. -/
theorem C166_sequential (b : List ℕ) (r : ℕ) (D D₁ D₂ : RegData b r)
    (hsum : ∀ bi, InShape bi b → ∀ β, D.criterion bi β = D₁.criterion bi β + D₂.criterion bi β)
    (m₀ i₀ : Arr) (hm₀ : IsArr m₀ (b ++ [r])) (hi₀ : IsArr i₀ (b ++ [r, r]))
    (hpd₀ : ∀ bi, InShape bi b → (matAt i₀ bi r r).PosDef) :
    ∃ p, D.posterior (m₀, i₀) = .ok p ∧
      (D₁.posterior (m₀, i₀) >>= D₂.posterior) = .ok p ∧
      (D₂.posterior (m₀, i₀) >>= D₁.posterior) = .ok p := by
  have hterms : ∀ bi, InShape bi b →
      linTerm D.y D.x D.info D.e bi D.s r =
        linTerm D₁.y D₁.x D₁.info D₁.e bi D₁.s r + linTerm D₂.y D₂.x D₂.info D₂.e bi D₂.s r ∧
      quadTerm D.x D.info D.e bi D.s r =
        quadTerm D₁.x D₁.info D₁.e bi D₁.s r + quadTerm D₂.x D₂.info D₂.e bi D₂.s r := by
    intro bi hb
    obtain ⟨c, hc⟩ := wls_terms (y := D.y) (x := D.x) (e := D.e) (r := r) (isSymm_of_herm (D.psd bi hb).1)
    obtain ⟨c₁, hc₁⟩ := wls_terms (y := D₁.y) (x := D₁.x) (e := D₁.e) (r := r) (isSymm_of_herm (D₁.psd bi hb).1)
    obtain ⟨c₂, hc₂⟩ := wls_terms (y := D₂.y) (x := D₂.x) (e := D₂.e) (r := r) (isSymm_of_herm (D₂.psd bi hb).1)
    refine quad_coeffs (c := c) (d := c₁ + c₂) (isSymm_of_herm (quadTerm_psd (D.psd bi hb)).1)
      (isSymm_of_herm ((quadTerm_psd (D₁.psd bi hb)).add (quadTerm_psd (D₂.psd bi hb))).1) fun β => ?_
    have := hsum bi hb β
    simp only [RegData.criterion, hc, hc₁, hc₂] at this
    rw [dotProduct_add, add_mulVec, dotProduct_add]
    linarith
  have htwo : ∀ A B : RegData b r, (∀ bi, InShape bi b →
      linTerm D.y D.x D.info D.e bi D.s r =
        linTerm A.y A.x A.info A.e bi A.s r + linTerm B.y B.x B.info B.e bi B.s r ∧
      quadTerm D.x D.info D.e bi D.s r =
        quadTerm A.x A.info A.e bi A.s r + quadTerm B.x B.info B.e bi B.s r) →
      (A.posterior (m₀, i₀) >>= B.posterior) = D.posterior (m₀, i₀) := by
    intro A B h
    have hpdA : ∀ bi, InShape bi b → (quadTerm A.x A.info A.e bi A.s r + matAt i₀ bi r r).PosDef := fun bi hb =>
      Matrix.PosDef.posSemidef_add (quadTerm_psd (A.psd bi hb)) (hpd₀ bi hb)
    unfold RegData.posterior
    simp only
    rw [posterior_ok A.hy A.hx A.hinfo A.psd hm₀ hi₀ hpd₀, py_ok_bind,
      posterior_ok B.hy B.hx B.hinfo B.psd (batchVec_arr _ _ _) (batchMat_arr _ _ _ _)
        (fun bi hb => by rw [matAt_batchMat _ hb]; exact hpdA bi hb),
      posterior_ok D.hy D.hx D.hinfo D.psd hm₀ hi₀ hpd₀]
    have e1 : ∀ bi, InShape bi b → quadTerm B.x B.info B.e bi B.s r +
        (quadTerm A.x A.info A.e bi A.s r + matAt i₀ bi r r) = quadTerm D.x D.info D.e bi D.s r + matAt i₀ bi r r := by
      intro bi hb
      rw [(h bi hb).2]
      abel
    congr 2
    · refine batchVec_congr fun bi hb => ?_
      rw [matAt_batchMat _ hb, vecAt_batchVec _ hb, e1 bi hb, mulVec_mulVec _ _ (_⁻¹),
        mul_nonsing_inv _ (isUnit_iff_ne_zero.2 (hpdA bi hb).det_pos.ne'), one_mulVec, (h bi hb).1]
      congr 1
      abel
    · exact batchMat_congr fun bi hb => by rw [matAt_batchMat _ hb, e1 bi hb]
  refine ⟨_, posterior_ok D.hy D.hx D.hinfo D.psd hm₀ hi₀ hpd₀, ?_, ?_⟩
  · rw [htwo D₁ D₂ hterms]
    exact posterior_ok D.hy D.hx D.hinfo D.psd hm₀ hi₀ hpd₀
  · rw [htwo D₂ D₁ fun bi hb => ⟨by rw [(hterms bi hb).1, add_comm], by rw [(hterms bi hb).2, add_comm]⟩]
    exact posterior_ok D.hy D.hx D.hinfo D.psd hm₀ hi₀ hpd₀

/-- The data `D` are those of `D₁` followed by those of `D₂`: the responses and the rows of the design are stacked,
and observations of different parts have no common weights. -/
structure RegData.Stacks {b : List ℕ} {r : ℕ} (D D₁ D₂ : RegData b r) : Prop where
  size : D.s = D₁.s + D₂.s
  e₁ : D₁.e = D.e
  e₂ : D₂.e = D.e
  y₁ : ∀ bi ei, InShape bi b → InShape ei D.e → ∀ k < D₁.s, D.y.get (bi ++ ei ++ [k]) = D₁.y.get (bi ++ ei ++ [k])
  y₂ : ∀ bi ei, InShape bi b → InShape ei D.e → ∀ k < D₂.s,
    D.y.get (bi ++ ei ++ [D₁.s + k]) = D₂.y.get (bi ++ ei ++ [k])
  x₁ : ∀ bi, InShape bi b → ∀ k < D₁.s, ∀ j < r, D.x.get (bi ++ [k, j]) = D₁.x.get (bi ++ [k, j])
  x₂ : ∀ bi, InShape bi b → ∀ k < D₂.s, ∀ j < r, D.x.get (bi ++ [D₁.s + k, j]) = D₂.x.get (bi ++ [k, j])
  w : ∀ bi, InShape bi b → (weightAt D.info bi D.s).submatrix (finSumFinEquiv.trans (finCongr size.symm))
    (finSumFinEquiv.trans (finCongr size.symm)) =
      fromBlocks (weightAt D₁.info bi D₁.s) 0 0 (weightAt D₂.info bi D₂.s)

theorem RegData.Stacks.criterion_add {b : List ℕ} {r : ℕ} {D D₁ D₂ : RegData b r} (h : D.Stacks D₁ D₂)
    {bi : List ℕ} (hb : InShape bi b) (β : Fin r → ℝ) :
    D.criterion bi β = D₁.criterion bi β + D₂.criterion bi β := by
  unfold RegData.criterion wls
  rw [h.e₁, h.e₂, ← List.sum_map_add]
  congr 1
  refine List.map_congr_left fun ei hei => ?_
  have hei : InShape ei D.e := mem_indexProduct.1 hei
  set E := finSumFinEquiv.trans (finCongr h.size.symm) with hE
  set u := vecAt D.y (bi ++ ei) D.s - matAt D.x bi D.s r *ᵥ β with hu
  have hu₁ : ∀ k, u (E (.inl k)) = (vecAt D₁.y (bi ++ ei) D₁.s - matAt D₁.x bi D₁.s r *ᵥ β) k := by
    intro k
    simp only [hu, Pi.sub_apply, vecAt, Matrix.mulVec, dotProduct, matAt, Matrix.of_apply]
    have hk : ((E (.inl k) : Fin D.s) : ℕ) = k := by simp [hE]
    rw [hk, h.y₁ bi ei hb hei k k.2]
    congr 1
    exact Finset.sum_congr rfl fun j _ => by rw [h.x₁ bi hb k k.2 j j.2]
  have hu₂ : ∀ k, u (E (.inr k)) = (vecAt D₂.y (bi ++ ei) D₂.s - matAt D₂.x bi D₂.s r *ᵥ β) k := by
    intro k
    simp only [hu, Pi.sub_apply, vecAt, Matrix.mulVec, dotProduct, matAt, Matrix.of_apply]
    have hk : ((E (.inr k) : Fin D.s) : ℕ) = D₁.s + k := by simp [hE]
    rw [hk, h.y₂ bi ei hb hei k k.2]
    congr 1
    exact Finset.sum_congr rfl fun j _ => by rw [h.x₂ bi hb k k.2 j j.2]
  have hw := h.w bi hb
  have hwe : ∀ p q, weightAt D.info bi D.s (E p) (E q) =
      fromBlocks (weightAt D₁.info bi D₁.s) 0 0 (weightAt D₂.info bi D₂.s) p q := fun p q => by
    rw [← hw]; rfl
  simp only [dotProduct, Matrix.mulVec]
  rw [← E.sum_comp]
  simp only [← E.sum_comp (fun j => weightAt D.info bi D.s _ j * u j), Fintype.sum_sum_type, hwe, hu₁, hu₂,
    fromBlocks_apply₁₁, fromBlocks_apply₁₂, fromBlocks_apply₂₁, fromBlocks_apply₂₂, Matrix.zero_apply, zero_mul,
    Finset.sum_const_zero, add_zero, zero_add]

/-- **C166** for stacked data: the posterior for all data is that for the second part, with the posterior for the
first part as the prior. -/
theorem C166_stacked (b : List ℕ) (r : ℕ) (D D₁ D₂ : RegData b r) (h : D.Stacks D₁ D₂)
    (m₀ i₀ : Arr) (hm₀ : IsArr m₀ (b ++ [r])) (hi₀ : IsArr i₀ (b ++ [r, r]))
    (hpd₀ : ∀ bi, InShape bi b → (matAt i₀ bi r r).PosDef) :
    ∃ p, D.posterior (m₀, i₀) = .ok p ∧ (D₁.posterior (m₀, i₀) >>= D₂.posterior) = .ok p := by
  obtain ⟨p, h1, h2, -⟩ := C166_sequential b r D D₁ D₂ (fun bi hb β => h.criterion_add hb β) m₀ i₀ hm₀ hi₀ hpd₀
  exact ⟨p, h1, h2⟩

/-- `s` observations `y₀, y₀ + 1, …` with the regressors `1` and `t₀, t₀ + 1, …`, all with weight 2. -/
def exLine (s : ℕ) (y₀ t₀ : ℝ) : RegData [] 2 where
  y := batchVec [] s fun _ k => y₀ + (k : ℕ)
  x := batchMat [] s 2 fun _ => of fun k j => if j = 0 then 1 else t₀ + (k : ℕ)
  info := .scalar 2
  e := []
  s := s
  hy := by simpa using batchVec_arr [] s _
  hx := batchMat_arr [] s 2 _
  hinfo := trivial
  psd := fun bi _ => by
    have : (2 : ℝ) • (1 : Matrix (Fin s) (Fin s) ℝ) = diagonal fun _ => 2 := by
      ext i j
      simp [diagonal, one_apply]
    rw [weightAt, this]
    exact PosSemidef.diagonal fun _ => by norm_num

theorem inShape_nil : InShape [] [] := by simp [InShape]

theorem get_batchVec_nil {s : ℕ} (v : List ℕ → Fin s → ℝ) {k : ℕ} (hk : k < s) :
    (batchVec [] s v).get [k] = v [] ⟨k, hk⟩ := congrFun (vecAt_batchVec v (bi := []) (b := []) inShape_nil) ⟨k, hk⟩

theorem get_batchMat_nil {s r : ℕ} (M : List ℕ → Matrix (Fin s) (Fin r) ℝ) {k j : ℕ} (hk : k < s) (hj : j < r) :
    (batchMat [] s r M).get [k, j] = M [] ⟨k, hk⟩ ⟨j, hj⟩ :=
  congrFun (congrFun (matAt_batchMat M (bi := []) (b := []) inShape_nil) ⟨k, hk⟩) ⟨j, hj⟩

theorem scalar_blocks (s₁ s₂ : ℕ) (p q : Fin s₁ ⊕ Fin s₂) :
    ((2 : ℝ) • (1 : Matrix (Fin (s₁ + s₂)) (Fin (s₁ + s₂)) ℝ)) (finSumFinEquiv p) (finSumFinEquiv q) =
      fromBlocks ((2 : ℝ) • (1 : Matrix (Fin s₁) (Fin s₁) ℝ)) 0 0 ((2 : ℝ) • (1 : Matrix (Fin s₂) (Fin s₂) ℝ)) p q := by
  rw [Matrix.smul_apply, Matrix.one_apply]
  simp only [EmbeddingLike.apply_eq_iff_eq]
  rcases p with p | p <;> rcases q with q | q <;> simp [Matrix.one_apply]

/-- The hypotheses of C166 hold for the points of a line in two parts, with a standard normal prior. -/
example (s₁ s₂ : ℕ) : (exLine (s₁ + s₂) 0 1).Stacks (exLine s₁ 0 1) (exLine s₂ s₁ (1 + s₁)) ∧
    IsArr (batchVec [] 2 fun _ _ => 0) [2] ∧ IsArr (batchMat [] 2 2 fun _ => 1) [2, 2] ∧
    ∀ bi, InShape bi [] → (matAt (batchMat [] 2 2 fun _ => 1) bi 2 2).PosDef := by
  refine ⟨⟨rfl, rfl, rfl, ?_, ?_, ?_, ?_, ?_⟩, batchVec_arr [] 2 _, batchMat_arr [] 2 2 _, fun bi hb => ?_⟩
  · intro bi ei hb he k hk
    obtain rfl : bi = [] := by cases bi; rfl; cases hb
    obtain rfl : ei = [] := by cases ei; rfl; cases he
    simp only [exLine] at hk ⊢
    simp only [List.append_nil, List.nil_append]
    rw [get_batchVec_nil _ (show k < s₁ + s₂ by omega), get_batchVec_nil _ hk]
  · intro bi ei hb he k hk
    obtain rfl : bi = [] := by cases bi; rfl; cases hb
    obtain rfl : ei = [] := by cases ei; rfl; cases he
    simp only [exLine] at hk ⊢
    simp only [List.append_nil, List.nil_append]
    rw [get_batchVec_nil _ (show s₁ + k < s₁ + s₂ by omega), get_batchVec_nil _ hk]
    push_cast
    ring
  · intro bi hb k hk j hj
    obtain rfl : bi = [] := by cases bi; rfl; cases hb
    simp only [exLine] at hk ⊢
    simp only [List.nil_append]
    rw [get_batchMat_nil _ (show k < s₁ + s₂ by omega) hj, get_batchMat_nil _ hk hj]
    rfl
  · intro bi hb k hk j hj
    obtain rfl : bi = [] := by cases bi; rfl; cases hb
    simp only [exLine] at hk ⊢
    simp only [List.nil_append]
    rw [get_batchMat_nil _ (show s₁ + k < s₁ + s₂ by omega) hj, get_batchMat_nil _ hk hj]
    simp only [Matrix.of_apply]
    push_cast
    split_ifs <;> ring
  · intro bi hb
    ext p q
    exact scalar_blocks s₁ s₂ p q
  · rw [matAt_batchMat _ hb]
    exact PosDef.one

end

end LRVB
