import Verif.Props.TaylorFlags

/-!
# C57 and C88 at all orders: what the expansion computes when the Hessian is not that of the functor
-/

namespace LRVB

open scoped ContDiff Matrix
open Taylor Flt

noncomputable section

variable {n m : ℕ} {F G : (Fin n → ℝ) × (Fin m → ℝ) → ℝ}

/-- A polynomial of degree at most two. -/
def IsQuadPoly (q : (Fin n → ℝ) → ℝ) : Prop :=
  ∃ (A : Matrix (Fin n) (Fin n) ℝ) (b : Fin n → ℝ) (c : ℝ), ∀ u, q u = c + b ⬝ᵥ u + (u ⬝ᵥ A *ᵥ u) / 2

theorem IsQuadPoly.contDiff {q : (Fin n → ℝ) → ℝ} (hq : IsQuadPoly q) : ContDiff ℝ ∞ q := by
  obtain ⟨A, b, c, h⟩ := hq
  rw [funext h]
  unfold Matrix.mulVec dotProduct
  fun_prop

theorem fderiv_quadratic {q : (Fin n → ℝ) → ℝ} {A : Matrix (Fin n) (Fin n) ℝ} {b : Fin n → ℝ} {c : ℝ}
    (h : ∀ u, q u = c + b ⬝ᵥ u + (u ⬝ᵥ A *ᵥ u) / 2) (u : Fin n → ℝ) (i : Fin n) :
    fderiv ℝ q u (Pi.single i 1) = ((((1 / 2 : ℝ) • (A + Aᵀ)) *ᵥ u) + b) i := by
  have hsm := IsQuadPoly.contDiff ⟨A, b, c, h⟩
  have hl : HasDerivAt (fun t : ℝ => u + t • (Pi.single i 1 : Fin n → ℝ)) (Pi.single i 1) 0 := by
    simpa using ((hasDerivAt_id (0 : ℝ)).smul_const (Pi.single i 1 : Fin n → ℝ)).const_add u
  have h1 : HasDerivAt (fun t : ℝ => q (u + t • (Pi.single i 1 : Fin n → ℝ))) (_root_.fderiv ℝ q u (Pi.single i 1)) 0 := by
    have h2 : HasFDerivAt q (_root_.fderiv ℝ q u) (u + (0 : ℝ) • (Pi.single i 1 : Fin n → ℝ)) := by
      rw [zero_smul, add_zero]
      exact (hsm.differentiable (by simp) _).hasFDerivAt
    exact h2.comp_hasDerivAt (0 : ℝ) hl
  have h3 : (fun t : ℝ => q (u + t • (Pi.single i 1 : Fin n → ℝ))) = fun t =>
      q u + t * (b i + ((A *ᵥ u) i + (Aᵀ *ᵥ u) i) / 2) + t ^ 2 * (A i i / 2) := by
    funext t
    have e1 : u ⬝ᵥ A *ᵥ (Pi.single i 1 : Fin n → ℝ) = (Aᵀ *ᵥ u) i := by
      rw [Matrix.mulVec_single_one, dotProduct_comm]
      rfl
    have e2 : (Pi.single i 1 : Fin n → ℝ) ⬝ᵥ A *ᵥ (Pi.single i 1 : Fin n → ℝ) = A i i := by
      rw [Matrix.mulVec_single_one, single_dotProduct, one_mul]
      rfl
    rw [h, h, Matrix.mulVec_add, Matrix.mulVec_smul, dotProduct_add, dotProduct_add, add_dotProduct, add_dotProduct,
      dotProduct_smul, dotProduct_smul, smul_dotProduct, smul_dotProduct, dotProduct_smul, e1, e2, single_dotProduct,
      dotProduct_single, one_mul, mul_one]
    simp only [smul_eq_mul]
    ring
  have h4 : HasDerivAt (fun t : ℝ => q u + t * (b i + ((A *ᵥ u) i + (Aᵀ *ᵥ u) i) / 2) + t ^ 2 * (A i i / 2))
      (b i + ((A *ᵥ u) i + (Aᵀ *ᵥ u) i) / 2) 0 := by
    have := (((hasDerivAt_id (0 : ℝ)).mul_const (b i + ((A *ᵥ u) i + (Aᵀ *ᵥ u) i) / 2)).const_add (q u)).add
      (((hasDerivAt_id (0 : ℝ)).pow 2).mul_const (A i i / 2))
    exact this.congr_deriv (by simp)
  rw [h3] at h1
  rw [h1.unique h4]
  simp only [Pi.add_apply, Matrix.smul_mulVec, Matrix.add_mulVec, Pi.smul_apply, smul_eq_mul]
  ring

/-- The gradient of a quadratic polynomial is affine. -/
theorem IsQuadPoly.fderiv {q : (Fin n → ℝ) → ℝ} (hq : IsQuadPoly q) :
    ∃ (L : (Fin n → ℝ) →L[ℝ] (Fin n → ℝ)) (b : Fin n → ℝ), ∀ u (i : Fin n),
      fderiv ℝ q u (Pi.single i 1) = (L u + b) i := by
  obtain ⟨A, b, c, h⟩ := hq
  exact ⟨LinearMap.toContinuousLinearMap (Matrix.toLin' ((1 / 2 : ℝ) • (A + Aᵀ))), b, fun u i =>
    fderiv_quadratic h u i⟩

/-- Adding a quadratic polynomial in the input adds an affine function to the gradient. -/
theorem gradF_add_quadratic (hF : ContDiff ℝ ∞ F) {q : (Fin n → ℝ) → ℝ} (hq : IsQuadPoly q) :
    ∃ (L : (Fin n → ℝ) →L[ℝ] (Fin n → ℝ)) (b : Fin n → ℝ),
      gradF (fun z => F z + q z.1) = fun z => gradF F z + (L z.1 + b) := by
  obtain ⟨L, b, h⟩ := hq.fderiv
  refine ⟨L, b, ?_⟩
  funext z i
  have h1 : HasFDerivAt (fun z : (Fin n → ℝ) × (Fin m → ℝ) => F z + q z.1)
      (_root_.fderiv ℝ F z + (_root_.fderiv ℝ q z.1).comp (ContinuousLinearMap.fst ℝ _ _)) z :=
    (hF.differentiable (by simp) z).hasFDerivAt.add
      ((hq.contDiff.differentiable (by simp) z.1).hasFDerivAt.comp z hasFDerivAt_fst)
  rw [Pi.add_apply, ← h, gradF, gradF, h1.fderiv, basis_eq_single]
  rfl

/-- Functions with the same second derivatives along all lines have the same Hessian. -/
theorem hessArr_eq {K : (Fin n → ℝ) × (Fin m → ℝ) → ℝ} (hF : ContDiff ℝ 2 F) (hK : ContDiff ℝ 2 K)
    {x : Fin n → ℝ} {e : Fin m → ℝ}
    (h : ∀ a, iteratedDeriv 2 (fun t : ℝ => F (x + t • a, e)) 0 = iteratedDeriv 2 (fun t : ℝ => K (x + t • a, e)) 0) :
    toMatrix n n (hessArr F x e) = toMatrix n n (hessArr K x e) := by
  ext i j
  rw [toMatrix_hessArr, toMatrix_hessArr]
  have key : ∀ a : Fin n → ℝ, fderiv ℝ (fderiv ℝ F) (x, e) (a, 0) (a, 0) = fderiv ℝ (fderiv ℝ K) (x, e) (a, 0) (a, 0) := by
    intro a
    have := h a
    rwa [curvature_eq hF, curvature_eq hK] at this
  have h1 := key (basis n i + basis n j)
  have e1 : ((basis n i + basis n j, 0) : (Fin n → ℝ) × (Fin m → ℝ)) = (basis n i, 0) + (basis n j, 0) := by simp
  rw [e1] at h1
  simp only [map_add, ContinuousLinearMap.add_apply] at h1
  rw [key (basis n i), key (basis n j), hessArr_symm hF x e i j, hessArr_symm hK x e i j] at h1
  linarith

/-- The derivatives that an object returns when its Hessian is that of the functor plus a quadratic polynomial. -/
theorem Taylor.evaluateDk_quadratic (hG : ContDiff ℝ ∞ G) (hn : 0 < n) (hm : 0 < m) {T : Taylor} (hT : Ready G T)
    {x e : List ℝ} (hx : x.length = n) (he : e.length = m) {q : (Fin n → ℝ) → ℝ} (hq : IsQuadPoly q)
    (hb1 : T.base.inputVal0 = x) (hb2 : T.base.hyperVal0 = e) (hs : T.base.hess0.shape = [n, n])
    (hh : toMatrix n n T.base.hess0 = toMatrix n n (hessArr (fun z => G z + q z.1) (toVec n x) (toVec m e)))
    (hdet : (toMatrix n n T.base.hess0).det ≠ 0)
    (h1 : (setPar T.inputPar T.base.inputVal0 T.inputIsFree).2 = none)
    (h2 : (setPar T.hyperPar T.base.hyperVal0 T.hyperIsFree).2 = none) {d : List ℝ} (hd : d.length = m)
    {η : ℝ → Fin n → ℝ} (hη : OptimumPath (fun z => G z + q z.1) (toVec n x) (toVec m e) (toVec m d) η)
    {k : ℕ} (hk : 1 ≤ k) (hko : k ≤ T.order) :
    (T.evaluateDk d k).2 = .ok (List.ofFn (iteratedDeriv k η 0)) := by
  have hK : ContDiff ℝ ∞ fun z : (Fin n → ℝ) × (Fin m → ℝ) => G z + q z.1 := hG.add (hq.contDiff.comp contDiff_fst)
  obtain ⟨L, b, hgrad⟩ := gradF_add_quadratic hG hq
  obtain ⟨η', hp, hit⟩ := OptimumPath.path hK (b := T.base) (d := d) hn hm (by rw [hb1, hx]) (by rw [hb2, he]) hd hs
    (by rw [hb1, hb2]; exact hh) hdet (by rw [hb1, hb2]; exact hη)
  rw [hgrad] at hp
  rw [evaluateDk_affine hT L b hp h1 h2 hk hko, hit]

/-- There is such a polynomial for every symmetric matrix.  If `x` is critical for `F` and the matrix is positive
definite, the changed objective has a path of optima from `x` in every direction. -/
theorem exists_quadratic (hF : ContDiff ℝ ∞ F) (x : Fin n → ℝ) (e : Fin m → ℝ) (H : Arr) (hs : H.shape = [n, n])
    (hpd : (toMatrix n n H).PosDef) : ∃ q : (Fin n → ℝ) → ℝ, IsQuadPoly q ∧
      HessianAt (fun z => F z + q z.1) x e H ∧
      (fderiv ℝ (fun u => F (u, e)) x = 0 → ∀ d, ∃ η, OptimumPath (fun z => F z + q z.1) x e d η) := by
  have hF2 := hF.of_le two_le_infty
  let D : Matrix (Fin n) (Fin n) ℝ := toMatrix n n H - toMatrix n n (hessArr F x e)
  have hDs : Dᵀ = D := by
    have h1 : (toMatrix n n H)ᵀ = toMatrix n n H := by
      have := hpd.1
      rwa [Matrix.IsHermitian, Matrix.conjTranspose_eq_transpose_of_trivial] at this
    have h2 : (toMatrix n n (hessArr F x e))ᵀ = toMatrix n n (hessArr F x e) := by
      ext i j
      rw [Matrix.transpose_apply, toMatrix_hessArr, toMatrix_hessArr, hessArr_symm hF2]
    simp only [D, Matrix.transpose_sub, h1, h2]
  let q : (Fin n → ℝ) → ℝ := fun u => 0 + (-(D *ᵥ x)) ⬝ᵥ u + (u ⬝ᵥ D *ᵥ u) / 2
  have hq : IsQuadPoly q := ⟨D, -(D *ᵥ x), 0, fun _ => rfl⟩
  have hK : ContDiff ℝ ∞ fun z : (Fin n → ℝ) × (Fin m → ℝ) => F z + q z.1 := hF.add (hq.contDiff.comp contDiff_fst)
  have hK2 := hK.of_le two_le_infty
  have hg : ∀ u i, fderiv ℝ q u (Pi.single i 1) = (D *ᵥ u - D *ᵥ x) i := by
    intro u i
    rw [fderiv_quadratic (A := D) (b := -(D *ᵥ x)) (c := 0) (fun _ => rfl), hDs]
    congr 1
    rw [← two_smul ℝ D, smul_smul]
    norm_num
    rw [sub_eq_add_neg]
  have hsum : ∀ u i, fderiv ℝ (fun z : (Fin n → ℝ) × (Fin m → ℝ) => F z + q z.1) (u, e) (Pi.single i 1, 0) =
      fderiv ℝ F (u, e) (Pi.single i 1, 0) + (D *ᵥ u - D *ᵥ x) i := by
    intro u i
    have h1 : HasFDerivAt (fun z : (Fin n → ℝ) × (Fin m → ℝ) => F z + q z.1)
        (_root_.fderiv ℝ F (u, e) + (_root_.fderiv ℝ q u).comp (ContinuousLinearMap.fst ℝ _ _)) (u, e) :=
      (hF.differentiable (by simp) (u, e)).hasFDerivAt.add
        (HasFDerivAt.comp (g := q) (f := Prod.fst) (u, e) (hq.contDiff.differentiable (by simp) u).hasFDerivAt hasFDerivAt_fst)
    rw [h1.fderiv, ← hg]
    rfl
  have hH : HessianAt (fun z => F z + q z.1) x e H := by
    refine ⟨hs, fun i j => ?_⟩
    simp only [deriv_line hK2, hsum]
    have h1 := deriv_line2 hF2 x (Pi.single i 1) (Pi.single j 1) e
    have h2 : HasDerivAt (fun t : ℝ => (D *ᵥ (x + t • (Pi.single j 1 : Fin n → ℝ)) - D *ᵥ x) i) (D i j) 0 := by
      have e1 : (fun t : ℝ => (D *ᵥ (x + t • (Pi.single j 1 : Fin n → ℝ)) - D *ᵥ x) i) = fun t => t * D i j := by
        funext t
        rw [Matrix.mulVec_add, Matrix.mulVec_smul, Matrix.mulVec_single_one, add_sub_cancel_left]
        rfl
      rw [e1]
      simpa using (hasDerivAt_id (0 : ℝ)).mul_const (D i j)
    refine (h1.add h2).congr_deriv ?_
    simp only [D, Matrix.sub_apply, toMatrix_hessArr, basis_eq_single]
    rw [toMatrix, Matrix.of_apply]
    ring
  refine ⟨q, hq, hH, fun hcrit d => exists_optimumPath hK ?_ ?_ d⟩
  · have h0 : fderiv ℝ q x = 0 := by
      ext v
      rw [ContinuousLinearMap.zero_apply, ← Finset.univ_sum_single v, map_sum]
      refine Finset.sum_eq_zero fun i _ => ?_
      have : (Pi.single i (v i) : Fin n → ℝ) = v i • Pi.single i 1 := by
        rw [← Pi.single_smul, smul_eq_mul, mul_one]
      rw [this, map_smul, hg, sub_self, Pi.zero_apply, smul_zero]
    have hd : DifferentiableAt ℝ (fun u => F (u, e)) x :=
      (hF.comp (contDiff_id.prodMk contDiff_const)).differentiable (by simp) x
    rw [fderiv_fun_add hd (hq.contDiff.differentiable (by simp) x), hcrit, h0, add_zero]
  · intro u hu
    rw [curvature_eq hK2, linear_first]
    have h1 := (Matrix.posDef_iff_dotProduct_mulVec.mp hpd).2 hu
    rw [hH.eq hK2, hessArr_mulVec hK2] at h1
    simp only [dotProduct, star_trivial, gradF_fderiv hK2] at h1
    simpa only [mul_comm (u _)] using h1

/-- **C57** at every order: supply a positive definite `H` with `set_base_values(x, e, H)`, whatever was done with the
object before.  The derivatives returned are those of the optimum of the objective changed by a quadratic polynomial in
the input so as to have the Hessian `H`. -/
theorem C57_all_orders_partial (hF : ContDiff ℝ ∞ F) (hn : 0 < n) (hm : 0 < m)
    (objFn : Param → Param → Py Arr) (inputPar hyperPar : Param) (inputIsFree hyperIsFree : Bool)
    (hev : Evaluates inputPar hyperPar objFn inputIsFree hyperIsFree F)
    (x0 e0 : List ℝ) (order : ℕ) (hess0 : Option Arr) (T0 : Taylor)
    (hnew : Taylor.new objFn inputPar hyperPar x0 e0 order inputIsFree hyperIsFree hess0 none = .ok T0)
    (calls : List Taylor.Op) (x e : List ℝ) (hx : x.length = n) (he : e.length = m) (H : Arr)
    (hpd : (toMatrix n n H).PosDef) (q : (Fin n → ℝ) → ℝ) (hq : IsQuadPoly q)
    (hH : HessianAt (fun z => F z + q z.1) (toVec n x) (toVec m e) H) :
    let T := ((calls.foldl Taylor.step T0).setBaseValues x e (some H)).1
    ∀ d : List ℝ, d.length = m →
      ∀ η, OptimumPath (fun z => F z + q z.1) (toVec n x) (toVec m e) (toVec m d) η →
      ∀ k : ℕ, 1 ≤ k → k ≤ T.order → (T.evaluateDk d k).2 = .ok (List.ofFn (iteratedDeriv k η 0)) := by
  have hK : ContDiff ℝ ∞ fun z : (Fin n → ℝ) × (Fin m → ℝ) => F z + q z.1 := hF.add (hq.contDiff.comp contDiff_fst)
  have hI := Taylor.Inv.run hF calls (Taylor.Inv.of_new hF hev hnew)
  obtain ⟨l, e1⟩ := Taylor.setBase_supplied hI hx he hH.1 hpd
  have hI1 := hI.step hF (.setBase x e (some H))
  rw [Taylor.step] at hI1
  intro T d hd η hη k hk hko
  have hT : T = ((calls.foldl Taylor.step T0).setBaseValues x e (some H)).1 := rfl
  rw [← hT] at hI1
  rw [e1] at hT
  simp only at hT
  have hb : T.base = ⟨H, x, e⟩ := by rw [hT]
  obtain ⟨s1, s2⟩ := TwoObjective.evalFun_ok (hI1.ev x e hx he)
  simp only at s1 s2
  exact Taylor.evaluateDk_quadratic hF hn hm hI1.ready hx he hq (by rw [hb]) (by rw [hb]) (by rw [hb]; exact hH.1)
    (by rw [hb]; exact hH.eq (hK.of_le two_le_infty)) (by rw [hb]; exact hpd.det_pos.ne')
    (by rw [hb, hI1.hfi]; exact s1) (by rw [hb, hI1.hfh]; exact s2) hd hη hk hko

/-- The hypotheses are met by `x² / 2 + x³ / 6 - ε x` with the Hessian 2 supplied at `(0, 0)`, where it is 1. -/
example : (∃ T, Taylor.new (scFn exH) (scPar ninf) (scPar ninf) [0] [0] 2 true false none none = .ok T) ∧
    Evaluates (scPar ninf) (scPar ninf) (scFn exH) true false exHF ∧ (toMatrix 1 1 ⟨[1, 1], [2]⟩).PosDef ∧
    ∃ q, IsQuadPoly q ∧ HessianAt (fun z => exHF z + q z.1) (toVec 1 [0]) (toVec 1 [0]) ⟨[1, 1], [2]⟩ ∧
      ∃ η, OptimumPath (fun z => exHF z + q z.1) (toVec 1 [0]) (toVec 1 [0]) (toVec 1 [1]) η := by
  have hpd : (toMatrix 1 1 ⟨[1, 1], [2]⟩).PosDef := by
    have : toMatrix 1 1 ⟨[1, 1], [2]⟩ = Matrix.diagonal fun _ => (2 : ℝ) := by
      ext i j
      rw [Subsingleton.elim i 0, Subsingleton.elim j 0]
      simp [toMatrix, Arr.at2]
    rw [this]
    exact Matrix.PosDef.diagonal fun _ => by norm_num
  obtain ⟨q, h1, h2, h3⟩ := exists_quadratic exHF_smooth (toVec 1 [0]) (toVec 1 [0]) ⟨[1, 1], [2]⟩ rfl hpd
  obtain ⟨T, h4, -⟩ := C88_second_order_counterexample.2.2.1
  exact ⟨⟨T, h4⟩, exHF_case.1, hpd, q, h1, h2, h3 exHF_case.2.1 _⟩

/-- **C88** at every order: let the objective compute `F`, the functor for the hyperparameter `G`, and let
`F(u, v) = G(u, v) + h(u)`.  The derivatives returned are those of the optimum of `G + q`, where `q` is a quadratic
polynomial with the second derivatives of `h` at the base value. -/
theorem C88_all_orders_partial (hF : ContDiff ℝ ∞ F) (hG : ContDiff ℝ ∞ G) (h : (Fin n → ℝ) → ℝ)
    (hFG : ∀ u v, F (u, v) = G (u, v) + h u) (hn : 0 < n) (hm : 0 < m)
    (objFn hyperFn : Param → Param → Py Arr) (inputPar hyperPar : Param) (hyperIsFree : Bool)
    (hev : Evaluates inputPar hyperPar objFn true hyperIsFree F)
    (hevG : Evaluates inputPar hyperPar hyperFn true hyperIsFree G)
    (x e : List ℝ) (hx : x.length = n) (he : e.length = m)
    (hpc : PositiveCurvature F (toVec n x) (toVec m e)) (order : ℕ) (ho : 1 ≤ order)
    (hess0 : Option Arr) :
    ∃ T, Taylor.new objFn inputPar hyperPar x e order true hyperIsFree hess0 (some hyperFn) = .ok T ∧
      ∀ q : (Fin n → ℝ) → ℝ, IsQuadPoly q → (∀ a : Fin n → ℝ,
        iteratedDeriv 2 (fun t : ℝ => q (toVec n x + t • a)) 0 =
          iteratedDeriv 2 (fun t : ℝ => h (toVec n x + t • a)) 0) →
      ∀ d : List ℝ, d.length = m →
        ∀ η, OptimumPath (fun z => G z + q z.1) (toVec n x) (toVec m e) (toVec m d) η →
        ∀ k : ℕ, 1 ≤ k → k ≤ order → (T.evaluateDk d k).2 = .ok (List.ofFn (iteratedDeriv k η 0)) := by
  obtain ⟨T, h1, h2, h3, h4, h5, h6⟩ := Taylor.new_functor hF hG hn hev hevG hx he hpc ho hess0
  refine ⟨T, h1, fun q hq hqh d hd η hη k hk hko => ?_⟩
  have hF2 := hF.of_le two_le_infty
  have hK : ContDiff ℝ ∞ fun z : (Fin n → ℝ) × (Fin m → ℝ) => G z + q z.1 := hG.add (hq.contDiff.comp contDiff_fst)
  have hh : ContDiff ℝ ∞ h := by
    have e1 : h = fun u => F (u, toVec m e) - G (u, toVec m e) := by
      funext u
      rw [hFG]
      ring
    rw [e1]
    exact (hF.comp (contDiff_id.prodMk contDiff_const)).sub (hG.comp (contDiff_id.prodMk contDiff_const))
  have hline : ∀ a : Fin n → ℝ, ContDiff ℝ 2 fun t : ℝ => toVec n x + t • a := fun a => by fun_prop
  have hlG : ∀ a : Fin n → ℝ, ContDiff ℝ 2 fun t : ℝ => G (toVec n x + t • a, toVec m e) := fun a =>
    (hG.of_le two_le_infty).comp ((hline a).prodMk contDiff_const)
  have hHess : toMatrix n n (hessArr F (toVec n x) (toVec m e)) =
      toMatrix n n (hessArr (fun z => G z + q z.1) (toVec n x) (toVec m e)) := by
    refine hessArr_eq hF2 (hK.of_le two_le_infty) fun a => ?_
    have e1 : (fun t : ℝ => F (toVec n x + t • a, toVec m e)) =
        (fun t : ℝ => G (toVec n x + t • a, toVec m e)) + fun t => h (toVec n x + t • a) := by
      funext t
      rw [hFG]
      rfl
    have e2 : (fun t : ℝ => G (toVec n x + t • a, toVec m e) + q (toVec n x + t • a)) =
        (fun t : ℝ => G (toVec n x + t • a, toVec m e)) + fun t => q (toVec n x + t • a) := rfl
    have e3 : ContDiff ℝ 2 fun t : ℝ => h (toVec n x + t • a) := (hh.of_le two_le_infty).comp (hline a)
    have e4 : ContDiff ℝ 2 fun t : ℝ => q (toVec n x + t • a) := (hq.contDiff.of_le two_le_infty).comp (hline a)
    rw [e1, e2, iteratedDeriv_add (hlG a).contDiffAt e3.contDiffAt,
      iteratedDeriv_add (hlG a).contDiffAt e4.contDiffAt]
    exact congrArg _ (hqh a).symm
  exact Taylor.evaluateDk_quadratic hG hn hm h2 hx he hq (by rw [h3]) (by rw [h3]) (by rw [h3]; rfl)
    (by rw [h3]; exact hHess) (by rw [h3]; exact (hessArr_posDef hF2 hpc).det_pos.ne') h5 h6 hd hη hk
    (by rw [h4]; exact hko)

/-- The hypotheses are met by the objects of the counterexample: at 0 the second derivative of `x³ / 6` is that of the
polynomial 0, and the object follows the optimum of `x² / 2 - ε x`. -/
example : (∀ u v, exHF (u, v) = exQF (u, v) + u 0 ^ 3 / 6) ∧
    IsQuadPoly (fun _ : Fin 1 → ℝ => 0) ∧
    (∀ a : Fin 1 → ℝ, iteratedDeriv 2 (fun t : ℝ => (fun _ : Fin 1 → ℝ => (0 : ℝ)) (toVec 1 [0] + t • a)) 0 =
      iteratedDeriv 2 (fun t : ℝ => (fun u : Fin 1 → ℝ => u 0 ^ 3 / 6) (toVec 1 [0] + t • a)) 0) ∧
    ∃ η, OptimumPath (fun z => exQF z + (fun _ : Fin 1 → ℝ => 0) z.1) (toVec 1 [0]) (toVec 1 [0]) (toVec 1 [1]) η := by
  refine ⟨C88_second_order_counterexample.1, ⟨0, 0, 0, fun u => by simp⟩, fun a => ?_, fun t => toVec 1 [0 + t], ?_⟩
  · have h1 : (fun t : ℝ => (fun u : Fin 1 → ℝ => u 0 ^ 3 / 6) (toVec 1 [0] + t • a)) =
        fun t => (a 0 ^ 3 / 6) * t ^ 3 := by
      funext t
      have : toVec 1 [0] 0 = 0 := rfl
      simp only [Pi.add_apply, this, Pi.smul_apply, smul_eq_mul]
      ring
    rw [h1, iteratedDeriv_const_mul_field, iteratedDeriv_eq_iterate]
    simp
  · simp only [add_zero]
    exact exQF_path 0

/-- **C88** holds at every order when the functor leaves out a quadratic polynomial only. -/
theorem C88_quadratic_partial (hF : ContDiff ℝ ∞ F) (hG : ContDiff ℝ ∞ G) (h : (Fin n → ℝ) → ℝ) (hh : IsQuadPoly h)
    (hFG : ∀ u v, F (u, v) = G (u, v) + h u) (hn : 0 < n) (hm : 0 < m)
    (objFn hyperFn : Param → Param → Py Arr) (inputPar hyperPar : Param) (hyperIsFree : Bool)
    (hev : Evaluates inputPar hyperPar objFn true hyperIsFree F)
    (hevG : Evaluates inputPar hyperPar hyperFn true hyperIsFree G)
    (x e : List ℝ) (hx : x.length = n) (he : e.length = m)
    (hpc : PositiveCurvature F (toVec n x) (toVec m e)) (order : ℕ) (ho : 1 ≤ order)
    (hess0 : Option Arr) :
    ∃ T, Taylor.new objFn inputPar hyperPar x e order true hyperIsFree hess0 (some hyperFn) = .ok T ∧
      ∀ d : List ℝ, d.length = m → ∀ η, OptimumPath F (toVec n x) (toVec m e) (toVec m d) η →
        ∀ k : ℕ, 1 ≤ k → k ≤ order → (T.evaluateDk d k).2 = .ok (List.ofFn (iteratedDeriv k η 0)) := by
  obtain ⟨T, h1, h2⟩ := C88_all_orders_partial hF hG h hFG hn hm objFn hyperFn inputPar hyperPar hyperIsFree hev hevG x e
    hx he hpc order ho hess0
  refine ⟨T, h1, fun d hd η hη => h2 h hh (fun _ => rfl) d hd η ?_⟩
  rwa [show (fun z : (Fin n → ℝ) × (Fin m → ℝ) => G z + h z.1) = F from funext fun z => (hFG z.1 z.2).symm]

/-- The hypotheses are met by `x² / 2 + x³ / 6 - ε x` with the functor `x³ / 6 - ε x`, which leaves out `x² / 2`. -/
example : Evaluates (scPar ninf) (scPar ninf) (scFn exH) true false exHF ∧
    Evaluates (scPar ninf) (scPar ninf) (scFn fun x ε => x ^ 3 / 6 - ε * x) true false
      (fun z : (Fin 1 → ℝ) × (Fin 1 → ℝ) => z.1 0 ^ 3 / 6 - z.2 0 * z.1 0) ∧
    IsQuadPoly (fun u : Fin 1 → ℝ => u 0 ^ 2 / 2) ∧
    (∀ u v, exHF (u, v) = (fun z : (Fin 1 → ℝ) × (Fin 1 → ℝ) => z.1 0 ^ 3 / 6 - z.2 0 * z.1 0) (u, v) +
      (fun u : Fin 1 → ℝ => u 0 ^ 2 / 2) u) ∧
    PositiveCurvature exHF (toVec 1 [0]) (toVec 1 [0]) ∧
    ∃ η, OptimumPath exHF (toVec 1 [0]) (toVec 1 [0]) (toVec 1 [1]) η := by
  refine ⟨exHF_case.1, scFn_real _ true false, ⟨1, 0, 0, fun u => ?_⟩, fun u v => ?_, exHF_case.2.2,
    C88_second_order_counterexample.2.2.2.1⟩
  · simp [dotProduct]
    ring
  · simp only [exHF, exH]
    ring

end

end LRVB
