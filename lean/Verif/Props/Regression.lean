import Verif.Lemmas.Einsum
import Verif.Lemmas.MvnDensity
import Verif.Spec.Regression
import Verif.Props.Normal

/-!
# Regression coefficients and their posterior: C79, C80
-/

namespace LRVB

open Arr Matrix Regression MeasureTheory ProbabilityTheory

noncomputable section

/-! ### The arrays the functions return -/

/-- An array from a matrix for every batch index. -/
def batchMat (b : List ℕ) (r t : ℕ) (M : List ℕ → Matrix (Fin r) (Fin t) ℝ) : Arr :=
  ofBatch b r t fun bi i j => if h : i < r ∧ j < t then M bi ⟨i, h.1⟩ ⟨j, h.2⟩ else 0

/-- An array from a vector for every batch index. -/
def batchVec (b : List ℕ) (r : ℕ) (v : List ℕ → Fin r → ℝ) : Arr :=
  ofBatch1 b r fun bi i => if h : i < r then v bi ⟨i, h⟩ else 0

theorem batchMat_arr (b : List ℕ) (r t : ℕ) (M : List ℕ → Matrix (Fin r) (Fin t) ℝ) :
    IsArr (batchMat b r t M) (b ++ [r, t]) := ofFn_arr _ _

theorem batchVec_arr (b : List ℕ) (r : ℕ) (v : List ℕ → Fin r → ℝ) :
    IsArr (batchVec b r v) (b ++ [r]) := ofFn_arr _ _

theorem matAt_batchMat {b bi : List ℕ} {r t : ℕ} (M : List ℕ → Matrix (Fin r) (Fin t) ℝ)
    (h : InShape bi b) : matAt (batchMat b r t M) bi r t = M bi := by
  ext i j
  simp only [matAt, of_apply, batchMat]
  rw [get_ofBatch _ h i.2 j.2, dif_pos ⟨i.2, j.2⟩]

theorem vecAt_batchVec {b bi : List ℕ} {r : ℕ} (v : List ℕ → Fin r → ℝ) (h : InShape bi b) :
    vecAt (batchVec b r v) bi r = v bi := by
  funext i
  simp only [vecAt, batchVec]
  rw [get_ofBatch1 _ h i.2, dif_pos i.2]

theorem eq_batchMat {a : Arr} {b : List ℕ} {r t : ℕ} (h : IsArr a (b ++ [r, t])) :
    a = batchMat b r t fun bi => matAt a bi r t := by
  conv_lhs => rw [eq_ofBatch h]
  refine ofBatch_congr fun bi _ i hi j hj => ?_
  rw [dif_pos ⟨hi, hj⟩]
  rfl

theorem eq_batchVec {a : Arr} {b : List ℕ} {r : ℕ} (h : IsArr a (b ++ [r])) :
    a = batchVec b r fun bi => vecAt a bi r := by
  conv_lhs => rw [eq_ofBatch1 h]
  refine ofBatch1_congr fun bi _ i hi => ?_
  rw [dif_pos hi]
  rfl

theorem batchMat_congr {b : List ℕ} {r t : ℕ} {M N : List ℕ → Matrix (Fin r) (Fin t) ℝ}
    (h : ∀ bi, InShape bi b → M bi = N bi) : batchMat b r t M = batchMat b r t N :=
  ofBatch_congr fun bi hb i hi j hj => by rw [h bi hb]

theorem batchVec_congr {b : List ℕ} {r : ℕ} {v w : List ℕ → Fin r → ℝ}
    (h : ∀ bi, InShape bi b → v bi = w bi) : batchVec b r v = batchVec b r w :=
  ofBatch1_congr fun bi hb i hi => by rw [h bi hb]

theorem map_batchMat (b : List ℕ) (r t : ℕ) (M : List ℕ → Matrix (Fin r) (Fin t) ℝ) (c : ℝ)
    {g : ℝ → ℝ} (hg : ∀ v, g v = c * v) :
    (batchMat b r t M).map g = batchMat b r t fun bi => c • M bi := by
  unfold batchMat
  rw [map_ofBatch]
  refine ofBatch_congr fun bi _ i hi j hj => ?_
  rw [dif_pos ⟨hi, hj⟩, dif_pos ⟨hi, hj⟩, hg]
  rfl

theorem add_batchMat (b : List ℕ) (r t : ℕ) (M N : List ℕ → Matrix (Fin r) (Fin t) ℝ) :
    (batchMat b r t M).add (batchMat b r t N) = .ok (batchMat b r t fun bi => M bi + N bi) := by
  unfold batchMat
  rw [add_ofBatch]
  congr 1
  refine ofBatch_congr fun bi _ i hi j hj => ?_
  rw [dif_pos ⟨hi, hj⟩, dif_pos ⟨hi, hj⟩, dif_pos ⟨hi, hj⟩]
  rfl

theorem add_batchVec (b : List ℕ) (r : ℕ) (v w : List ℕ → Fin r → ℝ) :
    (batchVec b r v).add (batchVec b r w) = .ok (batchVec b r fun bi => v bi + w bi) := by
  unfold batchVec
  rw [add_ofBatch1]
  congr 1
  refine ofBatch1_congr fun bi _ i hi => ?_
  rw [dif_pos hi, dif_pos hi, dif_pos hi]
  rfl

theorem matMul_batchMat (b : List ℕ) (s r t : ℕ) (M : List ℕ → Matrix (Fin s) (Fin r) ℝ)
    (N : List ℕ → Matrix (Fin s) (Fin t) ℝ) :
    matMulLast2dims (batchMat b s r M) (batchMat b s t N) =
      .ok (batchMat b r t fun bi => (M bi)ᵀ * N bi) := by
  unfold batchMat
  rw [matMul_ofBatch]
  congr 1
  refine ofBatch_congr fun bi _ i hi j hj => ?_
  rw [dif_pos ⟨hi, hj⟩, Finset.sum_range]
  refine Eq.trans ?_ (Matrix.mul_apply).symm
  refine Finset.sum_congr rfl fun k _ => ?_
  rw [dif_pos ⟨k.2, hi⟩, dif_pos ⟨k.2, hj⟩]
  rfl

theorem matvec_batch (b e : List ℕ) (s r : ℕ) (M : List ℕ → Matrix (Fin s) (Fin r) ℝ) {y : Arr}
    (hy : IsArr y (b ++ e ++ [s])) :
    matvecMulLast2dims (batchMat b s r M) y = .ok (batchVec b r fun bi =>
      ((indexProduct e).map fun ei => (M bi)ᵀ *ᵥ vecAt y (bi ++ ei) s).sum) := by
  unfold batchMat
  rw [matvec_eq b e s r _ y hy.2]
  congr 1
  refine ofBatch1_congr fun bi _ i hi => ?_
  rw [dif_pos hi]
  beta_reduce
  generalize indexProduct e = E
  induction E with
  | nil => rfl
  | cons ei E ih =>
    rw [List.map_cons, List.sum_cons, ih, List.map_cons, List.sum_cons, Pi.add_apply]
    congr 1
    rw [Finset.sum_range]
    simp only [Matrix.mulVec, dotProduct]
    refine Finset.sum_congr rfl fun k _ => ?_
    rw [dif_pos ⟨k.2, hi⟩]
    rfl

theorem inv_batchMat (b : List ℕ) (r : ℕ) (M : List ℕ → Matrix (Fin r) (Fin r) ℝ)
    (h : ∀ bi, InShape bi b → (M bi).det ≠ 0) :
    (batchMat b r r M).inv = .ok (batchMat b r r fun bi => (M bi)⁻¹) := by
  have hg : ∀ bi, InShape bi b →
      (Matrix.of fun i j : Fin r => (batchMat b r r M).get (bi ++ [(i : ℕ), (j : ℕ)])) = M bi :=
    fun bi hb => matAt_batchMat M hb
  have hs : (batchMat b r r M).shape.reverse = r :: r :: b.reverse := by
    simp [(batchMat_arr b r r M).2]
  unfold Arr.inv
  rw [hs]
  simp only [ne_eq, not_true_eq_false, if_false, List.reverse_reverse, List.length_reverse]
  rw [if_neg]
  · congr 1
    unfold batchMat
    conv_rhs => unfold ofBatch
    refine ofFn_congr fun idx hidx => ?_
    obtain ⟨bi, i, j, rfl, h1, h2, h3⟩ := exists_of_forall₂_batch hidx
    obtain ⟨e1, e2, e3⟩ := batch_split (i := i) (j := j) h1.length_eq
    simp only [e1, e2, e3]
    rw [dif_pos ⟨h2, h3⟩, dif_pos ⟨h2, h3⟩]
    have := hg bi h1
    unfold batchMat at this
    rw [this]
  · rintro ⟨bi, hb, hd⟩
    rw [hg bi (mem_indexProduct.1 hb)] at hd
    exact h bi (mem_indexProduct.1 hb) hd

theorem tile_eye (b : List ℕ) (r : ℕ) : tile (eye r) (b ++ [1, 1]) = batchMat b r r fun _ => 1 := by
  unfold tile batchMat ofBatch
  have hn : max (eye r).shape.length (b ++ [1, 1]).length = b.length + 2 := by
    simp [eye, ofFn2]
  have h1 : padLeft (b.length + 2) (eye r).shape = List.replicate b.length 1 ++ [r, r] := by
    simp [padLeft, eye, ofFn2]
  have h2 : padLeft (b.length + 2) (b ++ [1, 1]) = b ++ [1, 1] := by simp [padLeft]
  have h3 : List.zipWith (· * ·) (List.replicate b.length 1 ++ [r, r]) (b ++ [1, 1]) = b ++ [r, r] := by
    rw [List.zipWith_append (by simp)]
    congr 1
    · clear hn h1 h2
      induction b with
      | nil => rfl
      | cons a b ih => simpa [List.replicate_succ] using ih
    · simp
  simp only [hn, h1, h2, h3]
  refine ofFn_congr fun idx hidx => ?_
  obtain ⟨bi, i, j, rfl, hb, hi, hj⟩ := exists_of_forall₂_batch hidx
  obtain ⟨e1, e2, e3⟩ := batch_split (i := i) (j := j) hb.length_eq
  simp only [e2, e3]
  rw [dif_pos ⟨hi, hj⟩]
  have h4 : (List.zipWith (fun d i => i % d) (List.replicate b.length 1 ++ [r, r]) (bi ++ [i, j])).drop
      (b.length + 2 - (eye r).shape.length) = [i, j] := by
    rw [List.zipWith_append (by simp [hb.length_eq])]
    have : b.length + 2 - (eye r).shape.length = b.length := by simp [eye, ofFn2]
    rw [this, List.drop_left' (by simp [hb.length_eq])]
    simp [Nat.mod_eq_of_lt hi, Nat.mod_eq_of_lt hj]
  rw [h4, get_two rfl, eye, at2_ofFn2 _ _ _ hi hj, Matrix.one_apply]
  simp only [Fin.mk.injEq, e2, e3]

theorem infoTimes_ok {b : List ℕ} {s r : ℕ} {x : Arr} (hx : IsArr x (b ++ [s, r])) {info : Info}
    (hi : InfoShape info b s) (hsym : ∀ bi, InShape bi b → (weightAt info bi s).IsSymm) :
    infoTimes x info = .ok (batchMat b s r fun bi => weightAt info bi s * matAt x bi s r) := by
  cases info with
  | scalar c =>
    simp only [infoTimes, weightAt]
    conv_lhs => rw [eq_batchMat hx]
    rw [map_batchMat _ _ _ _ c fun v => mul_comm v c]
    congr 1
    exact batchMat_congr fun bi _ => by rw [Matrix.smul_mul, Matrix.one_mul]
  | arr a =>
    have ha : IsArr a (b ++ [s, s]) := hi
    simp only [infoTimes, ha.2, hx.2, fromEnd_one', fromEnd_two, py_ok_bind]
    rw [assert_ok trivial, py_ok_bind, py_ok_bind, assert_ok (by simp), py_ok_bind]
    conv_lhs => rw [eq_batchMat hx, eq_batchMat ha]
    rw [matMul_batchMat]
    congr 1
    exact batchMat_congr fun bi hb => by
      have := hsym bi hb
      rw [weightAt] at this ⊢
      rw [this]

theorem likelihood_ok {b e : List ℕ} {s r : ℕ} {y x : Arr} (hy : IsArr y (b ++ e ++ [s]))
    (hx : IsArr x (b ++ [s, r])) {info : Info} (hi : InfoShape info b s)
    (hsym : ∀ bi, InShape bi b → (weightAt info bi s).IsSymm) :
    getNatParamsFromLikelihood y x info = .ok
      (batchVec b r fun bi => ((indexProduct e).map fun ei =>
        (weightAt info bi s * matAt x bi s r)ᵀ *ᵥ vecAt y (bi ++ ei) s).sum,
       batchMat b r r fun bi => (-0.5 * (e.prod : ℝ)) •
        ((matAt x bi s r)ᵀ * (weightAt info bi s * matAt x bi s r))) := by
  unfold getNatParamsFromLikelihood
  simp only [hy.2, hx.2, fromEnd_one, fromEnd_two, py_ok_bind]
  rw [assert_ok trivial, py_ok_bind, assert_ok (by simp), py_ok_bind, infoTimes_ok hx hi hsym,
    py_ok_bind, matvec_batch b e s r _ hy, py_ok_bind]
  have h1 : (((b ++ e ++ [s]).take ((b ++ e ++ [s]).length - 1)).drop ((b ++ [s, r]).length - 2)) = e := by
    have : (b ++ e ++ [s]).length - 1 = (b ++ e).length := by simp
    rw [this, take_left_of rfl]
    simp
  conv_lhs =>
    enter [1]
    rw [eq_batchMat hx]
  rw [matMul_batchMat, py_ok_bind, h1]
  congr 2
  rw [map_batchMat _ _ _ _ (-0.5 * (e.prod : ℝ)) fun v => by ring]
  exact batchMat_congr fun bi hb => by rw [matAt_batchMat _ hb]

theorem mvn_ok {b : List ℕ} {r : ℕ} (v : List ℕ → Fin r → ℝ) (M : List ℕ → Matrix (Fin r) (Fin r) ℝ)
    (hd : ∀ bi, InShape bi b → ((-2 : ℝ) • M bi).det ≠ 0) :
    getMvnFromNatParams (batchVec b r v) (batchMat b r r M) = .ok
      (batchVec b r fun bi => (((-2 : ℝ) • M bi)⁻¹)ᵀ *ᵥ v bi, batchMat b r r fun bi => (-2 : ℝ) • M bi) := by
  unfold getMvnFromNatParams
  rw [map_batchMat _ _ _ _ (-2) fun v => rfl]
  simp only
  rw [inv_batchMat _ _ _ hd, py_ok_bind,
    matvec_batch b [] r r _ (by simpa using batchVec_arr b r v), py_ok_bind]
  congr 2
  refine batchVec_congr fun bi hb => ?_
  simp [indexProduct, vecAt_batchVec v hb]

/-! ### Completing the square -/

section Algebra

variable {s r : ℕ} (X : Matrix (Fin s) (Fin r) ℝ) (W : Matrix (Fin s) (Fin s) ℝ)

theorem symm_dot {n : ℕ} {A : Matrix (Fin n) (Fin n) ℝ} (hA : A.IsSymm) (u v : Fin n → ℝ) :
    u ⬝ᵥ (A *ᵥ v) = v ⬝ᵥ (A *ᵥ u) := by
  rw [dotProduct_mulVec, ← mulVec_transpose, hA, dotProduct_comm]

/-- The criterion as a polynomial in the coefficients. -/
theorem wls_expand (hW : W.IsSymm) (Ys : List (Fin s → ℝ)) (β : Fin r → ℝ) :
    (Ys.map fun Y => (Y - X *ᵥ β) ⬝ᵥ (W *ᵥ (Y - X *ᵥ β))).sum =
      (Ys.map fun Y => Y ⬝ᵥ (W *ᵥ Y)).sum - 2 * (β ⬝ᵥ (Ys.map fun Y => (W * X)ᵀ *ᵥ Y).sum) +
        Ys.length * (β ⬝ᵥ ((Xᵀ * (W * X)) *ᵥ β)) := by
  induction Ys with
  | nil => simp
  | cons Y Ys ih =>
    simp only [List.map_cons, List.sum_cons, ih, List.length_cons, dotProduct_add]
    have h1 : (Y - X *ᵥ β) ⬝ᵥ (W *ᵥ (Y - X *ᵥ β)) = Y ⬝ᵥ (W *ᵥ Y) - 2 * (Y ⬝ᵥ (W *ᵥ (X *ᵥ β))) +
        (X *ᵥ β) ⬝ᵥ (W *ᵥ (X *ᵥ β)) := by
      rw [mulVec_sub, dotProduct_sub, sub_dotProduct, sub_dotProduct,
        symm_dot hW (X *ᵥ β) Y]
      ring
    have h2 : β ⬝ᵥ ((W * X)ᵀ *ᵥ Y) = Y ⬝ᵥ (W *ᵥ (X *ᵥ β)) := by
      rw [mulVec_mulVec, dotProduct_mulVec, vecMul_transpose, dotProduct_comm]
    have h3 : (X *ᵥ β) ⬝ᵥ (W *ᵥ (X *ᵥ β)) = β ⬝ᵥ ((Xᵀ * (W * X)) *ᵥ β) := by
      rw [← mulVec_mulVec, ← mulVec_mulVec, dotProduct_mulVec β, vecMul_transpose]
    rw [h1, h2, h3]
    push_cast
    ring

/-- Completing the square around `L⁻¹ v`. -/
theorem complete_square {L : Matrix (Fin r) (Fin r) ℝ} (hL : L.IsSymm) (hd : L.det ≠ 0)
    (v β : Fin r → ℝ) :
    β ⬝ᵥ (L *ᵥ β) - 2 * (β ⬝ᵥ v) = quadForm ((L⁻¹)ᵀ *ᵥ v) L β - v ⬝ᵥ (L⁻¹ *ᵥ v) := by
  have hs : (L⁻¹)ᵀ = L⁻¹ := by rw [transpose_nonsing_inv, hL]
  have hm : L *ᵥ (L⁻¹ *ᵥ v) = v := by
    rw [mulVec_mulVec, mul_nonsing_inv _ (isUnit_iff_ne_zero.2 hd), one_mulVec]
  unfold quadForm
  rw [hs, mulVec_sub, hm, dotProduct_sub, sub_dotProduct, sub_dotProduct,
    symm_dot hL (L⁻¹ *ᵥ v) β, hm, dotProduct_comm (L⁻¹ *ᵥ v) v]
  ring

end Algebra

/-! ### The properties -/

/-- **C80** The natural parameters of the likelihood: for symmetric weights, the pair returned by
`get_nat_params_from_likelihood` holds the coefficients of `β` and of `β βᵀ` in the log likelihood
`-wls(β) / 2`, at every batch index. -/
theorem C80_likelihood_natural_parameters (b e : List ℕ) (s r : ℕ) (y x : Arr) (info : Info)
    (hy : IsArr y (b ++ e ++ [s])) (hx : IsArr x (b ++ [s, r])) (hi : InfoShape info b s)
    (hsym : ∀ bi, InShape bi b → (weightAt info bi s).IsSymm) :
    ∃ n1 n2, getNatParamsFromLikelihood y x info = .ok (n1, n2) ∧ IsArr n1 (b ++ [r]) ∧
      IsArr n2 (b ++ [r, r]) ∧ ∀ bi, InShape bi b → (matAt n2 bi r r).IsSymm ∧
        ∃ c : ℝ, ∀ β : Fin r → ℝ, -0.5 * wls y x info e bi s r β =
          vecAt n1 bi r ⬝ᵥ β + β ⬝ᵥ (matAt n2 bi r r *ᵥ β) + c := by
  refine ⟨_, _, likelihood_ok hy hx hi hsym, batchVec_arr _ _ _, batchMat_arr _ _ _ _,
    fun bi hb => ⟨?_, -0.5 * ((indexProduct e).map fun ei =>
      vecAt y (bi ++ ei) s ⬝ᵥ (weightAt info bi s *ᵥ vecAt y (bi ++ ei) s)).sum, fun β => ?_⟩⟩
  · rw [matAt_batchMat _ hb, Matrix.IsSymm, transpose_smul, transpose_mul, transpose_mul,
      transpose_transpose, hsym bi hb, Matrix.mul_assoc]
  · rw [matAt_batchMat _ hb, vecAt_batchVec _ hb]
    have := wls_expand (matAt x bi s r) (weightAt info bi s) (hsym bi hb)
      ((indexProduct e).map fun ei => vecAt y (bi ++ ei) s) β
    simp only [List.map_map, Function.comp_def, List.length_map, indexProduct_length] at this
    rw [wls, this, dotProduct_comm _ β, smul_mulVec, dotProduct_smul, smul_eq_mul]
    norm_num
    ring

/-- **C79** For every batch index, `get_regression_coefficients` returns the unique minimizer of the
weighted least squares criterion pooled over the replicated responses, for every symmetric positive
semidefinite weight matrix with invertible weighted Gram matrix. -/
theorem C79_minimizer (b e : List ℕ) (s r : ℕ) (y x : Arr) (info : Info)
    (hy : IsArr y (b ++ e ++ [s])) (hx : IsArr x (b ++ [s, r])) (hi : InfoShape info b s)
    (he : e.prod ≠ 0) (hpsd : ∀ bi, InShape bi b → (weightAt info bi s).PosSemidef)
    (hgram : ∀ bi, InShape bi b →
      ((matAt x bi s r)ᵀ * weightAt info bi s * matAt x bi s r).det ≠ 0) :
    ∃ m, getRegressionCoefficients y x info = .ok m ∧ IsArr m (b ++ [r]) ∧
      ∀ bi, InShape bi b → ∀ β : Fin r → ℝ, β ≠ vecAt m bi r →
        wls y x info e bi s r (vecAt m bi r) < wls y x info e bi s r β := by
  have hsym : ∀ bi, InShape bi b → (weightAt info bi s).IsSymm := by
    intro bi hb
    have := (hpsd bi hb).1
    rwa [Matrix.IsHermitian, conjTranspose_eq_transpose_of_trivial] at this
  have he' : (0 : ℝ) < e.prod := by exact_mod_cast Nat.pos_of_ne_zero he
  set G : List ℕ → Matrix (Fin r) (Fin r) ℝ := fun bi =>
    (matAt x bi s r)ᵀ * (weightAt info bi s * matAt x bi s r) with hG
  have hL : ∀ bi, (-2 : ℝ) • ((-0.5 * (e.prod : ℝ)) • G bi) = (e.prod : ℝ) • G bi := by
    intro bi
    rw [smul_smul]
    congr 1
    norm_num
    ring
  have hdG : ∀ bi, InShape bi b → (G bi).det ≠ 0 := fun bi hb => by
    simp only [hG, ← Matrix.mul_assoc]
    exact hgram bi hb
  have hd : ∀ bi, InShape bi b → ((-2 : ℝ) • ((-0.5 * (e.prod : ℝ)) • G bi)).det ≠ 0 := by
    intro bi hb
    rw [hL, det_smul]
    exact mul_ne_zero (pow_ne_zero _ he'.ne') (hdG bi hb)
  refine ⟨_, by
    unfold getRegressionCoefficients
    rw [likelihood_ok hy hx hi hsym, py_ok_bind, mvn_ok _ _ hd, py_ok_bind], batchVec_arr _ _ _,
    fun bi hb β hβ => ?_⟩
  rw [vecAt_batchVec _ hb] at hβ ⊢
  set v : Fin r → ℝ := ((indexProduct e).map fun ei =>
    (weightAt info bi s * matAt x bi s r)ᵀ *ᵥ vecAt y (bi ++ ei) s).sum with hv
  rw [hL] at hβ ⊢
  set L := (e.prod : ℝ) • G bi with hLdef
  have hpd : L.PosDef := by
    have h1 : (G bi).PosSemidef := by
      have := (hpsd bi hb).conjTranspose_mul_mul_same (matAt x bi s r)
      rwa [conjTranspose_eq_transpose_of_trivial, Matrix.mul_assoc] at this
    have h2 : (G bi).PosDef := h1.posDef_iff_det_ne_zero.2 (hdG bi hb)
    exact h2.smul he'
  have hLs : L.IsSymm := by
    have := hpd.1
    rwa [Matrix.IsHermitian, conjTranspose_eq_transpose_of_trivial] at this
  have key : ∀ β : Fin r → ℝ, wls y x info e bi s r β = quadForm ((L⁻¹)ᵀ *ᵥ v) L β +
      (((indexProduct e).map fun ei =>
        vecAt y (bi ++ ei) s ⬝ᵥ (weightAt info bi s *ᵥ vecAt y (bi ++ ei) s)).sum -
          v ⬝ᵥ (L⁻¹ *ᵥ v)) := by
    intro β
    have h1 := wls_expand (matAt x bi s r) (weightAt info bi s) (hsym bi hb)
      ((indexProduct e).map fun ei => vecAt y (bi ++ ei) s) β
    simp only [List.map_map, Function.comp_def, List.length_map, indexProduct_length] at h1
    have h2 := complete_square hLs hpd.det_pos.ne' v β
    rw [hLdef, smul_mulVec, dotProduct_smul, smul_eq_mul, ← hLdef] at h2
    rw [wls, h1]
    linarith
  rw [key, key]
  have h0 : quadForm ((L⁻¹)ᵀ *ᵥ v) L ((L⁻¹)ᵀ *ᵥ v) = 0 := by simp [quadForm]
  have h1 : 0 < quadForm ((L⁻¹)ᵀ *ᵥ v) L β := by
    have := hpd.dotProduct_mulVec_pos (sub_ne_zero.2 hβ)
    simpa [quadForm] using this
  linarith

theorem prior_ok {b : List ℕ} {r : ℕ} {m i : Arr} (hm : IsArr m (b ++ [r]))
    (hi : IsArr i (b ++ [r, r])) (hsym : ∀ bi, InShape bi b → (matAt i bi r r).IsSymm) :
    getNatParamsFromPrior m i = .ok (batchVec b r fun bi => matAt i bi r r *ᵥ vecAt m bi r,
      batchMat b r r fun bi => (-0.5 : ℝ) • matAt i bi r r) := by
  unfold getNatParamsFromPrior
  simp only [hm.2, hi.2, fromEnd_one, fromEnd_one', fromEnd_two, py_ok_bind]
  rw [assert_ok trivial, py_ok_bind, py_ok_bind, assert_ok (by simp), py_ok_bind]
  rw [List.dropLast_concat, tile_eye, likelihood_ok (e := []) (by simpa using hm)
    (batchMat_arr b r r _) (info := .arr i) hi hsym]
  congr 2
  · refine batchVec_congr fun bi hb => ?_
    have h := hsym bi hb
    simp [indexProduct, matAt_batchMat _ hb, weightAt, h.eq]
  · refine batchMat_congr fun bi hb => ?_
    simp [matAt_batchMat _ hb, weightAt]

/-- **C80** Converting prior means and symmetric invertible prior information matrices to natural
parameters and back returns them. -/
theorem C80_prior_round_trip (b : List ℕ) (r : ℕ) (m i : Arr) (hm : IsArr m (b ++ [r]))
    (hi : IsArr i (b ++ [r, r])) (hsym : ∀ bi, InShape bi b → (matAt i bi r r).IsSymm)
    (hd : ∀ bi, InShape bi b → (matAt i bi r r).det ≠ 0) :
    ∃ n1 n2, getNatParamsFromPrior m i = .ok (n1, n2) ∧ getMvnFromNatParams n1 n2 = .ok (m, i) := by
  have h2 : ∀ bi, (-2 : ℝ) • ((-0.5 : ℝ) • matAt i bi r r) = matAt i bi r r := by
    intro bi
    rw [smul_smul]
    norm_num
  refine ⟨_, _, prior_ok hm hi hsym, ?_⟩
  rw [mvn_ok _ _ (fun bi hb => by rw [h2]; exact hd bi hb)]
  congr 2
  · rw [eq_batchVec hm]
    refine batchVec_congr fun bi hb => ?_
    rw [← eq_batchVec hm, h2, mulVec_mulVec, transpose_nonsing_inv, (hsym bi hb).eq,
      nonsing_inv_mul _ (isUnit_iff_ne_zero.2 (hd bi hb)), one_mulVec]
  · rw [eq_batchMat hi]
    refine batchMat_congr fun bi hb => ?_
    rw [← eq_batchMat hi, h2]

theorem sum_quad {r : ℕ} (m : Fin r → ℝ) (L : Matrix (Fin r) (Fin r) ℝ) (x : Fin r → ℝ) :
    ∑ j, ∑ k, (x j - m j) * L j k * (x k - m k) = quadForm m L x := by
  simp only [quadForm, dotProduct, Matrix.mulVec, Pi.sub_apply, Finset.mul_sum]
  exact Finset.sum_congr rfl fun j _ => Finset.sum_congr rfl fun k _ => by ring

/-- **C80** Bayes' rule: for symmetric positive semidefinite weights and positive definite prior
information matrices, `get_posterior_regression_coefficients` returns the mean and the (positive
definite) information matrix of the posterior distribution of the coefficients: at every batch
index, reweighting the normal prior by the likelihood `exp(-wls(β) / 2)` gives the normal
distribution with the returned parameters, up to the normalizing constant. -/
theorem C80_posterior (b e : List ℕ) (s r : ℕ) (y x : Arr) (info : Info) (m₀ i₀ : Arr)
    (hy : IsArr y (b ++ e ++ [s])) (hx : IsArr x (b ++ [s, r])) (hi : InfoShape info b s)
    (hpsd : ∀ bi, InShape bi b → (weightAt info bi s).PosSemidef)
    (hm₀ : IsArr m₀ (b ++ [r])) (hi₀ : IsArr i₀ (b ++ [r, r]))
    (hpd₀ : ∀ bi, InShape bi b → (matAt i₀ bi r r).PosDef) :
    ∃ m i, getPosteriorRegressionCoefficients y x info m₀ i₀ = .ok (m, i) ∧ IsArr m (b ++ [r]) ∧
      IsArr i (b ++ [r, r]) ∧ ∀ bi, InShape bi b → (matAt i bi r r).PosDef ∧
        ∃ C : ENNReal, C ≠ 0 ∧ C ≠ ⊤ ∧
          (multivariateGaussian (WithLp.toLp 2 (vecAt m₀ bi r)) (matAt i₀ bi r r)⁻¹).withDensity
              (fun β => ENNReal.ofReal (Real.exp (-wls y x info e bi s r β.ofLp / 2))) =
            C • multivariateGaussian (WithLp.toLp 2 (vecAt m bi r)) (matAt i bi r r)⁻¹ := by
  have symm_of : ∀ {n : ℕ} {A : Matrix (Fin n) (Fin n) ℝ}, A.IsHermitian → A.IsSymm := by
    intro n A h
    rwa [Matrix.IsHermitian, conjTranspose_eq_transpose_of_trivial] at h
  have hsym : ∀ bi, InShape bi b → (weightAt info bi s).IsSymm := fun bi hb => symm_of (hpsd bi hb).1
  have hsym₀ : ∀ bi, InShape bi b → (matAt i₀ bi r r).IsSymm := fun bi hb => symm_of (hpd₀ bi hb).1
  set G : List ℕ → Matrix (Fin r) (Fin r) ℝ := fun bi =>
    (matAt x bi s r)ᵀ * (weightAt info bi s * matAt x bi s r) with hG
  set L : List ℕ → Matrix (Fin r) (Fin r) ℝ := fun bi => (e.prod : ℝ) • G bi + matAt i₀ bi r r
    with hLdef
  have hL : ∀ bi, (-2 : ℝ) • ((-0.5 * (e.prod : ℝ)) • G bi + (-0.5 : ℝ) • matAt i₀ bi r r) = L bi := by
    intro bi
    rw [hLdef, smul_add, smul_smul, smul_smul]
    congr 2
    · ring
    · norm_num
  have hpd : ∀ bi, InShape bi b → (L bi).PosDef := by
    intro bi hb
    have h1 : (G bi).PosSemidef := by
      have := (hpsd bi hb).conjTranspose_mul_mul_same (matAt x bi s r)
      rwa [conjTranspose_eq_transpose_of_trivial, Matrix.mul_assoc] at this
    have h2 : ((e.prod : ℝ) • G bi).PosSemidef := h1.smul (Nat.cast_nonneg e.prod)
    exact Matrix.PosDef.posSemidef_add h2 (hpd₀ bi hb)
  refine ⟨_, _, by
    unfold getPosteriorRegressionCoefficients
    rw [likelihood_ok hy hx hi hsym, py_ok_bind, prior_ok hm₀ hi₀ hsym₀, py_ok_bind]
    simp only
    rw [add_batchVec, py_ok_bind, add_batchMat, py_ok_bind, mvn_ok _ _ (fun bi hb => by
      rw [hL]; exact (hpd bi hb).det_pos.ne')], batchVec_arr _ _ _, batchMat_arr _ _ _ _,
    fun bi hb => ?_⟩
  rw [matAt_batchMat _ hb, vecAt_batchVec _ hb, hL]
  refine ⟨hpd bi hb, ?_⟩
  set v : Fin r → ℝ := ((indexProduct e).map fun ei =>
    (weightAt info bi s * matAt x bi s r)ᵀ *ᵥ vecAt y (bi ++ ei) s).sum with hv
  set w := matAt i₀ bi r r *ᵥ vecAt m₀ bi r with hw
  obtain ⟨K, hK⟩ : ∃ K : ℝ, ∀ β : Fin r → ℝ, wls y x info e bi s r β +
      quadForm (vecAt m₀ bi r) (matAt i₀ bi r r) β =
        quadForm (((L bi)⁻¹)ᵀ *ᵥ (v + w)) (L bi) β + K := by
    refine ⟨((indexProduct e).map fun ei =>
        vecAt y (bi ++ ei) s ⬝ᵥ (weightAt info bi s *ᵥ vecAt y (bi ++ ei) s)).sum -
          (v + w) ⬝ᵥ ((L bi)⁻¹ *ᵥ (v + w)) + vecAt m₀ bi r ⬝ᵥ w, fun β => ?_⟩
    have h1 := wls_expand (matAt x bi s r) (weightAt info bi s) (hsym bi hb)
      ((indexProduct e).map fun ei => vecAt y (bi ++ ei) s) β
    simp only [List.map_map, Function.comp_def, List.length_map, indexProduct_length] at h1
    have h2 := complete_square (symm_of (hpd bi hb).1) (hpd bi hb).det_pos.ne' (v + w) β
    have h3 : quadForm (vecAt m₀ bi r) (matAt i₀ bi r r) β =
        β ⬝ᵥ (matAt i₀ bi r r *ᵥ β) - 2 * (β ⬝ᵥ w) + vecAt m₀ bi r ⬝ᵥ w := by
      rw [quadForm, mulVec_sub, dotProduct_sub, sub_dotProduct, sub_dotProduct,
        symm_dot (hsym₀ bi hb) (vecAt m₀ bi r) β]
      ring
    have h4 : β ⬝ᵥ (L bi *ᵥ β) = (e.prod : ℝ) * (β ⬝ᵥ (G bi *ᵥ β)) + β ⬝ᵥ (matAt i₀ bi r r *ᵥ β) := by
      rw [hLdef, add_mulVec, dotProduct_add, smul_mulVec, dotProduct_smul, smul_eq_mul]
    rw [dotProduct_add] at h2
    rw [wls, h1, h3]
    linarith
  set c : ℝ := Real.exp (-K / 2) * (√(matAt i₀ bi r r).det / √(L bi).det) with hc
  have hd₀ := Real.sqrt_pos.2 (hpd₀ bi hb).det_pos
  have hd := Real.sqrt_pos.2 (hpd bi hb).det_pos
  have hcpos : 0 < c := mul_pos (Real.exp_pos _) (div_pos hd₀ hd)
  refine ⟨ENNReal.ofReal c, by simpa using hcpos, ENNReal.ofReal_ne_top, ?_⟩
  have hmeas : Measurable fun β : EuclideanSpace ℝ (Fin r) => wls y x info e bi s r β.ofLp := by
    have h6 : (fun β : EuclideanSpace ℝ (Fin r) => wls y x info e bi s r β.ofLp) = fun β =>
        quadForm (((L bi)⁻¹)ᵀ *ᵥ (v + w)) (L bi) β.ofLp + K -
          quadForm (vecAt m₀ bi r) (matAt i₀ bi r r) β.ofLp := by
      funext β
      linarith [hK β.ofLp]
    rw [h6]
    simp only [← sum_quad]
    fun_prop
  rw [multivariateGaussian_density _ (hpd₀ bi hb), multivariateGaussian_density _ (hpd bi hb),
    ← withDensity_mul _ (by fun_prop) (by fun_prop), ← withDensity_smul _ (by fun_prop)]
  congr 1
  funext β
  simp only [Pi.mul_apply, Pi.smul_apply, smul_eq_mul]
  rw [← ENNReal.ofReal_mul (by positivity), ← ENNReal.ofReal_mul hcpos.le]
  congr 1
  rw [sum_quad, sum_quad]
  have h5 : Real.exp (-quadForm (vecAt m₀ bi r) (matAt i₀ bi r r) β.ofLp / 2) *
      Real.exp (-wls y x info e bi s r β.ofLp / 2) = Real.exp (-K / 2) *
        Real.exp (-quadForm (((L bi)⁻¹)ᵀ *ᵥ (v + w)) (L bi) β.ofLp / 2) := by
    rw [← Real.exp_add, ← Real.exp_add]
    congr 1
    have := hK β.ofLp
    linarith
  rw [mul_assoc, h5, hc]
  field_simp

/-- Two batches with three replicated responses each, one regressor, a scalar weight: the hypotheses
of C79 and C80 hold for every response. -/
example (y : Arr) (hy : IsArr y [2, 3, 2]) :
    (∃ m, getRegressionCoefficients y (batchMat [2] 2 1 fun _ => of fun _ _ => 1) (.scalar 2) = .ok m ∧
      IsArr m [2, 1]) ∧
    ∃ m i, getPosteriorRegressionCoefficients y (batchMat [2] 2 1 fun _ => of fun _ _ => 1) (.scalar 2)
      (batchVec [2] 1 fun _ _ => 5) (batchMat [2] 1 1 fun _ => 1) = .ok (m, i) ∧ IsArr i [2, 1, 1] := by
  have hw : ∀ bi, InShape bi [2] → (weightAt (.scalar 2) bi 2).PosSemidef := fun bi _ => by
    have : (2 : ℝ) • (1 : Matrix (Fin 2) (Fin 2) ℝ) = diagonal fun _ => 2 := by
      ext i j
      simp [diagonal, one_apply]
    rw [weightAt, this]
    exact PosSemidef.diagonal fun _ => by norm_num
  constructor
  · obtain ⟨m, h1, h2, -⟩ := C79_minimizer [2] [3] 2 1 y (batchMat [2] 2 1 fun _ => of fun _ _ => 1)
      (.scalar 2) hy (batchMat_arr _ _ _ _) trivial (by simp) hw (fun bi hb => by
        rw [matAt_batchMat _ hb]
        simp [weightAt, Matrix.mul_apply, Fin.sum_univ_two])
    exact ⟨m, h1, h2⟩
  · obtain ⟨m, i, h1, -, h2, -⟩ := C80_posterior [2] [3] 2 1 y
      (batchMat [2] 2 1 fun _ => of fun _ _ => 1) (.scalar 2) (batchVec [2] 1 fun _ _ => 5)
      (batchMat [2] 1 1 fun _ => 1) hy (batchMat_arr _ _ _ _) trivial hw (batchVec_arr _ _ _)
      (batchMat_arr _ _ _ _) (fun bi hb => by rw [matAt_batchMat _ hb]; exact PosDef.one)
    exact ⟨m, i, h1, h2⟩

/-- A weight array instead of a scalar, and a round trip. -/
example (y : Arr) (hy : IsArr y [2, 2]) :
    (∃ n1 n2, getNatParamsFromLikelihood y (batchMat [2] 2 1 fun _ => of fun _ _ => 1)
      (.arr (batchMat [2] 2 2 fun _ => !![2, 1; 1, 3])) = .ok (n1, n2) ∧ IsArr n2 [2, 1, 1]) ∧
    ∃ n1 n2, getNatParamsFromPrior y (batchMat [2] 2 2 fun _ => !![2, 1; 1, 3]) = .ok (n1, n2) ∧
      getMvnFromNatParams n1 n2 = .ok (y, batchMat [2] 2 2 fun _ => !![2, 1; 1, 3]) := by
  have hs : (!![2, 1; 1, 3] : Matrix (Fin 2) (Fin 2) ℝ).IsSymm := by
    ext i j
    fin_cases i <;> fin_cases j <;> rfl
  constructor
  · obtain ⟨n1, n2, h1, -, h2, -⟩ := C80_likelihood_natural_parameters [2] [] 2 1 y
      (batchMat [2] 2 1 fun _ => of fun _ _ => 1) (.arr (batchMat [2] 2 2 fun _ => !![2, 1; 1, 3])) hy
      (batchMat_arr _ _ _ _) (batchMat_arr _ _ _ _) (fun bi hb => by
        rw [weightAt, matAt_batchMat _ hb]
        exact hs)
    exact ⟨n1, n2, h1, h2⟩
  · exact C80_prior_round_trip [2] 2 y _ hy (batchMat_arr _ _ _ _)
      (fun bi hb => by rw [matAt_batchMat _ hb]; exact hs)
      (fun bi hb => by rw [matAt_batchMat _ hb, det_fin_two]; norm_num)

end

end LRVB
