import Verif.Props.PriorOptimum
import Verif.Props.Regression

/-!
# C185: variational Bayes for linear regression
-/

namespace LRVB

open scoped Matrix
open Arr ExpFam Families Matrix Regression MeasureTheory ProbabilityTheory

noncomputable section

/-- What `get_nat_params_from_likelihood` and `get_posterior_regression_coefficients` return, with Bayes' rule for the
quadratic forms. -/
theorem posterior_parts {e : List ℕ} {s r : ℕ} {y x : Arr} {info : Info} {m₀ i₀ : Arr}
    (hy : IsArr y (e ++ [s])) (hx : IsArr x [s, r]) (hi : InfoShape info [] s)
    (hpsd : (weightAt info [] s).PosSemidef)
    (hm₀ : IsArr m₀ [r]) (hi₀ : IsArr i₀ [r, r]) (hpd₀ : (matAt i₀ [] r r).PosDef) :
    ∃ n1 n2 m i, getNatParamsFromLikelihood y x info = .ok (n1, n2) ∧
      getPosteriorRegressionCoefficients y x info m₀ i₀ = .ok (m, i) ∧ IsArr m [r] ∧ IsArr i [r, r] ∧
      IsArr n1 [r] ∧ IsArr n2 [r, r] ∧ (matAt n2 [] r r).IsSymm ∧ (matAt i [] r r).PosDef ∧
      matAt i [] r r = matAt i₀ [] r r - (2 : ℝ) • matAt n2 [] r r ∧
      (∃ c : ℝ, ∀ β : Fin r → ℝ, -0.5 * wls y x info e [] s r β =
        vecAt n1 [] r ⬝ᵥ β + β ⬝ᵥ (matAt n2 [] r r *ᵥ β) + c) ∧
      ∃ K : ℝ, ∀ β : Fin r → ℝ, wls y x info e [] s r β + quadForm (vecAt m₀ [] r) (matAt i₀ [] r r) β =
        quadForm (vecAt m [] r) (matAt i [] r r) β + K := by
  have symm_of : ∀ {n : ℕ} {A : Matrix (Fin n) (Fin n) ℝ}, A.IsHermitian → A.IsSymm := by
    intro n A h
    rwa [Matrix.IsHermitian, conjTranspose_eq_transpose_of_trivial] at h
  have b0 : ∀ {bi : List ℕ}, InShape bi [] → bi = [] := by
    intro bi h
    cases h
    rfl
  have hb : InShape [] [] := .nil
  have hsym : ∀ bi, InShape bi [] → (weightAt info bi s).IsSymm := fun bi h => by
    rw [b0 h]; exact symm_of hpsd.1
  have hsym₀ : ∀ bi, InShape bi [] → (matAt i₀ bi r r).IsSymm := fun bi h => by
    rw [b0 h]; exact symm_of hpd₀.1
  obtain ⟨n1, n2, l1, l2, l3, l4⟩ := C80_likelihood_natural_parameters [] e s r y x info hy hx hi hsym
  obtain ⟨l5, cc, l6⟩ := l4 [] hb
  set G : List ℕ → Matrix (Fin r) (Fin r) ℝ := fun bi =>
    (matAt x bi s r)ᵀ * (weightAt info bi s * matAt x bi s r) with hG
  set L : List ℕ → Matrix (Fin r) (Fin r) ℝ := fun bi => (e.prod : ℝ) • G bi + matAt i₀ bi r r
    with hLdef
  have hL : ∀ bi, (-2 : ℝ) • ((-0.5 * (e.prod : ℝ)) • G bi + (-0.5 : ℝ) • matAt i₀ bi r r) = L bi := by
    intro bi
    rw [hLdef, smul_add, smul_smul, smul_smul]
    congr 2
    · ring
    · norm_num
  have hpd : (L []).PosDef := by
    have h1 : (G []).PosSemidef := by
      have := hpsd.conjTranspose_mul_mul_same (matAt x [] s r)
      rwa [conjTranspose_eq_transpose_of_trivial, Matrix.mul_assoc] at this
    have h2 : ((e.prod : ℝ) • G []).PosSemidef := h1.smul (Nat.cast_nonneg e.prod)
    exact Matrix.PosDef.posSemidef_add h2 hpd₀
  have hlik := likelihood_ok (b := []) hy hx hi hsym
  rw [l1] at hlik
  have hn2 : n2 = _ := (Prod.mk.inj (Except.ok.inj hlik)).2
  refine ⟨n1, n2, _, _, l1, by
    unfold getPosteriorRegressionCoefficients
    rw [likelihood_ok (b := []) hy hx hi hsym, py_ok_bind, prior_ok (b := []) hm₀ hi₀ hsym₀, py_ok_bind]
    simp only
    rw [add_batchVec, py_ok_bind, add_batchMat, py_ok_bind, mvn_ok _ _ (fun bi h => by
      rw [b0 h, hL]; exact hpd.det_pos.ne')], batchVec_arr _ _ _, batchMat_arr _ _ _ _, l2, l3, l5, ?_, ?_, ⟨cc, l6⟩, ?_⟩
  · rw [matAt_batchMat _ hb, hL]
    exact hpd
  · rw [matAt_batchMat _ hb, hL, hn2, matAt_batchMat _ hb, hLdef]
    simp only [smul_smul]
    rw [show (2 : ℝ) * (-0.5 * (e.prod : ℝ)) = -(e.prod : ℝ) by ring, neg_smul, sub_neg_eq_add, add_comm]
  · rw [matAt_batchMat _ hb, vecAt_batchVec _ hb, hL]
    set v : Fin r → ℝ := ((indexProduct e).map fun ei =>
      (weightAt info [] s * matAt x [] s r)ᵀ *ᵥ vecAt y ([] ++ ei) s).sum with hv
    set w := matAt i₀ [] r r *ᵥ vecAt m₀ [] r with hw
    refine ⟨((indexProduct e).map fun ei =>
        vecAt y ([] ++ ei) s ⬝ᵥ (weightAt info [] s *ᵥ vecAt y ([] ++ ei) s)).sum -
          (v + w) ⬝ᵥ ((L [])⁻¹ *ᵥ (v + w)) + vecAt m₀ [] r ⬝ᵥ w, fun β => ?_⟩
    have h1 := wls_expand (matAt x [] s r) (weightAt info [] s) (hsym [] hb)
      ((indexProduct e).map fun ei => vecAt y ([] ++ ei) s) β
    simp only [List.map_map, Function.comp_def, List.length_map, indexProduct_length] at h1
    have h2 := complete_square (symm_of hpd.1) hpd.det_pos.ne' (v + w) β
    have h3 : quadForm (vecAt m₀ [] r) (matAt i₀ [] r r) β =
        β ⬝ᵥ (matAt i₀ [] r r *ᵥ β) - 2 * (β ⬝ᵥ w) + vecAt m₀ [] r ⬝ᵥ w := by
      rw [quadForm, mulVec_sub, dotProduct_sub, sub_dotProduct, sub_dotProduct,
        symm_dot (hsym₀ [] hb) (vecAt m₀ [] r) β]
      ring
    have h4 : β ⬝ᵥ (L [] *ᵥ β) = (e.prod : ℝ) * (β ⬝ᵥ (G [] *ᵥ β)) + β ⬝ᵥ (matAt i₀ [] r r *ᵥ β) := by
      rw [hLdef, add_mulVec, dotProduct_add, smul_mulVec, dotProduct_smul, smul_eq_mul]
    rw [dotProduct_add] at h2
    rw [wls, h1, h3]
    linarith

theorem vec_data {n : ℕ} {a : Arr} (ha : IsArr a [n]) : a.data.length = n ∧
    (∀ j : Fin n, a.data.getD j 0 = a.get [(j : ℕ)]) ∧ vec a.data = a := by
  have hl : a.data.length = n := by
    have := ha.1
    rw [WF, ha.2] at this
    simpa using this
  refine ⟨hl, fun j => ?_, ?_⟩
  · have : (j : ℕ) < a.data.length := by rw [hl]; exact j.2
    simp [Arr.get, flat, ha.2]
  · obtain ⟨sh, d⟩ := a
    obtain ⟨-, rfl⟩ := ha
    simp only at hl
    simp [Arr.vec, hl]

theorem matAt_asMatrix {n : ℕ} {a : Arr} (ha : a.shape = [n, n]) : matAt a [] n n = asMatrix n a := by
  ext j k
  simp [matAt, asMatrix, Arr.get, at2, flat, ha]

/-- A quadratic form, plus the trace of its matrix times another. -/
theorem quad_trace {r : ℕ} (m E : Fin r → ℝ) (L C : Matrix (Fin r) (Fin r) ℝ) :
    ∑ j, ∑ k, L j k * ((E j - m j) * (E k - m k) + C k j) =
      quadForm m L E + ∑ j, ∑ k, L j k * C k j := by
  simp only [mul_add, Finset.sum_add_distrib, quadForm, dotProduct, Matrix.mulVec, Pi.sub_apply, Finset.mul_sum]
  congr 1
  refine Finset.sum_congr rfl fun j _ => Finset.sum_congr rfl fun k _ => by ring

/-- **C185** Bayesian linear regression: over all multivariate normal parameters `q`, the sum of the expected log
likelihood, of `mvn_prior` and of `q.entropy()` is largest exactly for the `q` that holds the mean and the information
matrix that `get_posterior_regression_coefficients` returns. The expected log likelihood is computed from the natural
parameters of `get_nat_params_from_likelihood`, `q.e()` and `q.e_outer()`, and differs from the expectation
of `-0.5 * (y - xβ)' info (y - xβ)` under `q` by the same number for every `q`. -/
theorem C185_posterior_is_optimal (e : List ℕ) (s r : ℕ) (y x : Arr) (info : Info) (m₀ i₀ : Arr)
    (hy : IsArr y (e ++ [s])) (hx : IsArr x [s, r]) (hi : InfoShape info [] s)
    (hpsd : (weightAt info [] s).PosSemidef)
    (hm₀ : IsArr m₀ [r]) (hi₀ : IsArr i₀ [r, r]) (hpd₀ : (matAt i₀ [] r r).PosDef) :
    ∃ n1 n2 m₁ i₁, getNatParamsFromLikelihood y x info = .ok (n1, n2) ∧
      getPosteriorRegressionCoefficients y x info m₀ i₀ = .ok (m₁, i₁) ∧
      ∃ c d : ℝ, ∀ (q : Param) (m i : Arr), HoldsMvn q r m i → (asMatrix r i).PosDef →
        ∃ E C O p H, mvnE q = .ok E ∧ mvnCov q = .ok C ∧ mvnEOuter q = .ok O ∧
          mvnPrior m₀.data i₀ E.data C = .ok p ∧ mvnEntropy q = .ok H ∧
          ∃ l : ℝ, l = (∑ j : Fin r, n1.get [(j : ℕ)] * E.get [(j : ℕ)]) +
              (∑ j : Fin r, ∑ k : Fin r, n2.at2 j k * O.at2 j k) ∧
            Integrable (fun β => -0.5 * wls y x info e [] s r β.ofLp) (mvn r m i) ∧
            ∫ β, -0.5 * wls y x info e [] s r β.ofLp ∂mvn r m i = l + d ∧
            l + p + H ≤ c ∧ (l + p + H = c ↔ m = m₁ ∧ i = i₁) := by
  obtain ⟨n1, n2, m₁, i₁, h1, h2, h3, h4, h5, h6, h7, h8, h9, ⟨cc, h10⟩, K, h11⟩ :=
    posterior_parts hy hx hi hpsd hm₀ hi₀ hpd₀
  rw [matAt_asMatrix h6.2] at h7 h9
  rw [matAt_asMatrix h4.2] at h8 h9
  rw [matAt_asMatrix hi₀.2] at h9
  simp only [matAt_asMatrix h6.2] at h10
  simp only [matAt_asMatrix h4.2, matAt_asMatrix hi₀.2] at h11
  obtain ⟨a1, a2, a3⟩ := vec_data h3
  obtain ⟨b1, b2, -⟩ := vec_data hm₀
  obtain ⟨c, hc⟩ := C162_mvn r m₁.data i₁ a1 h4 h8
  refine ⟨n1, n2, m₁, i₁, h1, h2, c - cc - K / 2, cc, fun q m i hq hpd => ?_⟩
  have hsym : (asMatrix r i).IsSymm := by
    have := hpd.1
    rwa [Matrix.IsHermitian, conjTranspose_eq_transpose_of_trivial] at this
  simp only [a3] at hc
  obtain ⟨E', C', p', H, k1, k2, k3, k4, k5, k6⟩ := hc q m i hq hpd
  obtain ⟨e1, C, O, e2, e3, -, -, e4, -, -, e5⟩ := C84_moments_consistent q r m i hq hsym hpd.det_pos.ne'
  obtain ⟨E'', C'', O'', f1, f2, f3, f4, f5, f6⟩ := C84_true_moments q r m i hq hpd
  rw [e1] at f1 k1
  obtain rfl := Except.ok.inj f1
  obtain rfl := Except.ok.inj k1
  rw [e2] at f2 k2
  obtain rfl := Except.ok.inj f2
  obtain rfl := Except.ok.inj k2
  rw [e4] at f3
  obtain rfl := Except.ok.inj f3
  obtain ⟨d1, d2, -⟩ := vec_data hq.mean_arr
  have hp := mvnPrior_ok (m := m₀.data) (e := m.data) b1 d1 hi₀ e3
  have hp' := mvnPrior_ok (m := m₁.data) (e := m.data) a1 d1 h4 e3
  rw [k3] at hp'
  have hp' := Except.ok.inj hp'
  refine ⟨m, C, O, _, H, e1, e2, e4, hp, k4, _, rfl, ?_⟩
  have hInt : ∀ j : Fin r, Integrable (fun β => β j) (mvn r m i) :=
    fun j => (mvn_memLp r m i j).integrable (by norm_num)
  have hInt2 : ∀ j k : Fin r, Integrable (fun β => β j * β k) (mvn r m i) :=
    fun j k => (mvn_memLp r m i j).integrable_mul (mvn_memLp r m i k)
  have hfun : (fun β : EuclideanSpace ℝ (Fin r) => -0.5 * wls y x info e [] s r β.ofLp) = fun β =>
      (∑ j : Fin r, n1.get [(j : ℕ)] * β j) + (∑ j : Fin r, ∑ k : Fin r, n2.at2 j k * (β j * β k)) + cc := by
    funext β
    rw [h10 β.ofLp]
    congr 2
    simp only [dotProduct, Matrix.mulVec, Finset.mul_sum]
    refine Finset.sum_congr rfl fun j _ => Finset.sum_congr rfl fun k _ => ?_
    simp only [asMatrix, of_apply]
    ring
  have hi1 : Integrable (fun β : EuclideanSpace ℝ (Fin r) => ∑ j : Fin r, n1.get [(j : ℕ)] * β j) (mvn r m i) :=
    integrable_finset_sum _ fun j _ => (hInt j).const_mul _
  have hi2 : Integrable (fun β : EuclideanSpace ℝ (Fin r) =>
      ∑ j : Fin r, ∑ k : Fin r, n2.at2 j k * (β j * β k)) (mvn r m i) :=
    integrable_finset_sum _ fun j _ => integrable_finset_sum _ fun k _ => (hInt2 j k).const_mul _
  have : IsProbabilityMeasure (mvn r m i) := by unfold mvn; infer_instance
  have hmain : ((∑ j : Fin r, n1.get [(j : ℕ)] * m.get [(j : ℕ)]) +
      (∑ j : Fin r, ∑ k : Fin r, n2.at2 j k * O.at2 j k)) +
      -0.5 * (∑ j : Fin r, ∑ k : Fin r, i₀.at2 j k *
        ((m.data.getD j 0 - m₀.data.getD j 0) * (m.data.getD k 0 - m₀.data.getD k 0) + C.at2 k j)) =
      p' - cc - K / 2 := by
    rw [hp']
    simp only [a2, b2, d2]
    have q0 := quad_trace (vecAt m₀ [] r) (vecAt m [] r) (asMatrix r i₀) (asMatrix r C)
    have q1 := quad_trace (vecAt m₁ [] r) (vecAt m [] r) (asMatrix r i₁) (asMatrix r C)
    have w1 := h10 (vecAt m [] r)
    have w2 := h11 (vecAt m [] r)
    have ht : ∑ j, ∑ k, asMatrix r i₁ j k * asMatrix r C k j =
        ∑ j, ∑ k, asMatrix r i₀ j k * asMatrix r C k j -
          2 * ∑ j, ∑ k, asMatrix r n2 j k * asMatrix r C j k := by
      have : ∑ j, ∑ k, asMatrix r n2 j k * asMatrix r C j k =
          ∑ j, ∑ k, asMatrix r n2 j k * asMatrix r C k j := by
        rw [Finset.sum_comm]
        refine Finset.sum_congr rfl fun j _ => Finset.sum_congr rfl fun k _ => ?_
        rw [h7.apply]
      rw [this, h9]
      simp only [Finset.mul_sum, ← Finset.sum_sub_distrib, Matrix.sub_apply, Matrix.smul_apply, smul_eq_mul]
      refine Finset.sum_congr rfl fun j _ => Finset.sum_congr rfl fun k _ => by ring
    have hO : ∑ j : Fin r, ∑ k : Fin r, n2.at2 j k * O.at2 j k =
        vecAt m [] r ⬝ᵥ (asMatrix r n2 *ᵥ vecAt m [] r) +
          ∑ j, ∑ k, asMatrix r n2 j k * asMatrix r C j k := by
      simp only [dotProduct, Matrix.mulVec, Finset.mul_sum, ← Finset.sum_add_distrib, e5]
      refine Finset.sum_congr rfl fun j _ => Finset.sum_congr rfl fun k _ => ?_
      simp only [asMatrix, vecAt, of_apply, List.nil_append]
      ring
    rw [hO]
    simp only [asMatrix, vecAt, of_apply, List.nil_append, dotProduct] at q0 q1 w1 w2 ht ⊢
    linarith
  refine ⟨by rw [hfun]; exact (hi1.add hi2).add (integrable_const _), ?_, ?_, ?_⟩
  · have hi12 : Integrable (fun β : EuclideanSpace ℝ (Fin r) => (∑ j : Fin r, n1.get [(j : ℕ)] * β j) +
        ∑ j : Fin r, ∑ k : Fin r, n2.at2 j k * (β j * β k)) (mvn r m i) := hi1.add hi2
    rw [hfun, integral_add hi12 (integrable_const _), integral_add hi1 hi2,
      integral_finset_sum _ fun j _ => (hInt j).const_mul _,
      integral_finset_sum _ fun j _ => integrable_finset_sum _ fun k _ => (hInt2 j k).const_mul _]
    simp only [integral_const, probReal_univ, one_smul, integral_const_mul, f4]
    congr 2
    refine Finset.sum_congr rfl fun j _ => ?_
    rw [integral_finset_sum _ fun k _ => (hInt2 j k).const_mul _]
    refine Finset.sum_congr rfl fun k _ => ?_
    rw [integral_const_mul, f6]
  · rw [hmain]
    linarith
  · rw [hmain, ← k6]
    constructor <;> intro h <;> linarith

theorem constrainVec_free (x : List ℝ) : Leaf.constrainVec x Flt.ninf Flt.pinf = .ok x := by
  have h : (x.map Flt.fin).mapM (fun y => constrain y Flt.ninf Flt.pinf) = .ok (x.map Flt.fin) := by
    induction x with
    | nil => rfl
    | cons a x ih =>
      rw [List.map_cons, List.mapM_cons, ih]
      simp [constrain]
  unfold Leaf.constrainVec constrainList
  rw [if_neg (by simp), h, py_ok_bind, Flt.mapM_toReal_fin]

/-- `set_free` on an `MVNParam`: the mean is the first part of the free vector, and the information matrix is
unpacked from the rest. -/
theorem mvn_setFree (name : String) (n : ℕ) (minInfo : ℝ) (h0 : 0 ≤ minInfo) (ops : List ParamOp) :
    ∃ p, mkMVN name n minInfo = .ok p ∧ ∀ x, x.length = n + n * (n + 1) / 2 →
      ∃ q i, (p.run ops).setFree x = (q, none) ∧ HoldsMvn q n (vec (x.take n)) i ∧
        unpackPosdef (x.drop n) minInfo = .ok i ∧ (asMatrix n i).PosDef := by
  have b1 : (Flt.ninf : Flt) < Flt.pinf := by simp
  have hne : ("mean" : String) ≠ "info" := by decide
  obtain ⟨l1, m1, n1, k1⟩ := mkVector_kind (name := "mean") (n := n) b1
  have m2 : mkPosDef "info" n minInfo none =
      .ok ⟨"info", .posdef n minInfo, diagArr n (minInfo + 1), false⟩ := by
    rw [mkPosDef, if_neg (by simpa using h0)]
  have hp := pair_push name (l1 := l1)
    (l2 := ⟨"info", .posdef n minInfo, diagArr n (minInfo + 1), false⟩) (by rw [n1]; exact hne)
  rw [n1, k1] at hp
  refine ⟨_, by unfold mkMVN; rw [m1, m2]; rfl, fun x hx => ?_⟩
  obtain ⟨hd, a, b, hpe, ka, kb, hfs, -⟩ := hp.run ops
  rw [hpe]
  replace kb : b.kind = .posdef n minInfo := kb
  obtain ⟨i, e1, e2, e3, e4, -⟩ := C19_unpack_posdef n (x.drop n) minInfo (by simp; omega)
  have sa : a.setFree (x.take n) = .ok { a with val := vec (x.take n), boxed := false } := by
    unfold Leaf.setFree
    rw [ka]
    have hl : (x.take n).length = n := by simp; omega
    simp only [hl, ne_eq, not_true_eq_false, if_false, constrainVec_free, py_ok_bind]
    unfold Leaf.set
    rw [ka]
    simp [Arr.vec, Arr.size, hl]
  have sb : b.setFree (x.drop n) = .ok { b with val := i, boxed := false } := by
    unfold Leaf.setFree
    rw [kb]
    have hl : (x.drop n).length = vecSizeOf n := by simp only [vecSizeOf, List.length_drop]; omega
    simp only [hl, ne_eq, not_true_eq_false, if_false, e1, py_ok_bind]
    unfold Leaf.set
    rw [kb]
    simp [e2.2, e3]
  refine ⟨.dict hd (.cons "mean" (.leaf { a with val := vec (x.take n), boxed := false })
    (.cons "info" (.leaf { b with val := i, boxed := false }) .nil)), i, ?_, ⟨?_, ?_, ?_, e2⟩, e1, ?_⟩
  · have k1 : (Kind.vector n Flt.ninf Flt.pinf).freeSize = n := rfl
    have k2 : (Kind.posdef n minInfo).freeSize = n * (n + 1) / 2 := rfl
    have s1 : Leaf.slice x 0 n = x.take n := by simp [Leaf.slice]
    have s2 : Leaf.slice x n (n * (n + 1) / 2) = x.drop n := by
      simp [Leaf.slice]; omega
    have f1 : a.freeSize = n := by rw [Leaf.freeSize, ka, k1]
    have f2 : b.freeSize = n * (n + 1) / 2 := by rw [Leaf.freeSize, kb, k2]
    simp [Param.setFree, Param.setFreeEntries, hfs, k1, k2, hx, Param.freeSize, f1, f2, s1, s2, sa, sb]
  · simp [Holds, Param.viewGet, Entries.find]; rfl
  · simp [Holds, Param.viewGet, Entries.find]; rfl
  · constructor
    · simp [Arr.vec, WF]
    · simp [Arr.vec]
      omega
  · have := e4.add_posSemidef (PosSemidef.one.smul h0)
    simpa using this

/-- The objective of variational Bayes for linear regression, as a user would write it: the expected log
likelihood, from the natural parameters `n1` and `n2` of the likelihood and the moments of `q`, plus the expected log
prior, plus the entropy. -/
def regressionObjective (n1 n2 m₀ i₀ : Arr) (r : ℕ) (q : Param) : Py ℝ := do
  let E ← mvnE q
  let C ← mvnCov q
  let O ← mvnEOuter q
  let p ← mvnPrior m₀.data i₀ E.data C
  let H ← mvnEntropy q
  .ok ((∑ j : Fin r, n1.get [(j : ℕ)] * E.get [(j : ℕ)]) + (∑ j : Fin r, ∑ k : Fin r, n2.at2 j k * O.at2 j k) + p + H)

/-- **C185** In the free coordinates of an `MVNParam`, after any history of calls, the objective of Bayesian linear
regression has exactly one maximizer, and `set_free` at it leaves the mean and the information matrix that
`get_posterior_regression_coefficients` returns, whenever these are allowed by `min_info`. -/
theorem C185_unique_free_optimum (e : List ℕ) (s r : ℕ) (y x : Arr) (info : Info) (m₀ i₀ : Arr)
    (hy : IsArr y (e ++ [s])) (hx : IsArr x [s, r]) (hi : InfoShape info [] s)
    (hpsd : (weightAt info [] s).PosSemidef)
    (hm₀ : IsArr m₀ [r]) (hi₀ : IsArr i₀ [r, r]) (hpd₀ : (matAt i₀ [] r r).PosDef)
    (name : String) (minInfo : ℝ) (h0 : 0 ≤ minInfo) (ops : List ParamOp) :
    ∃ n1 n2 m₁ i₁ P, getNatParamsFromLikelihood y x info = .ok (n1, n2) ∧
      getPosteriorRegressionCoefficients y x info m₀ i₀ = .ok (m₁, i₁) ∧ mkMVN name r minInfo = .ok P ∧
      ((asMatrix r i₁ - minInfo • 1).PosDef → ∃ z q v, z.length = r + r * (r + 1) / 2 ∧
        (P.run ops).setFree z = (q, none) ∧ HoldsMvn q r m₁ i₁ ∧ regressionObjective n1 n2 m₀ i₀ r q = .ok v ∧
        ∀ z', z'.length = r + r * (r + 1) / 2 → z' ≠ z →
          ∃ q' v', (P.run ops).setFree z' = (q', none) ∧ regressionObjective n1 n2 m₀ i₀ r q' = .ok v' ∧ v' < v) := by
  obtain ⟨n1, n2, m₁, i₁, h1, h2, c, d, hc⟩ :=
    C185_posterior_is_optimal e s r y x info m₀ i₀ hy hx hi hpsd hm₀ hi₀ hpd₀
  obtain ⟨-, -, m', i', -, h2', h3, h4, -⟩ := posterior_parts hy hx hi hpsd hm₀ hi₀ hpd₀
  rw [h2] at h2'
  obtain ⟨rfl, rfl⟩ := Prod.mk.inj (Except.ok.inj h2')
  obtain ⟨P, hP, hset⟩ := mvn_setFree name r minInfo h0 ops
  have hval : ∀ (q : Param) (m i : Arr), HoldsMvn q r m i → (asMatrix r i).PosDef →
      ∃ v, regressionObjective n1 n2 m₀ i₀ r q = .ok v ∧ v ≤ c ∧ (v = c ↔ m = m₁ ∧ i = i₁) := by
    intro q m i hq hpd
    obtain ⟨E, C, O, p, H, k1, k2, k3, k4, k5, l, rfl, -, -, k6, k7⟩ := hc q m i hq hpd
    refine ⟨_, ?_, k6, k7⟩
    unfold regressionObjective
    simp only [k1, k2, k3, k4, k5, py_ok_bind]
  refine ⟨n1, n2, m₁, i₁, P, h1, h2, hP, fun hpd => ?_⟩
  obtain ⟨w, -, w2, w3⟩ := C20_unpack_pack r i₁ minInfo h4 hpd
  obtain ⟨a1, -, a3⟩ := vec_data h3
  have hzl : (m₁.data ++ w).length = r + r * (r + 1) / 2 := by simp [a1, w2]
  have ht : (m₁.data ++ w).take r = m₁.data := by rw [List.take_append_of_le_length a1.ge]; simp [← a1]
  have hdr : (m₁.data ++ w).drop r = w := by simp [← a1]
  obtain ⟨q, i, g1, g2, g3, g4⟩ := hset (m₁.data ++ w) hzl
  rw [hdr, w3] at g3
  obtain rfl := Except.ok.inj g3
  rw [ht, a3] at g2
  obtain ⟨v, v1, -, v3⟩ := hval q m₁ i₁ g2 g4
  refine ⟨m₁.data ++ w, q, v, hzl, g1, g2, v1, fun z' hz' hne => ?_⟩
  obtain ⟨q', i', g1', g2', g3', g4'⟩ := hset z' hz'
  obtain ⟨v', u1, u2, u3⟩ := hval q' _ i' g2' g4'
  refine ⟨q', v', g1', u1, ?_⟩
  rw [v3.2 ⟨rfl, rfl⟩]
  refine lt_of_le_of_ne u2 fun heq => hne ?_
  obtain ⟨x1, x2⟩ := u3.1 heq
  subst x2
  have y1 : z'.take r = m₁.data := by rw [← x1]; rfl
  have y2 : z'.drop r = w := by
    have p1 := C20_pack_unpack r (z'.drop r) minInfo (by simp; omega)
    have p2 := C20_pack_unpack r w minInfo w2
    rw [g3', py_ok_bind] at p1
    rw [w3, py_ok_bind, p1] at p2
    exact Except.ok.inj p2
  rw [← List.take_append_drop r z', y1, y2]

/-- Three responses of two observations each, one regressor, weights two, a standard normal prior, and a parameter with
`min_info` 0 that has seen a failed call: one free vector of two numbers is best. -/
example (y : Arr) (hy : IsArr y [3, 2]) :
    ∃ P n1 n2 z q v, mkMVN "b" 1 0 = .ok P ∧ z.length = 2 ∧ (P.run [.setFree [1]]).setFree z = (q, none) ∧
      regressionObjective n1 n2 (vec [0]) (batchMat [] 1 1 fun _ => 1) 1 q = .ok v := by
  have hw : (weightAt (.scalar 2) [] 2).PosSemidef := by
    have : (2 : ℝ) • (1 : Matrix (Fin 2) (Fin 2) ℝ) = diagonal fun _ => 2 := by
      ext i j
      simp [diagonal, one_apply]
    rw [weightAt, this]
    exact PosSemidef.diagonal fun _ => by norm_num
  have hm : IsArr (vec [0]) [1] := ⟨rfl, rfl⟩
  have hpd : (matAt (batchMat [] 1 1 fun _ => 1) [] 1 1).PosDef := by
    rw [matAt_batchMat _ .nil]
    exact PosDef.one
  obtain ⟨n1, n2, m₁, i₁, P, -, h2, h3, h4⟩ := C185_unique_free_optimum [3] 2 1 y
    (batchMat [] 2 1 fun _ => of fun _ _ => 1) (.scalar 2) (vec [0]) (batchMat [] 1 1 fun _ => 1) hy
    (batchMat_arr _ _ _ _) trivial hw hm (batchMat_arr _ _ _ _) hpd "b" 0 le_rfl [.setFree [1]]
  obtain ⟨-, -, m', i', -, h2', -, k4, -, -, -, k8, -⟩ := posterior_parts (e := [3]) (info := .scalar 2) hy
    (batchMat_arr [] 2 1 fun _ => of fun _ _ => 1) trivial hw hm (batchMat_arr [] 1 1 fun _ => 1) hpd
  rw [h2] at h2'
  obtain ⟨rfl, rfl⟩ := Prod.mk.inj (Except.ok.inj h2')
  rw [matAt_asMatrix k4.2] at k8
  obtain ⟨z, q, v, z1, z2, -, z3, -⟩ := h4 (by simpa using k8)
  exact ⟨P, n1, n2, z, q, v, h3, z1, z2, z3⟩

end

end LRVB
