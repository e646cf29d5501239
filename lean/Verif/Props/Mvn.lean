import Verif.Props.Dirichlet
import Verif.Props.InvSqrt
import Verif.Props.Ld

/-!
# Multivariate normal parameters: C84
-/

namespace LRVB

open Arr ExpFam Families MeasureTheory ProbabilityTheory Matrix

noncomputable section

instance (n : ℕ) (m i : Arr) : IsGaussian (mvn n m i) := by unfold mvn; infer_instance

theorem outer_eq {n : ℕ} {m : Arr} (hm : IsArr m [n]) :
    outer m m = ofFn [n, n] fun idx => m.get [idx.getD 0 0] * m.get [idx.getD 1 0] := by
  have hs : m.size = n := by
    have := hm.1
    rw [WF, hm.2] at this
    simpa [Arr.size] using this
  unfold outer
  rw [hs, ofFn2_eq_ofFn]
  refine ofFn_congr fun idx hi => ?_
  simp [Arr.get, hm.2, flat]

theorem ofMatrix_eq {n : ℕ} (M : Matrix (Fin n) (Fin n) ℝ) {i j : ℕ} (hi : i < n) (hj : j < n) :
    (ofMatrix M).get [i, j] = M ⟨i, hi⟩ ⟨j, hj⟩ := by
  rw [get_two rfl]
  unfold ofMatrix
  rw [at2_ofFn2 _ _ _ hi hj, dif_pos ⟨hi, hj⟩]

theorem mvnCov_ok {p : Param} {n : ℕ} {m i : Arr} (h : HoldsMvn p n m i)
    (hd : (asMatrix n i).det ≠ 0) : mvnCov p = .ok (ofMatrix (asMatrix n i)⁻¹) := by
  unfold mvnCov
  rw [h.info.item, py_ok_bind]
  exact inv_two h.info_arr.2 hd

theorem mvnEOuter_ok {p : Param} {n : ℕ} {m i : Arr} (h : HoldsMvn p n m i)
    (hd : (asMatrix n i).det ≠ 0) :
    ∃ O, mvnEOuter p = .ok O ∧ IsMat O n n ∧ ∀ j k : Fin n, O.at2 j k =
      0.5 * (m.get [(j : ℕ)] * m.get [(k : ℕ)] + (asMatrix n i)⁻¹ j k +
        (m.get [(k : ℕ)] * m.get [(j : ℕ)] + (asMatrix n i)⁻¹ k j)) := by
  have hC : ofMatrix (asMatrix n i)⁻¹ = ofFn [n, n] (ofMatrix (asMatrix n i)⁻¹).get :=
    arr_eq ⟨(ofMatrix_isMat _).1, (ofMatrix_isMat _).2⟩
  set g : List ℕ → ℝ := (ofMatrix (asMatrix n i)⁻¹).get
  set f : List ℕ → ℝ := fun idx => m.get [idx.getD 0 0] * m.get [idx.getD 1 0] + g idx with hf
  have ht : (ofFn [n, n] f).transpose = ofFn [n, n] fun idx => f [idx.getD 1 0, idx.getD 0 0] := by
    unfold Arr.transpose
    simp only [ofFn_shape, List.getD_cons_succ, List.getD_cons_zero]
    rw [ofFn2_eq_ofFn]
    refine ofFn_congr fun idx hi => ?_
    obtain ⟨a, b, rfl, h1, h2⟩ := exists_of_forall₂_two hi
    exact at2_ofFn _ h2 h1
  refine ⟨ofFn [n, n] fun idx => 0.5 * (f idx + f [idx.getD 1 0, idx.getD 0 0]), ?_,
    ofFn_arr _ _, ?_⟩
  · unfold mvnEOuter Arr.add
    rw [h.mean.item, py_ok_bind, mvnCov_ok h hd, py_ok_bind, outer_eq h.mean_arr, hC, bin_ofFn,
      py_ok_bind, ht, bin_ofFn, py_ok_bind, map_ofFn]
  · intro j k
    rw [at2_ofFn _ j.2 k.2]
    simp only [hf, List.getD_cons_zero, List.getD_cons_succ]
    rw [show g [(j : ℕ), (k : ℕ)] = (asMatrix n i)⁻¹ j k from ofMatrix_eq _ j.2 k.2,
      show g [(k : ℕ), (j : ℕ)] = (asMatrix n i)⁻¹ k j from ofMatrix_eq _ k.2 j.2]

/-- **C84** For a symmetric invertible information matrix, `cov()` is its inverse, and `e_outer()` is
symmetric and equals the outer product of the mean plus `cov()`. -/
theorem C84_moments_consistent (p : Param) (n : ℕ) (m i : Arr) (h : HoldsMvn p n m i)
    (hsym : (asMatrix n i).IsSymm) (hd : (asMatrix n i).det ≠ 0) :
    mvnE p = .ok m ∧ ∃ C O, mvnCov p = .ok C ∧ IsMat C n n ∧
      asMatrix n C * asMatrix n i = 1 ∧ asMatrix n i * asMatrix n C = 1 ∧
      mvnEOuter p = .ok O ∧ IsMat O n n ∧ (asMatrix n O).IsSymm ∧
      ∀ j k : Fin n, O.at2 j k = m.get [(j : ℕ)] * m.get [(k : ℕ)] + C.at2 j k := by
  obtain ⟨O, hO, hO2, hO3⟩ := mvnEOuter_ok h hd
  have hu : IsUnit (asMatrix n i).det := isUnit_iff_ne_zero.2 hd
  have hs : ∀ j k, (asMatrix n i)⁻¹ j k = (asMatrix n i)⁻¹ k j := by
    intro j k
    have : ((asMatrix n i)⁻¹)ᵀ = (asMatrix n i)⁻¹ := by rw [transpose_nonsing_inv, hsym]
    conv_lhs => rw [← this]
    rfl
  have hC : asMatrix n (ofMatrix (asMatrix n i)⁻¹) = (asMatrix n i)⁻¹ := toMatrix_ofMatrix _
  refine ⟨h.mean.item, _, O, mvnCov_ok h hd, ofMatrix_isMat _, ?_, ?_, hO, hO2, ?_, ?_⟩
  · rw [hC, nonsing_inv_mul _ hu]
  · rw [hC, mul_nonsing_inv _ hu]
  · ext j k
    simp only [transpose_apply, asMatrix, of_apply]
    rw [hO3, hO3]
    ring
  · intro j k
    have e : (ofMatrix (asMatrix n i)⁻¹).at2 j k = (asMatrix n i)⁻¹ j k :=
      congrFun (congrFun hC j) k
    rw [hO3, hs k j, e]
    norm_num
    ring

/-- **C84** For a positive definite information matrix, `e()`, `cov()` and `e_outer()` are the mean,
the covariance and the matrix of second moments of the multivariate normal distribution with that
mean and information matrix. -/
theorem C84_true_moments (p : Param) (n : ℕ) (m i : Arr) (h : HoldsMvn p n m i)
    (hpd : (asMatrix n i).PosDef) :
    ∃ e C O, mvnE p = .ok e ∧ mvnCov p = .ok C ∧ mvnEOuter p = .ok O ∧
      (∀ j : Fin n, e.get [(j : ℕ)] = ∫ x, x j ∂mvn n m i) ∧
      (∀ j k : Fin n, C.at2 j k = cov[fun x => x j, fun x => x k; mvn n m i]) ∧
      ∀ j k : Fin n, O.at2 j k = ∫ x, x j * x k ∂mvn n m i := by
  have hsym : (asMatrix n i).IsSymm := by
    have := hpd.1
    rwa [Matrix.IsHermitian, conjTranspose_eq_transpose_of_trivial] at this
  have hd : (asMatrix n i).det ≠ 0 := hpd.det_pos.ne'
  obtain ⟨he, C, O, hC, -, hC2, -, hO, -, -, hO2⟩ := C84_moments_consistent p n m i h hsym hd
  have hCi : asMatrix n C = (asMatrix n i)⁻¹ := (inv_eq_left_inv hC2).symm
  have hmem : ∀ j : Fin n, MemLp (fun x : EuclideanSpace ℝ (Fin n) => x j) 2 (mvn n m i) := by
    intro j
    have := (IsGaussian.memLp_two_id (μ := mvn n m i))
    exact (EuclideanSpace.proj j : EuclideanSpace ℝ (Fin n) →L[ℝ] ℝ).comp_memLp' this
  have hmean : ∀ j : Fin n, m.get [(j : ℕ)] = ∫ x, x j ∂mvn n m i := by
    intro j
    have h1 := ContinuousLinearMap.integral_comp_comm
      (EuclideanSpace.proj j : EuclideanSpace ℝ (Fin n) →L[ℝ] ℝ)
      (IsGaussian.integrable_fun_id (μ := mvn n m i))
    rw [mvn, integral_id_multivariateGaussian] at h1
    exact h1.symm
  have hcov : ∀ j k : Fin n, C.at2 j k = cov[fun x => x j, fun x => x k; mvn n m i] := by
    intro j k
    rw [mvn, covariance_eval_multivariateGaussian hpd.inv.posSemidef, ← hCi]
    rfl
  refine ⟨m, C, O, he, hC, hO, hmean, hcov, fun j k => ?_⟩
  have := covariance_eq_sub (hmem j) (hmem k)
  rw [hO2, hcov, this, ← hmean, ← hmean]
  simp only [Pi.mul_apply]
  ring

theorem setFree_posdef {l : Leaf} {n : ℕ} {lb : ℝ} (hk : l.kind = .posdef n lb) (h0 : 0 ≤ lb)
    {x : List ℝ} (hx : x.length = (Kind.posdef n lb).freeSize) :
    ∃ l', l.setFree x = .ok l' ∧ IsMat l'.val n n ∧ (asMatrix n l'.val).PosDef := by
  obtain ⟨a, e1, e2, e3, e4, -⟩ := C19_unpack_posdef n x lb hx
  refine ⟨{ l with val := a, boxed := false }, ?_, e2, ?_⟩
  · unfold Leaf.setFree
    rw [hk]
    simp only [Kind.freeSize] at hx
    simp only [hx, ne_eq, not_true_eq_false, if_false, e1, py_ok_bind]
    unfold Leaf.set
    rw [hk]
    simp [e2.2, e3]
  · have := e4.add_posSemidef (PosSemidef.one.smul h0)
    simpa using this

/-- **C84** The hypotheses hold: after any history of calls on an `MVNParam` constructed with a
nonnegative `min_info`, `set_free` with a vector of the right size succeeds and leaves a mean vector
and a positive definite information matrix. -/
theorem C84_after_set_free (name : String) (n : ℕ) (minInfo : ℝ) (h0 : 0 ≤ minInfo)
    (ops : List ParamOp) :
    ∃ p, mkMVN name n minInfo = .ok p ∧ p.freeSize = n + n * (n + 1) / 2 ∧
      ∀ x, x.length = n + n * (n + 1) / 2 →
        ∃ q m i, (p.run ops).setFree x = (q, none) ∧ HoldsMvn q n m i ∧ (asMatrix n i).PosDef := by
  have b1 : (Flt.ninf : Flt) < Flt.pinf := by simp
  have hne : ("mean" : String) ≠ "info" := by decide
  obtain ⟨l1, m1, n1, k1⟩ := mkVector_kind (name := "mean") (n := n) b1
  have m2 : mkPosDef "info" n minInfo none =
      .ok ⟨"info", .posdef n minInfo, diagArr n (minInfo + 1), false⟩ := by
    rw [mkPosDef, if_neg (by simpa using h0)]
  have hp := pair_push name (l1 := l1)
    (l2 := ⟨"info", .posdef n minInfo, diagArr n (minInfo + 1), false⟩) (by rw [n1]; exact hne)
  rw [n1, k1] at hp
  refine ⟨_, by unfold mkMVN; rw [m1, m2]; rfl, hp.freeSize, fun x hx => ?_⟩
  obtain ⟨q, a, b, h1, h2, h3, h4, h5⟩ := (hp.run ops).setFree hne
    (P1 := fun a => IsArr a [n]) (P2 := fun a => IsMat a n n ∧ (asMatrix n a).PosDef)
    (fun l hk x hx => by
      obtain ⟨l', e1, e2⟩ := setFree_vector hk b1 hx
      exact ⟨l', e1, e2.1⟩)
    (fun l hk x hx => setFree_posdef hk h0 hx)
    (x := x) (by rw [(hp.run ops).freeSize, hx]; rfl)
  exact ⟨q, a, b, h1, ⟨h2, h4, h3, h5.1⟩, h5.2⟩

/-- A two-dimensional parameter. -/
example : ∃ p q m i, mkMVN "b" 2 0.5 = .ok p ∧
    (p.run [.setFree [1]]).setFree [1, 2, 0.1, 0.2, 0.3] = (q, none) ∧ HoldsMvn q 2 m i ∧
    (asMatrix 2 i).PosDef := by
  obtain ⟨p, h1, -, h2⟩ := C84_after_set_free "b" 2 0.5 (by norm_num) [.setFree [1]]
  obtain ⟨q, m, i, h3, h4, h5⟩ := h2 [1, 2, 0.1, 0.2, 0.3] (by simp)
  exact ⟨p, q, m, i, h1, h3, h4, h5⟩

end

end LRVB
