import Verif.Lemmas.WishartCongr
import Verif.Props.Wishart
import Verif.Lemmas.Einsum

/-!
# The Wishart distribution: C98, C99
-/

namespace LRVB

open Arr ExpFam Families MeasureTheory

noncomputable section

variable {n : ℕ}

/-! ### The functions of the model -/

theorem mapM_range_ok {f : ℝ → Py ℝ} {g : ℝ → ℝ} (h : ∀ x, 0 < x → f x = .ok (g x)) {x : ℝ} :
    ∀ {l : List ℝ}, (∀ y ∈ l, 0 < y) → l.mapM f = .ok (l.map g)
  | [], _ => rfl
  | y :: l, hl => by
    rw [List.mapM_cons, h y (hl y (by simp)), py_ok_bind,
      mapM_range_ok (x := x) h fun z hz => hl z (by simp [hz])]
    rfl

theorem mvArgs_pos {df : ℝ} (hdf : (n : ℝ) - 1 < df) : ∀ y ∈ mvArgs (0.5 * df) n, 0 < y := by
  intro y hy
  simp only [mvArgs, List.mem_map, List.mem_range] at hy
  obtain ⟨i, hi, rfl⟩ := hy
  have : (i : ℝ) + 1 ≤ n := by exact_mod_cast hi
  linarith

theorem mvArgs_sum (g : ℝ → ℝ) (df : ℝ) (n : ℕ) :
    ((mvArgs (0.5 * df) n).map g).sum = ∑ j ∈ Finset.range n, g (df / 2 - (j : ℝ) / 2) := by
  rw [mvArgs, List.map_map, ← sum_map_range]
  refine congrArg List.sum (List.map_congr_left fun i _ => ?_)
  simp only [Function.comp_apply]
  congr 1
  ring

theorem multivariateDigamma_ok {df : ℝ} (hdf : (n : ℝ) - 1 < df) :
    multivariateDigamma (0.5 * df) n = .ok (∑ j ∈ Finset.range n, psi (df / 2 - (j : ℝ) / 2)) := by
  unfold multivariateDigamma
  rw [mapM_range_ok (x := 0) (g := psi) (fun x hx => by rw [digammaR, if_pos hx]; rfl)
    (mvArgs_pos hdf), py_ok_bind, mvArgs_sum]

theorem multivariateGammaln_ok {df : ℝ} (hdf : (n : ℝ) - 1 < df) :
    multivariateGammaln (0.5 * df) n = .ok (Real.log (multiGamma n (df / 2))) := by
  unfold multivariateGammaln
  rw [mapM_range_ok (x := 0) (g := fun x => Real.log (Real.Gamma x))
    (fun x hx => by rw [gammalnR, if_pos hx]) (mvArgs_pos hdf), py_ok_bind, mvArgs_sum,
    log_multiGamma (half_df hdf), show (1.0 : ℝ) = 1 by norm_num, show (0.25 : ℝ) = 1 / 4 by norm_num]
  congr 1
  ring

theorem logDet_ok {v : Arr} (h : v.shape = [n, n]) (hv : (asMatrix n v).PosDef) :
    logDet v = .ok (Real.log (asMatrix n v).det) := by
  unfold logDet
  rw [h]
  simp only [ne_eq, not_true_eq_false, if_false]
  exact if_pos hv.det_pos

theorem eLogDetWishart_ok {df : ℝ} {v : Arr} (h : v.shape = [n, n]) (hdf : (n : ℝ) - 1 < df)
    (hv : (asMatrix n v).PosDef) :
    eLogDetWishart df v = .ok (∑ j ∈ Finset.range n, psi (df / 2 - (j : ℝ) / 2) +
      n * Real.log 2 + Real.log (asMatrix n v).det) := by
  unfold eLogDetWishart
  rw [h]
  simp only [ne_eq, not_true_eq_false, if_false]
  rw [logDet_ok h hv, py_ok_bind, multivariateDigamma_ok hdf, py_ok_bind]

theorem inv_ok {v : Arr} (h : v.shape = [n, n]) (hv : (asMatrix n v).PosDef) :
    v.inv = .ok (ofMatrix (asMatrix n v)⁻¹) := inv_two h hv.det_pos.ne'

theorem get_ofMatrix (M : Matrix (Fin n) (Fin n) ℝ) (i j : Fin n) :
    (ofMatrix M).get [(i : ℕ), (j : ℕ)] = M i j := by
  rw [get_two rfl, ofMatrix, at2_ofFn2 _ _ _ i.2 j.2, dif_pos ⟨i.2, j.2⟩]

theorem exists_of_forall₂_one {idx : List ℕ} (h : List.Forall₂ (· < ·) idx [n]) :
    ∃ i : Fin n, idx = [(i : ℕ)] := by
  cases h with
  | cons h1 h2 => cases h2; exact ⟨⟨_, h1⟩, rfl⟩

theorem eLogInvWishartDiag_ok {df : ℝ} {v : Arr} (h : v.shape = [n, n]) (hdf : (n : ℝ) - 1 < df)
    (hv : (asMatrix n v).PosDef) :
    ∃ a, eLogInvWishartDiag df v = .ok a ∧ IsArr a [n] ∧ ∀ i : Fin n,
      a.get [(i : ℕ)] = Real.log ((asMatrix n v)⁻¹ i i) - psi ((df - n + 1) / 2) - Real.log 2 := by
  unfold eLogInvWishartDiag
  rw [h]
  simp only [ne_eq, not_true_eq_false, if_false]
  rw [inv_ok h hv, py_ok_bind, log_ofFn (fun idx hi => by
      obtain ⟨i, rfl⟩ := exists_of_forall₂_one hi
      rw [List.singleton_append, get_ofMatrix]
      exact inv_diag_pos hv i), py_ok_bind, digammaR, if_pos (by norm_num; linarith)]
  simp only [Arr.minus, bin_scalar_right, py_ok_bind, ofFn_shape]
  refine ⟨_, rfl, ⟨ofFn_WF _ _, rfl⟩, fun i => ?_⟩
  have hi : List.Forall₂ (· < ·) [(i : ℕ)] [n] := .cons i.2 .nil
  rw [get_ofFn _ hi, get_ofFn _ hi, get_ofFn _ hi, List.singleton_append, get_ofMatrix]
  congr 2
  unfold psi
  congr 1
  ring

theorem sumAll_vec {a : Arr} (h : IsArr a [n]) : a.sumAll = ∑ i : Fin n, a.get [(i : ℕ)] := by
  conv_lhs => rw [arr_eq h]
  rw [sumAll_ofFn]
  have h1 : indexProduct [n] = (List.range n).map fun i => [i] := by
    simp only [indexProduct, List.map_cons, List.map_nil]
    exact List.flatMap_pure_eq_map _ _
  rw [h1, List.map_map, Fin.sum_univ_eq_sum_range fun i => a.get [i]]
  exact sum_map_range n fun i => a.get [i]

/-! ### C98 -/

/-- **C98** The Wishart density with `df > n - 1` degrees of freedom and positive definite scale
matrix is a probability density. -/
theorem C98_density {df : ℝ} {v : Matrix (Fin n) (Fin n) ℝ} (hdf : (n : ℝ) - 1 < df)
    (hv : v.PosDef) :
    IsProbabilityMeasure (wishart n df v) ∧ ∀ᵐ z ∂wishart n df v, (symmMat z).PosDef :=
  ⟨wishart_prob hdf hv, wishart_posDef hv⟩

/-- **C98** `e_log_det_wishart(df, v)` is the mean of `log det X`. -/
theorem C98_log_det {df : ℝ} {v : Arr} (h : IsMat v n n) (hdf : (n : ℝ) - 1 < df)
    (hv : (asMatrix n v).PosDef) :
    Integrable (fun z => Real.log (symmMat z).det) (wishart n df (asMatrix n v)) ∧
      eLogDetWishart df v = .ok (∫ z, Real.log (symmMat z).det ∂wishart n df (asMatrix n v)) := by
  obtain ⟨h1, h2⟩ := wishart_logdet hdf hv
  exact ⟨h1, by rw [h2, eLogDetWishart_ok h.2 hdf hv]⟩

/-- **C98** Entry `i` of `e_log_inv_wishart_diag(df, v)` is the mean of `log (X⁻¹)ᵢᵢ`. -/
theorem C98_log_inv_diag {df : ℝ} {v : Arr} (h : IsMat v n n) (hdf : (n : ℝ) - 1 < df)
    (hv : (asMatrix n v).PosDef) :
    ∃ a, eLogInvWishartDiag df v = .ok a ∧ IsArr a [n] ∧ ∀ i : Fin n,
      Integrable (fun z => Real.log ((symmMat z)⁻¹ i i)) (wishart n df (asMatrix n v)) ∧
      a.get [(i : ℕ)] = ∫ z, Real.log ((symmMat z)⁻¹ i i) ∂wishart n df (asMatrix n v) := by
  obtain ⟨a, e1, e2, e3⟩ := eLogInvWishartDiag_ok h.2 hdf hv
  refine ⟨a, e1, e2, fun i => ?_⟩
  obtain ⟨h1, h2⟩ := wishart_log_inv_diag hdf hv i
  exact ⟨h1, by rw [e3, h2]⟩

/-- **C98** `expected_ljk_prior(lkj_param, df, v)` is the mean of `(lkj_param - 1) log det R`, where `R`
is the correlation matrix of the covariance matrix `X⁻¹`. -/
theorem C98_lkj (lkj : ℝ) {df : ℝ} {v : Arr} (h : IsMat v n n) (hdf : (n : ℝ) - 1 < df)
    (hv : (asMatrix n v).PosDef) :
    Integrable (fun z => Real.log (corr (symmMat z)⁻¹).det) (wishart n df (asMatrix n v)) ∧
      expectedLkjPrior lkj df v =
        .ok (∫ z, (lkj - 1) * Real.log (corr (symmMat z)⁻¹).det ∂wishart n df (asMatrix n v)) := by
  obtain ⟨h1, h2⟩ := wishart_lkj hdf hv
  refine ⟨h1, ?_⟩
  obtain ⟨a, e1, e2, e3⟩ := eLogInvWishartDiag_ok h.2 hdf hv
  unfold expectedLkjPrior
  rw [eLogDetWishart_ok h.2 hdf hv, py_ok_bind, e1, py_ok_bind, sumAll_vec e2,
    Finset.sum_congr rfl fun i _ => e3 i, integral_const_mul, h2]
  congr 1
  ring

/-- **C98** `wishart_entropy(df, v)` is the differential entropy of the Wishart density. -/
theorem C98_entropy {df : ℝ} {v : Arr} (h : IsMat v n n) (hdf : (n : ℝ) - 1 < df)
    (hv : (asMatrix n v).PosDef) :
    wishartEntropy df v = .ok (-∫ z, wishartPdf n df (asMatrix n v) z *
      Real.log (wishartPdf n df (asMatrix n v) z)) := by
  rw [wishart_entropy_eq hdf hv]
  unfold wishartEntropy
  rw [h.2]
  simp only [ne_eq, not_true_eq_false, if_false]
  rw [logDet_ok h.2 hv, py_ok_bind, multivariateGammaln_ok hdf, py_ok_bind,
    multivariateDigamma_ok hdf, py_ok_bind]
  congr 1
  ring

/-! ### The methods of the parameter -/

/-- The parameter holds the degrees of freedom `d` and the positive definite scale matrix `v`. -/
structure HoldsWishart (p : Param) (n : ℕ) (d : ℝ) (v : Arr) : Prop where
  df : ∃ a, Holds p "df" a ∧ IsArr a [1] ∧ a.get [0] = d
  scale : Holds p "v" v
  mat : IsMat v n n
  above : (n : ℝ) - 1 < d
  posDef : (asMatrix n v).PosDef

theorem one_entry {a : Arr} (h : IsArr a [1]) : a = ⟨[1], [a.get [0]]⟩ := by
  conv_lhs => rw [arr_eq h]
  simp [ofFn, indexProduct, List.range_succ]

theorem bshape_one_mat (n : ℕ) : bshape [1] [n, n] = .ok [n, n] := by
  have h := bshape_single_snoc (s := [n]) (bdim_one_left n)
  exact h

theorem mul_one_mat {d : ℝ} {v : Arr} (h : IsMat v n n) :
    (⟨[1], [d]⟩ : Arr).mul v = .ok (ofFn [n, n] fun idx => d * v.get idx) := by
  unfold Arr.mul bin
  rw [h.2, bshape_one_mat, py_ok_bind]
  congr 1
  refine ofFn_congr fun idx hi => ?_
  have hv : v.bget idx = v.get idx := bget_self (by rw [h.2]; exact hi)
  obtain ⟨i, j, rfl, hi, hj⟩ := exists_of_forall₂_two hi
  rw [hv]
  simp [bget, bIndex, Arr.get, flat]

/-- **C98** `e()`, `e_log_det()`, `entropy()` and `e_log_lkj_inv_prior(lkj_param)` of a Wishart
parameter are the mean, the mean of the log determinant, the differential entropy, and the expected LKJ
prior of the inverse. -/
theorem C98_methods {p : Param} {d : ℝ} {v : Arr} (h : HoldsWishart p n d v) (lkj : ℝ) :
    (∃ m, wishartE p = .ok m ∧ IsMat m n n ∧ ∀ i j : Fin n,
      Integrable (fun z => symmMat z i j) (wishart n d (asMatrix n v)) ∧
      m.at2 i j = ∫ z, symmMat z i j ∂wishart n d (asMatrix n v)) ∧
    wishartELogDet p = .ok (∫ z, Real.log (symmMat z).det ∂wishart n d (asMatrix n v)) ∧
    wishartParEntropy p = .ok (-∫ z, wishartPdf n d (asMatrix n v) z *
      Real.log (wishartPdf n d (asMatrix n v) z)) ∧
    wishartLkj p lkj =
      .ok (∫ z, (lkj - 1) * Real.log (corr (symmMat z)⁻¹).det ∂wishart n d (asMatrix n v)) := by
  obtain ⟨a, ha, h1, h2⟩ := h.df
  have e1 := ha.item
  rw [one_entry h1, h2] at e1
  have e2 := h.scale.item
  have hn : number ⟨[1], [d]⟩ = .ok d := rfl
  refine ⟨?_, ?_, ?_, ?_⟩
  · unfold wishartE
    rw [e1, py_ok_bind, e2, py_ok_bind, mul_one_mat h.mat]
    refine ⟨_, rfl, ⟨ofFn_WF _ _, rfl⟩, fun i j => ?_⟩
    obtain ⟨h1, h2⟩ := wishart_mean h.above h.posDef i j
    refine ⟨h1, ?_⟩
    rw [at2_ofFn _ i.2 j.2, h2, get_two h.mat.2]
    rfl
  · unfold wishartELogDet
    rw [e1, py_ok_bind, hn, py_ok_bind, e2, py_ok_bind, (C98_log_det h.mat h.above h.posDef).2]
  · unfold wishartParEntropy
    rw [e1, py_ok_bind, hn, py_ok_bind, e2, py_ok_bind, C98_entropy h.mat h.above h.posDef]
  · unfold wishartLkj
    rw [e1, py_ok_bind, hn, py_ok_bind, e2, py_ok_bind, (C98_lkj lkj h.mat h.above h.posDef).2]

/-- Every `WishartParam` with `size` at least two that was set from an unconstrained vector, after any history of
calls, meets the hypotheses of `C98_methods`, as a parameter of two by two matrices. -/
theorem C98_reachable (name : String) (size : ℕ) (hs : 2 ≤ size) (diagLb : ℝ) (h0 : 0 ≤ diagLb) (minDf : Option ℝ)
    (hmin : ∀ d, minDf = some d → d ≠ 0 → (size : ℝ) - 1 ≤ d) (ops : List ParamOp) :
    ∃ p, mkWishart name size diagLb minDf = .ok ⟨p, [size]⟩ ∧ p.freeSize = 4 ∧
      ∀ x, x.length = 4 → ∃ q d v, (p.run ops).setFree x = (q, none) ∧ HoldsWishart q 2 d v ∧ (size : ℝ) - 1 < d := by
  obtain ⟨p, h1, h2, -, h3⟩ := wishart_setFree name size diagLb h0 minDf hmin ops
  refine ⟨p, h1, h2, fun x hx => ?_⟩
  obtain ⟨q, df, v, e1, e2, e3, e4, e5, e6, e7, e8⟩ := h3 x hx
  refine ⟨q, _, v, e1, ⟨⟨df, e2, e3, rfl⟩, e6, e7, ?_, e8⟩, e4⟩
  have : (2 : ℝ) ≤ size := by exact_mod_cast hs
  norm_num
  linarith

/-! ### C99 -/

/-- What `e_inv()` returns. -/
theorem wishartEInv_ok {p : Param} {d : ℝ} {v : Arr} (h : HoldsWishart p n d v) :
    ∃ m, wishartEInv p = .ok m ∧ IsMat m n n ∧ ∀ i j : Fin n,
      m.at2 i j = d * (asMatrix n v)⁻¹ i j := by
  obtain ⟨a, ha, h1, h2⟩ := h.df
  have e1 := ha.item
  rw [one_entry h1, h2] at e1
  have hm : IsMat (ofMatrix (asMatrix n v)⁻¹) n n := ⟨ofFn2_WF _ _ _, rfl⟩
  unfold wishartEInv
  rw [e1, py_ok_bind, h.scale.item, py_ok_bind, inv_ok h.mat.2 h.posDef, py_ok_bind,
    mul_one_mat hm]
  refine ⟨_, rfl, ⟨ofFn_WF _ _, rfl⟩, fun i j => ?_⟩
  rw [at2_ofFn _ i.2 j.2, get_ofMatrix]

/-- **C99**, what is returned: `df` times the inverse of `v`, which is `df (df - n - 1)` times the mean of
the inverse.  Missing: the factor. -/
theorem C99_e_inv_partial {p : Param} {d : ℝ} {v : Arr} (h : HoldsWishart p n d v)
    (hd : (n : ℝ) + 1 < d) :
    ∃ m, wishartEInv p = .ok m ∧ IsMat m n n ∧
      (∀ i j : Fin n, m.at2 i j = d * (asMatrix n v)⁻¹ i j) ∧
      ∀ i j : Fin n, Integrable (fun z => (symmMat z)⁻¹ i j) (wishart n d (asMatrix n v)) ∧
        m.at2 i j = d * (d - n - 1) * ∫ z, (symmMat z)⁻¹ i j ∂wishart n d (asMatrix n v) := by
  obtain ⟨m, h1, h2, h3⟩ := wishartEInv_ok h
  refine ⟨m, h1, h2, h3, fun i j => ?_⟩
  obtain ⟨i1, i2⟩ := wishart_inv_mean_all hd h.posDef i j
  refine ⟨i1, ?_⟩
  rw [h3, i2]
  have : d - n - 1 ≠ 0 := by intro h; linarith
  field_simp

/-- **C99** is false of the code: unless `df (df - n - 1) = 1`, no diagonal entry, and no other entry
that is not zero, of what `e_inv()` returns is the mean of that entry of the inverse. -/
theorem C99_e_inv_counterexample {p : Param} {d : ℝ} {v : Arr} (h : HoldsWishart p n d v)
    (hd : (n : ℝ) + 1 < d) (hne : d * (d - n - 1) ≠ 1) :
    ∃ m, wishartEInv p = .ok m ∧ (∀ i : Fin n, m.at2 i i ≠ 0) ∧
      ∀ i j : Fin n, m.at2 i j ≠ 0 →
        m.at2 i j ≠ ∫ z, (symmMat z)⁻¹ i j ∂wishart n d (asMatrix n v) := by
  obtain ⟨m, h1, -, h2, h3⟩ := C99_e_inv_partial h hd
  refine ⟨m, h1, fun i => ?_, fun i j h0 he => hne ?_⟩
  · rw [h2]
    have := inv_diag_pos h.posDef i
    have hd0 : 0 < d := by have : (0 : ℝ) ≤ n := n.cast_nonneg; linarith
    positivity
  · have h4 := (h3 i j).2
    rw [← he] at h4
    exact (mul_right_cancel₀ h0 (by linarith)).symm

/-- A parameter that holds five degrees of freedom and the identity matrix meets the hypotheses. -/
theorem C99_case : ∃ p, HoldsWishart p 2 5 ⟨[2, 2], [1, 0, 0, 1]⟩ := by
  refine ⟨((Param.emptyDict "w").push (.leaf ⟨"df", .scalar (.fin 1) .pinf, ⟨[1], [5]⟩, false⟩)).push
    (.leaf ⟨"v", .posdef 2 0, ⟨[2, 2], [1, 0, 0, 1]⟩, false⟩),
    ⟨⟨⟨[1], [5]⟩, ?_, ⟨rfl, rfl⟩, rfl⟩, ?_, ⟨rfl, rfl⟩, by norm_num, ?_⟩⟩
  · simp [Holds, Param.viewGet, Param.emptyDict, Param.push, Entries.assign, Entries.find,
      Param.name]
    rfl
  · simp [Holds, Param.viewGet, Param.emptyDict, Param.push, Entries.assign, Entries.find,
      Param.name]
    rfl
  · have : asMatrix 2 ⟨[2, 2], [1, 0, 0, 1]⟩ = 1 := by
      ext i j
      fin_cases i <;> fin_cases j <;> simp [asMatrix, Arr.at2]
    rw [this]
    exact Matrix.PosDef.one

example : (5 : ℝ) * (5 - (2 : ℕ) - 1) ≠ 1 ∧ ((2 : ℕ) : ℝ) + 1 < 5 := by norm_num

end

end LRVB
