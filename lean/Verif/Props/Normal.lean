import Verif.Spec.Families
import Verif.Lemmas.Families
import Verif.Lemmas.NormalDist
import Verif.Props.Leaf
import Verif.Model.Modeling

/-!
# Univariate normal parameters: C72–C76
-/

namespace LRVB

open MeasureTheory ProbabilityTheory

noncomputable section

open Arr ExpFam Families

theorem varOf_coe {i : ℝ} (h : 0 < i) : ((varOf i : NNReal) : ℝ) = 1 / i :=
  Real.coe_toNNReal _ (by positivity)

theorem varOf_ne_zero {i : ℝ} (h : 0 < i) : varOf i ≠ 0 := by
  intro h0
  have := varOf_coe h
  rw [h0] at this
  simp at this
  linarith

theorem Holds.item {p : Param} {k : String} {v : Arr} (h : Holds p k v) : p.item k = .ok v := by
  unfold Param.item
  rw [h]; rfl

theorem IsPosArr.ne_zero {a : Arr} {s : List ℕ} (h : IsPosArr a s) : ∀ x ∈ a.data, x ≠ 0 :=
  forall_data h.1.1 (P := fun x => x ≠ 0) fun idx hi => (h.2 idx (h.1.2 ▸ hi)).ne'

theorem recip_ok {a : Arr} {s : List ℕ} (h : IsPosArr a s) :
    (scalar 1).div a = .ok (ofFn s fun idx => 1 / a.get idx) := by
  rw [div_eq h.ne_zero, bin_scalar_left, h.1.2]

theorem map_arr {a : Arr} {s : List ℕ} (h : IsArr a s) (g : ℝ → ℝ) :
    a.map g = ofFn s fun idx => g (a.get idx) := by rw [map_eq_ofFn h.1, h.2]

theorem arr_eq {a : Arr} {s : List ℕ} (h : IsArr a s) : a = ofFn s a.get := by
  rw [← h.2]; exact (ofFn_get h.1).symm

theorem ofFn_arr (s : List ℕ) (f : List ℕ → ℝ) : IsArr (ofFn s f) s := ⟨ofFn_WF s f, rfl⟩

theorem getELognormal_ofFn (s : List ℕ) (m v : List ℕ → ℝ) :
    getELognormal (ofFn s m) (ofFn s v) =
      .ok (ofFn s fun idx => Real.exp (m idx + 0.5 * v idx)) := by
  unfold getELognormal add
  rw [map_ofFn, bin_ofFn, py_ok_bind, exp_ofFn]

theorem getVarLognormal_ofFn (s : List ℕ) (m v : List ℕ → ℝ) :
    getVarLognormal (ofFn s m) (ofFn s v) =
      .ok (ofFn s fun idx => (Real.exp (v idx) - 1) * Real.exp (m idx + 0.5 * v idx) ^ 2) := by
  unfold getVarLognormal
  rw [getELognormal_ofFn, py_ok_bind]
  unfold minus mul
  rw [exp_ofFn, bin_scalar_right, py_ok_bind, map_ofFn]
  rw [show (ofFn (ofFn s fun idx => Real.exp (v idx)).shape
    fun idx => (ofFn s fun idx => Real.exp (v idx)).get idx - 1) =
      ofFn s fun idx => Real.exp (v idx) - 1 from
        ofFn_congr fun idx hi => by rw [get_ofFn (s := s) _ hi]]
  rw [bin_ofFn]

/-! ## C72 -/

/-- **C72** For arrays of means and nonnegative variances of any shape, `get_e_lognormal` and
`get_var_lognormal` return the mean and the variance of `exp(X)` for `X` normal with that mean and
that variance. -/
theorem C72_lognormal_moments (s : List ℕ) (mu v : Arr) (hm : IsArr mu s) (hv : IsArr v s)
    (h0 : ∀ idx, InShape idx s → 0 ≤ v.get idx) :
    getELognormal mu v = .ok (ofFn s fun idx =>
      ∫ x, Real.exp x ∂gaussianReal (mu.get idx) (Real.toNNReal (v.get idx))) ∧
    getVarLognormal mu v = .ok (ofFn s fun idx =>
      Var[Real.exp; gaussianReal (mu.get idx) (Real.toNNReal (v.get idx))]) := by
  rw [arr_eq hm, arr_eq hv, getELognormal_ofFn, getVarLognormal_ofFn]
  constructor
  · congr 1
    refine ofFn_congr fun idx hi => ?_
    rw [integral_exp_gaussianReal, get_ofFn _ hi, get_ofFn _ hi, Real.coe_toNNReal _ (h0 idx hi)]
    congr 1; ring
  · congr 1
    refine ofFn_congr fun idx hi => ?_
    rw [variance_exp_gaussianReal, get_ofFn _ hi, get_ofFn _ hi, Real.coe_toNNReal _ (h0 idx hi)]
    congr 3; ring

/-- **C72** The methods of `UVNParam`, `UVNParamVector` and `UVNParamArray` return, for every
component, the mean and the second moment of `X`, its variance, and the mean, the variance and the
second moment of `exp(X)`, where `X` is normal with the held mean and precision. -/
theorem C72_uvn_moments (p : Param) (s : List ℕ) (m i : Arr) (h : HoldsNormals p s m i) :
    uvnE p = .ok (ofFn s fun idx => ∫ x, x ∂normal (m.get idx) (i.get idx)) ∧
    uvnEOuter p = .ok (ofFn s fun idx => ∫ x, x ^ 2 ∂normal (m.get idx) (i.get idx)) ∧
    uvnVar p = .ok (ofFn s fun idx => Var[id; normal (m.get idx) (i.get idx)]) ∧
    uvnEExp p = .ok (ofFn s fun idx => ∫ x, Real.exp x ∂normal (m.get idx) (i.get idx)) ∧
    uvnVarExp p = .ok (ofFn s fun idx => Var[Real.exp; normal (m.get idx) (i.get idx)]) ∧
    uvnE2Exp p = .ok (ofFn s fun idx => ∫ x, Real.exp x ^ 2 ∂normal (m.get idx) (i.get idx)) := by
  have hm := h.mean.item
  have hi := h.info.item
  have ha := h.mean_arr
  have hp := h.info_arr
  have e0 : ∀ idx, InShape idx s → ((varOf (i.get idx) : NNReal) : ℝ) = 1 / i.get idx :=
    fun idx hx => varOf_coe (hp.2 idx hx)
  have eE : uvnEExp p = .ok (ofFn s fun idx => Real.exp (m.get idx + 0.5 * (1 / i.get idx))) := by
    unfold uvnEExp
    rw [hm, hi, py_ok_bind, py_ok_bind, recip_ok hp, py_ok_bind]
    conv_lhs => rw [arr_eq ha]
    rw [getELognormal_ofFn]
  have eV : uvnVarExp p = .ok (ofFn s fun idx =>
      (Real.exp (1 / i.get idx) - 1) * Real.exp (m.get idx + 0.5 * (1 / i.get idx)) ^ 2) := by
    unfold uvnVarExp
    rw [hm, hi, py_ok_bind, py_ok_bind, recip_ok hp, py_ok_bind]
    conv_lhs => rw [arr_eq ha]
    rw [getVarLognormal_ofFn]
  refine ⟨?_, ?_, ?_, ?_, ?_, ?_⟩
  · unfold uvnE
    rw [hm]
    conv_lhs => rw [arr_eq ha]
    congr 1
    exact ofFn_congr fun idx hx => by rw [normal, integral_id_gaussianReal]
  · unfold uvnEOuter add
    rw [hm, hi, py_ok_bind, py_ok_bind, recip_ok hp, py_ok_bind, map_arr ha, bin_ofFn]
    congr 1
    exact ofFn_congr fun idx hx => by rw [normal, integral_sq_gaussianReal, e0 idx hx]
  · unfold uvnVar
    rw [hi, py_ok_bind, recip_ok hp]
    congr 1
    exact ofFn_congr fun idx hx => by rw [normal, variance_id_gaussianReal, e0 idx hx]
  · rw [eE]
    congr 1
    refine ofFn_congr fun idx hx => ?_
    rw [normal, integral_exp_gaussianReal, e0 idx hx]
    congr 1; ring
  · rw [eV]
    congr 1
    refine ofFn_congr fun idx hx => ?_
    rw [normal, variance_exp_gaussianReal, e0 idx hx]
    congr 3; ring
  · unfold uvnE2Exp add
    rw [eE, py_ok_bind, eV, py_ok_bind, map_ofFn, bin_ofFn]
    congr 1
    refine ofFn_congr fun idx hx => ?_
    rw [normal, integral_exp_sq_gaussianReal, e0 idx hx, sub_mul, one_mul, ← Real.exp_nat_mul,
      ← Real.exp_add, add_sub_cancel]
    congr 1
    push_cast; ring

/-- **C72** The hypotheses hold: after any history of calls on a `UVNParam`, a `UVNParamVector` or a
`UVNParamArray` constructed with a nonnegative `min_info`, `set_free` with a vector of the right size
succeeds and leaves arrays of means and positive precisions. -/
theorem C72_after_set_free (name : String) (minInfo : ℝ) (h0 : 0 ≤ minInfo) (n : ℕ) (s : List ℕ)
    (ops : List ParamOp) :
    (∃ p, mkUVN name minInfo = .ok p ∧ p.freeSize = 2 ∧ ∀ x, x.length = 2 →
      ∃ q m i, (p.run ops).setFree x = (q, none) ∧ HoldsNormals q [1] m i) ∧
    (∃ p, mkUVNVector name n minInfo = .ok ⟨p, [n]⟩ ∧ p.freeSize = 2 * n ∧ ∀ x, x.length = 2 * n →
      ∃ q m i, (p.run ops).setFree x = (q, none) ∧ HoldsNormals q [n] m i) ∧
    (∃ p, mkUVNArray name s minInfo = .ok ⟨p, s⟩ ∧ p.freeSize = 2 * s.prod ∧
      ∀ x, x.length = 2 * s.prod →
      ∃ q m i, (p.run ops).setFree x = (q, none) ∧ HoldsNormals q s m i) := by
  have b1 : (Flt.ninf : Flt) < Flt.pinf := by simp
  have b2 : (Flt.fin minInfo : Flt) < Flt.pinf := by simp
  have hne : ("mean" : String) ≠ "info" := by decide
  refine ⟨?_, ?_, ?_⟩
  · obtain ⟨l1, m1, n1, k1⟩ := mkScalar_kind (name := "mean") b1
    obtain ⟨l2, m2, n2, k2⟩ := mkScalar_kind (name := "info") b2
    have hp := pair_push name (l1 := l1) (l2 := l2) (by rw [n1, n2]; exact hne)
    rw [n1, n2, k1, k2] at hp
    refine ⟨_, by unfold mkUVN; rw [m1, m2]; rfl, hp.freeSize, fun x hx => ?_⟩
    obtain ⟨q, a, b, h1, h2, h3, h4, h5⟩ := (hp.run ops).setFree hne
      (P1 := fun a => Inside a [1] Flt.ninf Flt.pinf)
      (P2 := fun a => Inside a [1] (Flt.fin minInfo) Flt.pinf)
      (fun l hk x hx => setFree_scalar hk b1 hx) (fun l hk x hx => setFree_scalar hk b2 hx)
      (x := x) (by rw [(hp.run ops).freeSize]; exact hx)
    exact ⟨q, a, b, h1, h2, h4, h3.1, h5.pos h0⟩
  · obtain ⟨l1, m1, n1, k1⟩ := mkVector_kind (name := "mean") (n := n) b1
    obtain ⟨l2, m2, n2, k2⟩ := mkVector_kind (name := "info") (n := n) b2
    have hp := pair_push name (l1 := l1) (l2 := l2) (by rw [n1, n2]; exact hne)
    rw [n1, n2, k1, k2] at hp
    refine ⟨_, by unfold mkUVNVector; rw [m1, m2]; rfl, by rw [hp.freeSize, two_mul]; rfl,
      fun x hx => ?_⟩
    obtain ⟨q, a, b, h1, h2, h3, h4, h5⟩ := (hp.run ops).setFree hne
      (P1 := fun a => Inside a [n] Flt.ninf Flt.pinf)
      (P2 := fun a => Inside a [n] (Flt.fin minInfo) Flt.pinf)
      (fun l hk x hx => setFree_vector hk b1 hx) (fun l hk x hx => setFree_vector hk b2 hx)
      (x := x) (by rw [(hp.run ops).freeSize, hx, two_mul]; rfl)
    exact ⟨q, a, b, h1, h2, h4, h3.1, h5.pos h0⟩
  · obtain ⟨l1, m1, n1, k1⟩ := mkArray_kind (name := "mean") (s := s) b1
    obtain ⟨l2, m2, n2, k2⟩ := mkArray_kind (name := "info") (s := s) b2
    have hp := pair_push name (l1 := l1) (l2 := l2) (by rw [n1, n2]; exact hne)
    rw [n1, n2, k1, k2] at hp
    refine ⟨_, by unfold mkUVNArray; rw [m1, m2]; rfl, by rw [hp.freeSize, two_mul]; rfl,
      fun x hx => ?_⟩
    obtain ⟨q, a, b, h1, h2, h3, h4, h5⟩ := (hp.run ops).setFree hne
      (P1 := fun a => Inside a s Flt.ninf Flt.pinf)
      (P2 := fun a => Inside a s (Flt.fin minInfo) Flt.pinf)
      (fun l hk x hx => setFree_array hk b1 hx) (fun l hk x hx => setFree_array hk b2 hx)
      (x := x) (by rw [(hp.run ops).freeSize, hx, two_mul]; rfl)
    exact ⟨q, a, b, h1, h2, h4, h3.1, h5.pos h0⟩

/-- Moments of arrays of means and variances: two components. -/
example : IsArr ⟨[2], [1, -1]⟩ [2] ∧ IsArr ⟨[2], [0, 3]⟩ [2] ∧
    ∀ idx, InShape idx [2] → 0 ≤ (⟨[2], [0, 3]⟩ : Arr).get idx :=
  ⟨⟨rfl, rfl⟩, ⟨rfl, rfl⟩, fun idx hi =>
    forall_data_get (a := ⟨[2], [0, 3]⟩) (P := fun x => 0 ≤ x) rfl (by simp) hi⟩

/-- A `UVNParamArray` of shape `(2, 3)` with `min_info=0.1`, after a call that fails and
`set_free`. -/
example : ∃ p q m i, mkUVNArray "u" [2, 3] 0.1 = .ok ⟨p, [2, 3]⟩ ∧
    ((p.run [.setFree [1]]).setFree (List.replicate 12 0.5)) = (q, none) ∧
    HoldsNormals q [2, 3] m i := by
  obtain ⟨p, h1, -, h2⟩ := (C72_after_set_free "u" 0.1 (by norm_num) 1 [2, 3] [.setFree [1]]).2.2
  obtain ⟨q, m, i, h3, h4⟩ := h2 (List.replicate 12 0.5) (by simp)
  exact ⟨p, q, m, i, h1, h3, h4⟩

/-! ## C73 -/

theorem entropy_ofFn (s : List ℕ) (f : List ℕ → ℝ)
    (h : ∀ idx, List.Forall₂ (· < ·) idx s → 0 < f idx) :
    univariateNormalEntropy (ofFn s f) = .ok (((indexProduct s).map fun idx =>
      0.5 * (-1 * Real.log (f idx) + 1 + Real.log (2 * Real.pi))).sum) := by
  unfold univariateNormalEntropy add
  rw [log_ofFn h, py_ok_bind]
  simp only [map_ofFn]
  rw [scalar_eq_ofFn, ← scalar_eq_ofFn, bin_scalar_right, py_ok_bind, bin_scalar_right, py_ok_bind]
  congr 1
  simp only [sumAll, ofFn_shape]
  rw [show ∀ g : List ℕ → ℝ, (ofFn s g).data = (indexProduct s).map g from fun _ => rfl,
    ← List.sum_map_mul_left]
  congr 1
  refine List.map_congr_left fun idx hi => ?_
  rw [get_ofFn _ (mem_indexProduct.1 hi), get_ofFn _ (mem_indexProduct.1 hi)]

/-- **C73** `univariate_normal_entropy(info)` is the sum of the differential entropies of normal
densities with the given precisions (and any means). -/
theorem C73_entropy (s : List ℕ) (info : Arr) (h : IsPosArr info s) (mean : List ℕ → ℝ) :
    univariateNormalEntropy info = .ok (((indexProduct s).map fun idx =>
      diffEntropy (normalPdf (mean idx) (info.get idx))).sum) := by
  conv_lhs => rw [arr_eq h.1]
  rw [entropy_ofFn s _ h.2]
  congr 2
  refine List.map_congr_left fun idx hi => ?_
  have hp := h.2 idx (mem_indexProduct.1 hi)
  rw [diffEntropy, normalPdf, entropy_gaussian _ (varOf_ne_zero hp), varOf_coe hp,
    Real.log_mul (x := 2 * Real.pi) (y := 1 / _) (by positivity) (by positivity),
    one_div (info.get idx),
    Real.log_inv]
  norm_num
  ring

/-- **C73** `entropy()` of `UVNParam`, `UVNParamVector` and `UVNParamArray`. -/
theorem C73_uvn_entropy (p : Param) (s : List ℕ) (m i : Arr) (h : HoldsNormals p s m i) :
    uvnEntropy p = .ok (((indexProduct s).map fun idx =>
      diffEntropy (normalPdf (m.get idx) (i.get idx))).sum) := by
  unfold uvnEntropy
  rw [h.info.item, py_ok_bind]
  exact C73_entropy s i h.info_arr m.get

example : IsPosArr ⟨[2], [1, 3]⟩ [2] :=
  ⟨⟨rfl, rfl⟩, fun _ hi => forall_data_get (a := ⟨[2], [1, 3]⟩) (P := fun x => 0 < x) rfl (by simp) hi⟩

/-! ## C74 -/

/-- **C74** For arrays of natural parameters with `e2_term < 0`, the returned mean and precision are
those of the normal density proportional to `exp(e_term x + e2_term x²)`, and the precision is
positive. -/
theorem C74_natural_parameters (s : List ℕ) (e e2 : Arr) (he : IsArr e s) (he2 : IsArr e2 s)
    (hneg : ∀ idx, InShape idx s → e2.get idx < 0) :
    ∃ mean info, getUvnFromNatural e e2 = .ok (mean, info) ∧ IsArr mean s ∧ IsPosArr info s ∧
      ∀ idx, InShape idx s → ∃ c > 0, ∀ x,
        Real.exp (e.get idx * x + e2.get idx * x ^ 2) =
          c * normalPdf (mean.get idx) (info.get idx) x := by
  have hinfo : IsPosArr (ofFn s fun idx => -2.0 * e2.get idx) s :=
    ⟨ofFn_arr s _, fun idx hi => by rw [get_ofFn _ hi]; have := hneg idx hi; norm_num; linarith⟩
  refine ⟨ofFn s fun idx => e.get idx / (-2.0 * e2.get idx), ofFn s fun idx => -2.0 * e2.get idx,
    ?_, ofFn_arr s _, hinfo, fun idx hi => ?_⟩
  · unfold getUvnFromNatural
    rw [map_arr he2]
    dsimp only
    rw [div_eq hinfo.ne_zero]
    conv_lhs => rw [arr_eq he]
    rw [bin_ofFn]
    rfl
  · have hp := hinfo.2 idx hi
    have hn := hneg idx hi
    rw [get_ofFn _ hi] at hp ⊢
    rw [get_ofFn _ hi]
    set a := e.get idx
    set b := e2.get idx
    have hb : b ≠ 0 := hn.ne
    refine ⟨√(2 * Real.pi * (1 / (-2.0 * b))) * Real.exp (-a ^ 2 / (4 * b)), ?_, fun x => ?_⟩
    · have : 0 < 2 * Real.pi * (1 / (-2.0 * b)) := by positivity
      positivity
    · rw [normalPdf, gaussianPDFReal, varOf_coe hp]
      have : 0 < 2 * Real.pi * (1 / (-2.0 * b)) := by positivity
      have hs : √(2 * Real.pi * (1 / (-2.0 * b))) ≠ 0 := by positivity
      have e1 : √(2 * Real.pi * (1 / (-2.0 * b))) * Real.exp (-a ^ 2 / (4 * b)) *
          ((√(2 * Real.pi * (1 / (-2.0 * b))))⁻¹ *
            Real.exp (-(x - a / (-2.0 * b)) ^ 2 / (2 * (1 / (-2.0 * b))))) =
          Real.exp (-a ^ 2 / (4 * b)) *
            Real.exp (-(x - a / (-2.0 * b)) ^ 2 / (2 * (1 / (-2.0 * b)))) := by
        generalize √(2 * Real.pi * (1 / (-2.0 * b))) = r at hs
        rw [mul_comm r, mul_assoc, ← mul_assoc r, mul_inv_cancel₀ hs, one_mul]
      rw [e1, ← Real.exp_add]
      congr 1
      norm_num
      field_simp
      ring

example : IsArr ⟨[2], [5, 3]⟩ [2] ∧ IsArr ⟨[2], [-1, -3]⟩ [2] ∧
    ∀ idx, InShape idx [2] → (⟨[2], [-1, -3]⟩ : Arr).get idx < 0 :=
  ⟨⟨rfl, rfl⟩, ⟨rfl, rfl⟩, fun _ hi =>
    forall_data_get (a := ⟨[2], [-1, -3]⟩) (P := fun x => x < 0) rfl (by simp) hi⟩

/-! ## C75 -/

open Modeling

theorem logProb_ofFn (s : List ℕ) (u m i : List ℕ → ℝ) :
    univariateNormalLogProb (ofFn s u) (ofFn s m) (ofFn s i) = .ok (ofFn s fun idx =>
      -0.5 * i idx * (u idx - m idx) ^ 2 + 0.5 * i idx - 0.5 * Real.log (2 * Real.pi)) := by
  unfold univariateNormalLogProb minus mul add
  rw [bin_ofFn, py_ok_bind, map_ofFn, map_ofFn, map_ofFn, bin_ofFn, py_ok_bind, bin_ofFn, py_ok_bind,
    bin_scalar_right]
  congr 1
  exact ofFn_congr fun idx hi => by rw [get_ofFn (s := s) _ hi]

/-- **C75** What holds of `univariate_normal_log_prob`: for every mean and positive precision, it is
the log density of the normal distribution plus `(info - log(info)) / 2`.  What is missing from the
claim: it is not normalized, since the code adds `0.5 * info` where the density has
`0.5 * log(info)` (`C75_not_normalized_counterexample`). -/
theorem C75_log_prob_partial (s : List ℕ) (u m i : Arr) (hu : IsArr u s) (hm : IsArr m s)
    (hi : IsPosArr i s) :
    univariateNormalLogProb u m i = .ok (ofFn s fun idx =>
      Real.log (normalPdf (m.get idx) (i.get idx) (u.get idx)) +
        (i.get idx - Real.log (i.get idx)) / 2) := by
  conv_lhs => rw [arr_eq hu, arr_eq hm, arr_eq hi.1]
  rw [logProb_ofFn]
  congr 1
  refine ofFn_congr fun idx hx => ?_
  have hp := hi.2 idx hx
  rw [normalPdf, log_gaussianPDFReal _ (varOf_ne_zero hp), varOf_coe hp,
    Real.log_mul (x := 2 * Real.pi) (y := 1 / _) (by positivity) (by positivity),
    one_div (i.get idx),
    Real.log_inv]
  field_simp
  norm_num
  ring

/-- **C75** is false of the code: for every mean and every positive precision, the exponential of
`univariate_normal_log_prob` is not the normal density at any point, and it integrates to more than
one. -/
theorem C75_not_normalized_counterexample (m i : ℝ) (hi : 0 < i) :
    ∃ f : ℝ → ℝ, (∀ u, univariateNormalLogProb (scalar u) (scalar m) (scalar i) =
        .ok (scalar (f u))) ∧
      (∀ u, Real.exp (f u) ≠ normalPdf m i u) ∧ 1 < ∫ u, Real.exp (f u) := by
  have hlog : Real.log i < i := by
    have := Real.log_le_sub_one_of_pos hi
    linarith
  have hexp : ∀ u, Real.exp (Real.log (normalPdf m i u) + (i - Real.log i) / 2) =
      normalPdf m i u * Real.exp ((i - Real.log i) / 2) := fun u => by
    rw [Real.exp_add, Real.exp_log (show 0 < normalPdf m i u from
      gaussianPDFReal_pos _ _ _ (varOf_ne_zero hi))]
  have h1 : 1 < Real.exp ((i - Real.log i) / 2) := Real.one_lt_exp_iff.2 (by linarith)
  refine ⟨fun u => Real.log (normalPdf m i u) + (i - Real.log i) / 2, fun u => ?_, fun u => ?_, ?_⟩
  · have := C75_log_prob_partial [] (scalar u) (scalar m) (scalar i) ⟨rfl, rfl⟩ ⟨rfl, rfl⟩
      ⟨⟨rfl, rfl⟩, fun idx _ => by simpa using hi⟩
    rw [this, scalar_eq_ofFn (Real.log _ + _)]
    simp only [scalar_get]
  · rw [hexp]
    have hpos := gaussianPDFReal_pos m (varOf i) u (varOf_ne_zero hi)
    intro h
    have : normalPdf m i u * Real.exp ((i - Real.log i) / 2) = normalPdf m i u * 1 := by
      rw [h, mul_one]
    have := mul_left_cancel₀ hpos.ne' this
    linarith
  · simp only [hexp]
    rw [integral_mul_const, show ∫ u, normalPdf m i u = 1 from
      integral_gaussianPDFReal_eq_one m (varOf_ne_zero hi), one_mul]
    exact h1

/-! ## C76 -/

theorem Pair.set_array {p : Param} {k1 k2 : String} {s : List ℕ} {a b c d : Flt}
    (h : Pair p k1 (.array s a b) k2 (.array s c d)) (hn : k1 ≠ k2) {v w : Arr}
    (hv : v.shape = s) (hw : w.shape = s) :
    ∃ q r, p.viewSet k1 v = (q, none) ∧ q.viewSet k2 w = (r, none) ∧ Holds r k1 v ∧
      Holds r k2 w := by
  obtain ⟨hd, l1, l2, rfl, h1, h2, h3, h4⟩ := h
  have s1 : l1.set v = .ok { l1 with val := v, boxed := false } := by
    unfold Leaf.set; rw [h1]; simp [hv]
  have s2 : l2.set w = .ok { l2 with val := w, boxed := false } := by
    unfold Leaf.set; rw [h2]; simp [hw]
  refine ⟨_, .dict hd (.cons k1 (.leaf { l1 with val := v, boxed := false })
    (.cons k2 (.leaf { l2 with val := w, boxed := false }) .nil)),
    by simp [Param.viewSet, Param.onEntry, Param.set, s1]; rfl,
    by simp [Param.viewSet, Param.onEntry, Param.set, s2, hn], ?_, ?_⟩
  · simp [Holds, Param.viewGet, Entries.find]; rfl
  · simp [Holds, Param.viewGet, Entries.find, hn]; rfl

/-- What the moment parameter holds after `set_from_uvn_param_array`. -/
theorem setFromUvn_ok {name : String} {sh : List ℕ} {minInfo : ℝ} {s0 u : Shaped} {m i : Arr}
    (hs : mkUVNMomentArray name sh minInfo = .ok s0) (ops : List ParamOp) (hu : u.shape = sh)
    (h : HoldsNormals u.par sh m i) :
    ∃ q, setFromUvn ⟨s0.par.run ops, s0.shape⟩ u = (⟨q, sh⟩, none) ∧ Holds q "e" m ∧
      Holds q "e2" (ofFn sh fun idx => m.get idx ^ 2 + 1 / i.get idx) := by
  have b1 : (Flt.ninf : Flt) < Flt.pinf := by simp
  have b2 : (Flt.fin minInfo : Flt) < Flt.pinf := by simp
  have hne : ("e" : String) ≠ "e2" := by decide
  obtain ⟨l1, m1, n1, k1⟩ := mkArray_kind (name := "e") (s := sh) b1
  obtain ⟨l2, m2, n2, k2⟩ := mkArray_kind (name := "e2") (s := sh) b2
  have hp := pair_push name (l1 := l1) (l2 := l2) (by rw [n1, n2]; exact hne)
  rw [n1, n2, k1, k2] at hp
  unfold mkUVNMomentArray at hs
  rw [m1, m2] at hs
  simp only [py_ok_bind, Except.ok.injEq] at hs
  subst hs
  have e2 : uvnEOuter u.par = .ok (ofFn sh fun idx => m.get idx ^ 2 + 1 / i.get idx) := by
    unfold uvnEOuter add
    rw [h.mean.item, h.info.item, py_ok_bind, py_ok_bind, recip_ok h.info_arr, py_ok_bind,
      map_arr h.mean_arr, bin_ofFn]
  obtain ⟨q, r, s1, s2, s3, s4⟩ := (hp.run ops).set_array hne h.mean_arr.2
    (show (ofFn sh fun idx => m.get idx ^ 2 + 1 / i.get idx).shape = sh from rfl)
  refine ⟨r, ?_, s3, s4⟩
  unfold setFromUvn
  rw [if_neg (by simpa using hu), show uvnE u.par = .ok m from h.mean.item]
  simp only [setTwo, s1, e2, s2]

/-- **C76** After any history of calls on a `UVNMomentParamArray`,
`set_from_uvn_param_array(uvn_par)` with a parameter of the same shape succeeds, and then the mean,
the second moment, the variance, the mean of the exponential and the entropy agree with those of the
source.  What is missing: `var_exp`, and with it `e2_exp`, which use the mean of the exponential
instead of its variance (`C76_var_exp_counterexample`); here it is proved what they return. -/
theorem C76_set_from_uvn_partial (name : String) (sh : List ℕ) (minInfo : ℝ) (s0 u : Shaped)
    (m i : Arr) (hs : mkUVNMomentArray name sh minInfo = .ok s0) (ops : List ParamOp)
    (hu : u.shape = sh) (h : HoldsNormals u.par sh m i) :
    ∃ q, setFromUvn ⟨s0.par.run ops, s0.shape⟩ u = (q, none) ∧ q.shape = sh ∧
      momE q.par = uvnE u.par ∧ momEOuter q.par = uvnEOuter u.par ∧ momVar q.par = uvnVar u.par ∧
      momEExp q.par = uvnEExp u.par ∧ momEntropy q.par = uvnEntropy u.par ∧
      momVarExp q.par = uvnEExp u.par ∧
      momE2Exp q.par = .ok (ofFn sh fun idx =>
        (∫ x, Real.exp x ∂normal (m.get idx) (i.get idx)) ^ 2 +
          ∫ x, Real.exp x ∂normal (m.get idx) (i.get idx)) := by
  obtain ⟨q, e0, h1, h2⟩ := setFromUvn_ok hs ops hu h
  have hvar : momVar q = .ok (ofFn sh fun idx => 1 / i.get idx) := by
    unfold momVar minus
    rw [h1.item, h2.item, py_ok_bind, py_ok_bind, map_arr h.mean_arr, bin_ofFn]
    congr 1
    exact ofFn_congr fun idx hi => by ring
  have hexp : momEExp q = uvnEExp u.par := by
    unfold momEExp uvnEExp
    rw [h1.item, hvar, h.mean.item, h.info.item, py_ok_bind, py_ok_bind, py_ok_bind, py_ok_bind,
      recip_ok h.info_arr, py_ok_bind]
  have hexp' := (C72_uvn_moments u.par sh m i h).2.2.2.1
  refine ⟨⟨q, sh⟩, e0, rfl, ?_, ?_, ?_, hexp, ?_, hexp, ?_⟩
  · exact h1.item.trans h.mean.item.symm
  · unfold momEOuter uvnEOuter add
    rw [h2.item, h.mean.item, h.info.item, py_ok_bind, py_ok_bind, recip_ok h.info_arr, py_ok_bind,
      map_arr h.mean_arr, bin_ofFn]
  · unfold uvnVar
    rw [hvar, h.info.item, py_ok_bind, recip_ok h.info_arr]
  · have hpos : IsPosArr (ofFn sh fun idx => 1 / i.get idx) sh :=
      ⟨ofFn_arr _ _, fun idx hi => by
        rw [get_ofFn _ hi]; have := h.info_arr.2 idx hi; positivity⟩
    unfold momEntropy uvnEntropy
    rw [hvar, h.info.item, py_ok_bind, py_ok_bind, recip_ok hpos, py_ok_bind]
    congr 1
    conv_rhs => rw [arr_eq h.info_arr.1]
    refine ofFn_congr fun idx hi => ?_
    rw [get_ofFn _ hi, one_div_one_div]
  · have hv : momVarExp q = uvnEExp u.par := hexp
    unfold momE2Exp add
    rw [hexp, hv, hexp', py_ok_bind, py_ok_bind, map_ofFn, bin_ofFn]

/-- **C76** is false of the code: for the standard normal distribution `var_exp` of the moment
parameter is `exp(1/2)` while the variance of the exponential, which the source parameter returns, is
`(e - 1) e`. -/
theorem C76_var_exp_counterexample (name : String) (minInfo : ℝ) (s0 u : Shaped)
    (hs : mkUVNMomentArray name [] minInfo = .ok s0) (hu : u.shape = [])
    (h : HoldsNormals u.par [] (scalar 0) (scalar 1)) :
    ∃ q, setFromUvn s0 u = (q, none) ∧ momVarExp q.par = .ok (scalar (Real.exp (1 / 2))) ∧
      uvnVarExp u.par = .ok (scalar ((Real.exp 1 - 1) * Real.exp 1)) ∧
      Real.exp (1 / 2) ≠ (Real.exp 1 - 1) * Real.exp 1 := by
  obtain ⟨q, h1, -, -, -, -, -, -, h2, -⟩ :=
    C76_set_from_uvn_partial name [] minInfo s0 u (scalar 0) (scalar 1) hs [] hu h
  have e := C72_uvn_moments u.par [] _ _ h
  refine ⟨q, h1, ?_, ?_, ?_⟩
  · rw [h2, e.2.2.2.1, scalar_eq_ofFn (Real.exp _)]
    congr 1
    refine ofFn_congr fun idx _ => ?_
    rw [normal, integral_exp_gaussianReal, scalar_get, scalar_get, varOf_coe one_pos]
    norm_num
  · rw [e.2.2.2.2.1, scalar_eq_ofFn (_ * _)]
    congr 1
    refine ofFn_congr fun idx _ => ?_
    rw [normal, variance_exp_gaussianReal, scalar_get, scalar_get, varOf_coe one_pos,
      ← Real.exp_nat_mul]
    norm_num
  · have h1 : Real.exp (1 / 2) < Real.exp 1 := Real.exp_lt_exp.2 (by norm_num)
    have h2 : (2 : ℝ) < Real.exp 1 := by
      have := Real.add_one_lt_exp (one_ne_zero (α := ℝ)); linarith
    nlinarith [Real.exp_pos 1]

/-- The hypotheses of the counterexample: a `UVNParamArray` of shape `()` holding a standard normal
distribution. -/
example : ∃ s0 u : Shaped, mkUVNMomentArray "m" [] 0 = .ok s0 ∧ u.shape = [] ∧
    HoldsNormals u.par [] (scalar 0) (scalar 1) := by
  have b1 : (Flt.ninf : Flt) < Flt.pinf := by simp
  have b2 : (Flt.fin 0 : Flt) < Flt.pinf := by simp
  obtain ⟨l1, m1, n1, k1⟩ := mkArray_kind (name := "mean") (s := []) b1
  obtain ⟨l2, m2, n2, k2⟩ := mkArray_kind (name := "info") (s := []) b2
  obtain ⟨l3, m3, -, -⟩ := mkArray_kind (name := "e") (s := []) b1
  obtain ⟨l4, m4, -, -⟩ := mkArray_kind (name := "e2") (s := []) b2
  have hp := pair_push "u" (l1 := l1) (l2 := l2) (by rw [n1, n2]; decide)
  rw [n1, n2, k1, k2] at hp
  obtain ⟨q, r, -, -, h1, h2⟩ := hp.set_array (by decide) (v := scalar 0) (w := scalar 1) rfl rfl
  exact ⟨_, ⟨r, []⟩, by unfold mkUVNMomentArray; rw [m3, m4]; rfl, rfl, h1, h2, ⟨rfl, rfl⟩,
    ⟨rfl, rfl⟩, fun idx _ => by simp⟩

end

end LRVB
