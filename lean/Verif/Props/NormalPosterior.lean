import Verif.Lemmas.GaussKL
import Verif.Props.Covariance
import Verif.Props.Normal
import Verif.Props.TaylorFlags
import Verif.Props.MvnDensity

/-!
# C146: a factorizing normal approximation of a normal posterior
-/

namespace LRVB

open MeasureTheory ProbabilityTheory Matrix Flt Arr Families ExpFam

noncomputable section

variable {d : ℕ}

/-- The logarithm of the density of the normal distribution with mean `μ` and information matrix `Λ`. -/
def logNormalPdf (μ : Fin d → ℝ) (Λ : Matrix (Fin d) (Fin d) ℝ) (x : Fin d → ℝ) : ℝ :=
  Real.log (√Λ.det / √(2 * Real.pi) ^ d *
    Real.exp (-(∑ j, ∑ k, (x j - μ j) * Λ j k * (x k - μ k)) / 2))

/-- The objective is the variational objective of the posterior with mean `μ` and information matrix `Λ`, minus `tᵀ` times the
means: for an input that holds the independent normal distributions `q` and a hyperparameter that holds `t`, it returns
`-E_q log posterior - entropy(q) - tᵀ E_q x`. -/
def IsTiltedKL (μ : Fin d → ℝ) (Λ : Matrix (Fin d) (Fin d) ℝ) (objFn : Param → Param → Py Arr) : Prop :=
  ∀ (p q : Param) (m i : Arr) (t : List ℝ), HoldsNormals p [d] m i → q.getVector = .ok t → t.length = d →
    objFn p q = .ok (scalar (
      -(∫ x, logNormalPdf μ Λ x ∂Measure.pi fun k : Fin d => normal (m.get [(k : ℕ)]) (i.get [(k : ℕ)])) -
      ∑ k : Fin d, diffEntropy (normalPdf (m.get [(k : ℕ)]) (i.get [(k : ℕ)])) -
      ∑ k : Fin d, t.getD k 0 * m.get [(k : ℕ)]))

/-- `x` minimizes the objective over the free values of the input, for the hyperparameter vector `t`. -/
def Minimizes (objFn : Param → Param → Py Arr) (inputPar hyperPar : Param) (t x : List ℝ) : Prop :=
  x.length = inputPar.freeSize ∧ ∀ y : List ℝ, y.length = inputPar.freeSize → ∃ a b : ℝ,
    ((TwoObjective.mk inputPar hyperPar fun _ : Unit => objFn).evalFun x t true false ()).2 = .ok (scalar a) ∧
    ((TwoObjective.mk inputPar hyperPar fun _ : Unit => objFn).evalFun y t true false ()).2 = .ok (scalar b) ∧ a ≤ b

/-- The converter that assigns the means to the output: `output_par.set_vector(input_par.e())`. -/
def meanConv (p q : Param) : Param × Option PyErr :=
  match uvnE p with
  | .error e => (q, some e)
  | .ok a => q.setVector a.data

theorem diffEntropy_normal (m : ℝ) {i : ℝ} (hi : 0 < i) :
    diffEntropy (normalPdf m i) = -Real.log i / 2 + (1 + Real.log (2 * Real.pi)) / 2 := by
  rw [diffEntropy, normalPdf, entropy_gaussian _ (varOf_ne_zero hi), varOf_coe hi,
    Real.log_mul (x := 2 * Real.pi) (y := 1 / i) (by positivity) (by positivity), one_div i, Real.log_inv]
  ring

/-- The expectation of the log density. -/
theorem integral_logNormalPdf {Λ : Matrix (Fin d) (Fin d) ℝ} (hΛ : Λ.PosDef) (μ m i : Fin d → ℝ) (hi : ∀ k, 0 < i k) :
    ∫ x, logNormalPdf μ Λ x ∂Measure.pi (fun k => normal (m k) (i k)) =
      Real.log (√Λ.det / √(2 * Real.pi) ^ d) - (∑ j, ∑ k, Λ j k * ((m j - μ j) * (m k - μ k))) / 2 -
        (∑ k, Λ k k * (1 / i k)) / 2 := by
  have hc : √Λ.det / √(2 * Real.pi) ^ d ≠ 0 := by
    have := hΛ.det_pos
    positivity
  have hint := fun j k => integral_mul_pi m (fun k => varOf (i k)) μ j k
  have e1 : ∀ x, logNormalPdf μ Λ x = Real.log (√Λ.det / √(2 * Real.pi) ^ d) -
      (∑ j, ∑ k, Λ j k * ((x j - μ j) * (x k - μ k))) / 2 := by
    intro x
    rw [logNormalPdf, Real.log_mul hc (Real.exp_ne_zero _), Real.log_exp, neg_div, ← sub_eq_add_neg]
    congr 2
    exact Finset.sum_congr rfl fun j _ => Finset.sum_congr rfl fun k _ => by ring
  have i1 : ∀ j k, Integrable (fun x : Fin d → ℝ => Λ j k * ((x j - μ j) * (x k - μ k)))
      (Measure.pi fun k => gaussianReal (m k) (varOf (i k))) := fun j k => (hint j k).1.const_mul _
  simp only [e1, normal]
  rw [integral_sub (integrable_const _) ((integrable_finsetSum _ fun j _ => integrable_finsetSum _ fun k _ => i1 j k).div_const 2),
    integral_div, integral_finsetSum _ fun j _ => integrable_finsetSum _ fun k _ => i1 j k]
  simp only [integral_finsetSum _ fun k _ => i1 _ k, integral_const_mul, (hint _ _).2]
  simp only [mul_add, Finset.sum_add_distrib, mul_ite, mul_zero, Finset.sum_ite_eq, Finset.mem_univ, if_true, varOf_coe (hi _)]
  simp
  ring

/-- The additive constant of the objective. -/
def gaussConst (Λ : Matrix (Fin d) (Fin d) ℝ) : ℝ :=
  -Real.log (√Λ.det / √(2 * Real.pi) ^ d) - d * ((1 + Real.log (2 * Real.pi)) / 2)

theorem get_data (n : ℕ) (x : List ℝ) (k : ℕ) : (⟨[n], x⟩ : Arr).get [k] = x.getD k 0 := by
  simp [Arr.get, Arr.flat]

/-- `set_free` on independent normal variables. -/
theorem uvn_setFree {p : Param} (hp : Pair p "mean" (.vector d ninf pinf) "info" (.vector d (fin 0) pinf))
    {x : List ℝ} (hx : x.length = 2 * d) :
    ∃ q, p.setFree x = (q, none) ∧ HoldsNormals q [d] ⟨[d], x.take d⟩ ⟨[d], (x.drop d).map Real.exp⟩ := by
  obtain ⟨hd, l1, l2, rfl, h1, h2, h3, h4⟩ := hp
  have e1 : l1.setFree (x.take d) = .ok { l1 with val := ⟨[d], x.take d⟩, boxed := false } := by
    unfold Leaf.setFree
    rw [h1]
    have hl : (x.take d).length = d := by simp; omega
    have hid : (x.take d).map (Leaf.constrainFn ninf pinf) = x.take d := by
      conv_rhs => rw [← List.map_id (x.take d)]
      exact List.map_congr_left fun y _ => constrainFn_real y
    simp only [hl, ne_eq, not_true_eq_false, if_false, constrainVec_ok ninf_lt_pinf, py_ok_bind, hid]
    unfold Leaf.set
    rw [h1]
    simp [Arr.vec, Arr.size, hl]
  have e2 : l2.setFree (x.drop d) = .ok { l2 with val := ⟨[d], (x.drop d).map Real.exp⟩, boxed := false } := by
    unfold Leaf.setFree
    rw [h2]
    have hl : (x.drop d).length = d := by simp; omega
    have hid : (x.drop d).map (Leaf.constrainFn (fin 0) pinf) = (x.drop d).map Real.exp :=
      List.map_congr_left fun y _ => constrainFn_zero y
    simp only [hl, ne_eq, not_true_eq_false, if_false, constrainVec_ok (lb := fin 0) (ub := pinf) (by simp), py_ok_bind, hid]
    unfold Leaf.set
    rw [h2]
    have hl' : ((x.drop d).map Real.exp).length = d := by rw [List.length_map, hl]
    simp [Arr.vec, Arr.size, hl', -List.length_map, -List.length_drop, -List.map_drop]
  refine ⟨.dict hd (.cons "mean" (.leaf { l1 with val := ⟨[d], x.take d⟩, boxed := false })
    (.cons "info" (.leaf { l2 with val := ⟨[d], (x.drop d).map Real.exp⟩, boxed := false }) .nil)), ?_, ?_, ?_, ?_, ?_, ?_⟩
  · have k1 : (Kind.vector d ninf pinf).freeSize = d := rfl
    have k2 : (Kind.vector d (fin 0) pinf).freeSize = d := rfl
    have s1 : Leaf.slice x 0 d = x.take d := by simp [Leaf.slice]
    have s2 : Leaf.slice x d d = x.drop d := by
      simp [Leaf.slice]; omega
    have f1 : l1.freeSize = d := by rw [Leaf.freeSize, h1]; rfl
    have f2 : l2.freeSize = d := by rw [Leaf.freeSize, h2]; rfl
    rw [k1, k2] at h3
    simp [Param.setFree, Param.setFreeEntries, h3, hx, Param.freeSize, f1, f2, s1, s2, e1, e2, two_mul]
  · simp [Holds, Param.viewGet, Entries.find]; rfl
  · simp [Holds, Param.viewGet, Entries.find]; rfl
  · exact ⟨by simp [Arr.WF]; omega, rfl⟩
  · exact ⟨by simp [Arr.WF]; omega, rfl⟩
  · intro idx hidx
    refine forall_data_get (a := ⟨[d], (x.drop d).map Real.exp⟩) (P := fun x => 0 < x) (by simp [Arr.WF, Arr.size]; omega) ?_ hidx
    intro y hy
    obtain ⟨z, -, rfl⟩ := List.mem_map.1 hy
    exact Real.exp_pos z

theorem getD_take (x : List ℝ) (k : Fin d) : (x.take d).getD k 0 = x.getD k 0 := by
  simp [List.getD_eq_getElem?_getD, List.getElem?_take]

theorem getD_drop_exp {x : List ℝ} (hx : x.length = 2 * d) (k : Fin d) :
    ((x.drop d).map Real.exp).getD k 0 = Real.exp (x.getD (d + k) 0) := by
  have h : d + (k : ℕ) < x.length := by omega
  simp [List.getD_eq_getElem?_getD, List.getElem?_eq_getElem h]

/-- The objective as a function of the free value of the input. -/
theorem tilted_evaluates {Λ : Matrix (Fin d) (Fin d) ℝ} (hΛ : Λ.PosDef) (μ : Fin d → ℝ) {objFn : Param → Param → Py Arr}
    (hobj : IsTiltedKL μ Λ objFn) {p : Param}
    (hp : Pair p "mean" (.vector d ninf pinf) "info" (.vector d (fin 0) pinf)) {q : Param} (hq : q.WF) (hq' : q.HasParams)
    (hqs : q.vecSize = d) : Evaluates p q objFn true false (gaussF Λ μ (gaussConst Λ)) := by
  intro y t hy ht
  obtain ⟨r, h1, h2⟩ := uvn_setFree hp hy
  have hr : r.Plain := by
    have := setPar_plain p y true (by simp [setPar, h1])
    simpa [setPar, h1] using this
  have h3 := q.setVector_ok hq t (by rw [ht, hqs])
  have hs : (q.vecP t).Plain := by
    have := setPar_plain q t false (by simp [setPar, h3])
    simpa [setPar, h3] using this
  have h4 := q.getVector_vecP hq hq' t (by rw [ht, hqs])
  simp only [TwoObjective.evalFun, setPar, if_true, h1, h3, if_neg Bool.false_ne_true]
  rw [Param.mark_plain _ hr, Param.mark_plain _ hs, hobj _ _ _ _ t h2 h4 ht]
  congr 2
  rw [integral_logNormalPdf hΛ μ (fun k => (⟨[d], y.take d⟩ : Arr).get [(k : ℕ)])
    (fun k => (⟨[d], (y.drop d).map Real.exp⟩ : Arr).get [(k : ℕ)])
    (fun k => by rw [get_data, getD_drop_exp hy]; exact Real.exp_pos _)]
  simp only [get_data, getD_take, getD_drop_exp hy, diffEntropy_normal _ (Real.exp_pos _), Real.log_exp]
  simp only [gaussF, gaussConst, toVec, muIx, infoIx, Finset.sum_add_distrib, Finset.sum_const, Finset.card_univ,
    Fintype.card_fin, nsmul_eq_mul, one_div, ← Real.exp_neg, ← Finset.sum_div, Finset.sum_neg_distrib]
  ring

theorem leaf_vector {name : String} {l : Leaf} (h : mkVector name d ninf pinf none = .ok l) :
    l = ⟨name, .vector d ninf pinf, Arr.full [d] 0, false⟩ := by
  simp [mkVector, checkBoundsVector, getInboundsValue, Leaf.set, Flt.toReal, Arr.size, Arr.full] at h
  rw [← h]
  simp [Arr.full]

theorem vec_wf (l : Leaf) (h : l.kind = .vector d ninf pinf) : (Param.leaf l).WF := by
  simp [Param.WF, h, Kind.Legal]

/-- The output for the free value `u` of the input. -/
def meanK (u : Fin (2 * d) → ℝ) (i : ℕ) : ℝ := if h : i < d then u ⟨i, by omega⟩ else 0

theorem mean_converts {p : Param} (hp : Pair p "mean" (.vector d ninf pinf) "info" (.vector d (fin 0) pinf))
    {l : Leaf} (hl : l.kind = .vector d ninf pinf) : Converts p (.leaf l) meanConv d (meanK (d := d)) := by
  intro q hq y hy
  obtain ⟨r, h1, h2⟩ := uvn_setFree hp hy
  have hr : r.Plain := by
    have := setPar_plain p y true (by simp [setPar, h1])
    simpa [setPar, h1] using this
  have hlen : (y.take d).length = d := by simp; omega
  have hsz : (Param.leaf l).vecSize = d := by simp [Param.vecSize, Leaf.vecSize, hl, Kind.vecSize]
  have h0 := (Param.leaf l).setVector_ok (vec_wf l hl) (y.take d) (by rw [hlen, hsz])
  have hset : q.setVector (y.take d) = ((Param.leaf l).vecP (y.take d), none) := by
    have := setPar_eq (free := false) (p := .leaf l) (q := q) (x := y.take d) hq.symm
      (by simp only [setPar]; rw [if_neg (by simp), h0])
    simp only [setPar] at this
    rw [if_neg (by simp), if_neg (by simp)] at this
    rw [this, h0]
  simp only [Converter.convert, setPar, if_true, h1]
  rw [Param.mark_plain _ hr]
  simp only [meanConv, uvnE, h2.mean.item, hset]
  simp only [Converter.readOut]
  rw [if_neg (by simp), (Param.leaf l).getVector_vecP (vec_wf l hl) trivial (y.take d) (by rw [hlen, hsz])]
  congr 1
  apply List.ext_getElem
  · simp [hlen]
  · intro k hk hk'
    rw [hlen] at hk
    simp [meanK, hk, toVec, List.getD_eq_getElem?_getD, List.getElem?_eq_getElem (show k < y.length by omega)]

/-- The setting of C145 holds. -/
theorem normal_setting (hd : 0 < d) {Λ : Matrix (Fin d) (Fin d) ℝ} (hΛ : Λ.PosDef) (μ : Fin d → ℝ) {eigh : Eigh}
    (hE : EighContract eigh) {objFn : Param → Param → Py Arr} (hobj : IsTiltedKL μ Λ objFn) {p : Param}
    (hp : Pair p "mean" (.vector d ninf pinf) "info" (.vector d (fin 0) pinf)) {nameO nameH : String} {lo lh : Leaf}
    (ho : mkVector nameO d ninf pinf none = .ok lo) (hh : mkVector nameH d ninf pinf none = .ok lh) {e x : List ℝ}
    (he : e.length = d) {hyperPar : Param} (hset : (Param.leaf lh).setVector e = (hyperPar, none)) (hx : x.length = 2 * d) :
    SensSetting (gaussF Λ μ (gaussConst Λ)) (gaussF Λ μ (gaussConst Λ)) (meanK (d := d)) eigh objFn p (.leaf lo) hyperPar
      meanConv (some x) none x e := by
  have hlo := leaf_vector ho
  have hlh := leaf_vector hh
  have kh : lh.kind = .vector d ninf pinf := by rw [hlh]
  have ko : lo.kind = .vector d ninf pinf := by rw [hlo]
  have hsz : (Param.leaf lh).vecSize = d := by simp [Param.vecSize, Leaf.vecSize, kh, Kind.vecSize]
  have hso : (Param.leaf lo).vecSize = d := by simp [Param.vecSize, Leaf.vecSize, ko, Kind.vecSize]
  have h0 := (Param.leaf lh).setVector_ok (vec_wf lh kh) e (by rw [he, hsz])
  have hhp : hyperPar = (Param.leaf lh).vecP e := by rw [h0] at hset; exact (Prod.ext_iff.1 hset).1.symm
  have hbl : hyperPar.blank = (Param.leaf lh).blank := by
    have := Param.setVector_blank (Param.leaf lh) e
    rw [hset] at this
    exact this
  have hev : Evaluates p hyperPar objFn true false (gaussF Λ μ (gaussConst Λ)) :=
    Taylor.evaluates_blank (tilted_evaluates hΛ μ hobj hp (q := .leaf lh) (vec_wf lh kh) trivial hsz) rfl hbl.symm
  refine ⟨hE, gaussF_smooth _ _ _, gaussF_smooth _ _ _, ⟨0, fun u v => by simp⟩, by omega, hev, hev, hx, he, ?_, ?_, trivial, ?_,
    by rw [hso]; exact hd, ?_, ?_, ⟨?_, ?_⟩, Or.inl rfl⟩
  · intro p q
    unfold meanConv
    split
    · rfl
    · exact Param.setVector_blank _ _
  · exact .leaf ⟨_, [], .vector ho, rfl⟩ (by rw [Leaf.HoldsMatrix, ko]; trivial)
  · rw [hlo]
    simp [Param.Proper, Leaf.Proper, Arr.WF, Arr.full, Kind.shapeOf]
  · intro i _
    unfold meanK
    by_cases h : i < d
    · simp only [h, dif_pos]
      fun_prop
    · simp only [h, dif_neg, not_false_eq_true]
      fun_prop
  · rw [hso]; exact mean_converts hp ko
  · have := setPar_eq (free := false) (p := .leaf lh) (q := hyperPar) (x := e) hbl.symm
      (by simp only [setPar]; rw [if_neg (by simp), h0])
    simp only [setPar] at this
    rw [if_neg (by simp), if_neg (by simp)] at this
    rw [this, hset]
  · rw [hhp]
    exact (Param.leaf lh).getVector_vecP (vec_wf lh kh) trivial e (by rw [he, hsz])

theorem normal_tilted (Λ : Matrix (Fin d) (Fin d) ℝ) (μ : Fin d → ℝ) (c : ℝ) : TiltedBy (gaussF Λ μ c) (meanK (d := d)) := by
  intro u t
  simp [gaussF, meanK, muIx]
  ring

/-- Minimizers in terms of the function of vectors. -/
theorem minimizes_iff {objFn : Param → Param → Py Arr} {p q : Param} {n : ℕ} {F : (Fin n → ℝ) × (Fin d → ℝ) → ℝ}
    (hev : Evaluates p q objFn true false F) (hn : p.freeSize = n) {t : List ℝ} (ht : t.length = d) (x : List ℝ) :
    Minimizes objFn p q t x ↔ x.length = n ∧ ∀ u, F (toVec n x, toVec d t) ≤ F (u, toVec d t) := by
  rw [Minimizes, hn]
  refine and_congr_right fun hx => ⟨fun h u => ?_, fun h y hy => ?_⟩
  · obtain ⟨a, b, h1, h2, h3⟩ := h (List.ofFn u) (by simp)
    rw [hev x t hx ht] at h1
    rw [hev _ t (by simp) ht, toVec_ofFn] at h2
    simp only [Except.ok.injEq, Arr.scalar, Arr.mk.injEq, List.cons.injEq, and_true, true_and] at h1 h2
    rw [h1, h2]
    exact h3
  · exact ⟨_, _, hev x t hx ht, hev y t hy ht, h _⟩

/-- **C146** A normal posterior with mean `μ` and information matrix `Λ`, approximated by independent normal distributions
(`UVNParamVector` with `min_info=0`), with the means as outputs and an objective tilted by them.  For every hyperparameter `e` a
minimizer exists; and for every minimizer `x`: the constructor of `ParametricSensitivity` succeeds; the linear response covariances
of the means are the covariances of the posterior; the predicted input for a new hyperparameter is a minimizer for it; and the
variances of the approximation at the minimizer are not larger than the variances of the posterior. -/
theorem C146_normal_posterior (hd : 0 < d) {Λ : Matrix (Fin d) (Fin d) ℝ} (hΛ : Λ.PosDef) (μ : EuclideanSpace ℝ (Fin d))
    {objFn : Param → Param → Py Arr} (hobj : IsTiltedKL μ Λ objFn) {nameI nameO nameH : String} {input : Param}
    (hi : mkUVNVector nameI d 0 = .ok ⟨input, [d]⟩) (ops : List ParamOp) {lo lh : Leaf}
    (ho : mkVector nameO d ninf pinf none = .ok lo) (hh : mkVector nameH d ninf pinf none = .ok lh) (e : List ℝ)
    (he : e.length = d) :
    ∃ hyper, (Param.leaf lh).setVector e = (hyper, none) ∧ (∃ x, Minimizes objFn (input.run ops) hyper e x) ∧
      ∀ x, Minimizes objFn (input.run ops) hyper e x →
        ∃ S, Sens.new objFn (input.run ops) (.leaf lo) hyper meanConv (some x) none none = .ok S ∧
          (∃ J, S.doutputDhyper = .ok J ∧ IsMat J d d ∧
            ∀ j k : Fin d, J.at2 j k = cov[fun z => z j, fun z => z k; multivariateGaussian μ Λ⁻¹]) ∧
          (∀ new : List ℝ, new.length = d →
            ∃ y, S.predictInput new = .ok y ∧ Minimizes objFn (input.run ops) hyper new y) ∧
          ∃ q V, (input.run ops).setFree x = (q, none) ∧ uvnVar q = .ok V ∧
            ∀ k : Fin d, V.get [(k : ℕ)] ≤ Var[fun z => z k; multivariateGaussian μ Λ⁻¹] := by
  obtain ⟨eigh, hE⟩ := exists_eigh
  have hpair : Pair input "mean" (.vector d ninf pinf) "info" (.vector d (fin 0) pinf) := by
    obtain ⟨l1, m1, n1, k1⟩ := mkVector_kind (name := "mean") (n := d) (lb := ninf) (ub := pinf) ninf_lt_pinf
    obtain ⟨l2, m2, n2, k2⟩ := mkVector_kind (name := "info") (n := d) (lb := fin 0) (ub := pinf) (by simp)
    have hp := pair_push nameI (l1 := l1) (l2 := l2) (by rw [n1, n2]; decide)
    rw [n1, n2, k1, k2] at hp
    unfold mkUVNVector at hi
    rw [m1, m2] at hi
    simp only [py_ok_bind, Except.ok.injEq, Shaped.mk.injEq, and_true] at hi
    rw [← hi]
    exact hp
  have hp := hpair.run ops
  have hfs : (input.run ops).freeSize = 2 * d := by rw [hp.freeSize, two_mul]; rfl
  have kh : lh.kind = .vector d ninf pinf := by rw [leaf_vector hh]
  have hsz : (Param.leaf lh).vecSize = d := by simp [Param.vecSize, Leaf.vecSize, kh, Kind.vecSize]
  have hso : (Param.leaf lo).vecSize = d := by
    simp [Param.vecSize, Leaf.vecSize, leaf_vector ho, Kind.vecSize]
  have hset := (Param.leaf lh).setVector_ok (vec_wf lh kh) e (by rw [he, hsz])
  have hev := (normal_setting (x := List.ofFn fun _ : Fin (2 * d) => (0 : ℝ)) hd hΛ μ hE hobj hp ho hh he hset (by simp)).evF
  refine ⟨_, hset, ⟨List.ofFn (gaussOpt Λ μ (toVec d e)), ?_⟩, ?_⟩
  · rw [minimizes_iff hev hfs he, toVec_ofFn]
    exact ⟨by simp, gaussF_min hΛ _ _ _⟩
  intro x hx
  rw [minimizes_iff hev hfs he] at hx
  have hxo : toVec (2 * d) x = gaussOpt Λ μ (toVec d e) := gaussF_unique hΛ _ _ _ _ (hx.2 _)
  have hS := normal_setting hd hΛ μ hE hobj hp ho hh he hset hx.1
  have hpc := gaussF_curvature hΛ μ (gaussConst Λ) (toVec (2 * d) x) (toVec d e)
  obtain ⟨S, h1, h2, J, h3, h4, h5⟩ := C51_parametric_sensitivity hS hpc
  have hcont : ContinuousAt (gaussOpt Λ (μ : Fin d → ℝ)) (toVec d e) := (gaussOpt_hasFDerivAt Λ μ _).continuousAt
  have hopt : OptimumMap (gaussF Λ μ (gaussConst Λ)) (toVec d e) (gaussOpt Λ μ) :=
    Filter.Eventually.of_forall fun v => gaussOpt_critical hΛ _ _ v
  rw [hso] at h4
  have hcov : ∀ j k : Fin d, cov[fun z => z j, fun z => z k; multivariateGaussian μ Λ⁻¹] = Λ⁻¹ j k := fun j k =>
    covariance_eval_multivariateGaussian hΛ.inv.posSemidef j k
  refine ⟨S, h1, ⟨J, h3, h4, fun j k => ?_⟩, fun new hnew => ?_, ?_⟩
  · obtain ⟨B, b1, b2⟩ := h5 _ hcont hxo.symm hopt j (by rw [hso]; exact j.2)
    rw [b2, hcov]
    have hB : HasFDerivAt (fun v => meanK (gaussOpt Λ (μ : Fin d → ℝ) v) j)
        ((ContinuousLinearMap.proj (muIx j)).comp (gaussDeriv Λ)) (toVec d e) := by
      have : (fun v => meanK (gaussOpt Λ (μ : Fin d → ℝ) v) j) = fun v => gaussOpt Λ (μ : Fin d → ℝ) v (muIx j) := by
        funext v
        simp [meanK, muIx]
      rw [this]
      exact (hasFDerivAt_pi'.1 (gaussOpt_hasFDerivAt Λ μ (toVec d e))) (muIx j)
    rw [b1.unique hB]
    simp [gaussDeriv, muIx]
  · obtain ⟨A, a1, -, a3⟩ := h2.2 _ hcont hxo.symm hopt
    refine ⟨_, a3 new hnew, ?_⟩
    rw [a1.unique (gaussOpt_hasFDerivAt Λ μ _), hxo, ← gaussOpt_affine, minimizes_iff hev hfs hnew, toVec_ofFn]
    exact ⟨by simp, gaussF_min hΛ _ _ _⟩
  · obtain ⟨q, q1, q2⟩ := uvn_setFree hp hx.1
    refine ⟨q, _, q1, by unfold uvnVar; rw [q2.info.item, py_ok_bind, recip_ok q2.info_arr], fun k => ?_⟩
    rw [get_ofFn _ (by simp), get_data, getD_drop_exp hx.1, ← covariance_self (by fun_prop), hcov]
    have : x.getD (d + k) 0 = Real.log (Λ k k) := by
      rw [← gaussOpt_info Λ μ (toVec d e) k, ← hxo]
      rfl
    rw [this, Real.exp_log hΛ.diag_pos]
    exact inv_diag_le hΛ k

/-- An objective written with the methods of `UVNParamVector` meets `IsTiltedKL`: for a posterior in two dimensions,
`0.5 (e - μ)ᵀ Λ (e - μ) + 0.5 sum(diag(Λ) var) - entropy - tᵀ e`, plus the constant of the density. -/
def exKL (Λ : Matrix (Fin d) (Fin d) ℝ) (μ : Fin d → ℝ) (p q : Param) : Py Arr := do
  let m ← uvnE p
  let v ← uvnVar p
  let h ← uvnEntropy p
  let t ← q.getVector
  .ok (scalar ((∑ j, ∑ k, Λ j k * ((m.get [(j : ℕ)] - μ j) * (m.get [(k : ℕ)] - μ k))) / 2 +
    (∑ k, Λ k k * v.get [(k : ℕ)]) / 2 - h - (∑ k : Fin d, t.getD k 0 * m.get [(k : ℕ)]) -
    Real.log (√Λ.det / √(2 * Real.pi) ^ d)))

theorem exKL_tilted {Λ : Matrix (Fin d) (Fin d) ℝ} (hΛ : Λ.PosDef) (μ : Fin d → ℝ) : IsTiltedKL μ Λ (exKL Λ μ) := by
  intro p q m i t hp hq ht
  have hV : uvnVar p = .ok (ofFn [d] fun idx => 1 / i.get idx) := by
    unfold uvnVar; rw [hp.info.item, py_ok_bind, recip_ok hp.info_arr]
  have hpos : ∀ k : Fin d, 0 < i.get [(k : ℕ)] := fun k => hp.info_arr.2 _ (by simp [InShape])
  have hget : ∀ k : Fin d, (ofFn [d] fun idx => 1 / i.get idx).get [(k : ℕ)] = 1 / i.get [(k : ℕ)] := fun k =>
    get_ofFn _ (by simp)
  unfold exKL
  rw [show uvnE p = .ok m from hp.mean.item, hV, C73_uvn_entropy p [d] m i hp, hq]
  simp only [py_ok_bind, hget]
  rw [integral_logNormalPdf hΛ μ (fun k => m.get [(k : ℕ)]) (fun k => i.get [(k : ℕ)]) hpos]
  congr 2
  have hsum : ((indexProduct [d]).map fun idx => diffEntropy (normalPdf (m.get idx) (i.get idx))).sum =
      ∑ k : Fin d, diffEntropy (normalPdf (m.get [(k : ℕ)]) (i.get [(k : ℕ)])) := by
    have h1 : indexProduct [d] = (List.range d).map fun i => [i] := by
      simp only [indexProduct, List.map_cons, List.map_nil]
      exact List.flatMap_pure_eq_map _ _
    rw [h1, List.map_map, Fin.sum_univ_eq_sum_range fun k => diffEntropy (normalPdf (m.get [k]) (i.get [k]))]
    exact sum_map_range (fun k => diffEntropy (normalPdf (m.get [k]) (i.get [k]))) d
  rw [hsum]
  ring

/-- The hypotheses of C145 and C146 are met: two correlated coordinates. -/
example : ∃ (Λ : Matrix (Fin 2) (Fin 2) ℝ) (μ : EuclideanSpace ℝ (Fin 2)) (input : Param) (lo lh : Leaf),
    Λ.PosDef ∧ Λ 0 1 ≠ 0 ∧ IsTiltedKL μ Λ (exKL Λ μ) ∧ mkUVNVector "u" 2 0 = .ok ⟨input, [2]⟩ ∧
    mkVector "out" 2 ninf pinf none = .ok lo ∧ mkVector "t" 2 ninf pinf none = .ok lh := by
  have hΛ : (!![2, 1; 1, 2] : Matrix (Fin 2) (Fin 2) ℝ).PosDef := by
    refine Matrix.PosDef.of_dotProduct_mulVec_pos ?_ ?_
    · ext i j
      fin_cases i <;> fin_cases j <;> simp
    · intro x hx
      have h : x 0 ≠ 0 ∨ x 1 ≠ 0 := by
        by_contra hc
        push Not at hc
        exact hx (funext fun i => by fin_cases i <;> simp [hc.1, hc.2])
      simp [Matrix.mulVec, dotProduct, Fin.sum_univ_two]
      rcases h with h | h
      · have := sq_pos_of_ne_zero h
        nlinarith [sq_nonneg (x 0 + x 1), sq_nonneg (x 1)]
      · have := sq_pos_of_ne_zero h
        nlinarith [sq_nonneg (x 0 + x 1), sq_nonneg (x 0)]
  obtain ⟨p, h1, -⟩ := (C72_after_set_free "u" 0 le_rfl 2 [] []).2.1
  obtain ⟨lo, h2, -⟩ := mkVector_kind (name := "out") (n := 2) (lb := ninf) (ub := pinf) ninf_lt_pinf
  obtain ⟨lh, h3, -⟩ := mkVector_kind (name := "t") (n := 2) (lb := ninf) (ub := pinf) ninf_lt_pinf
  exact ⟨_, WithLp.toLp 2 ![1, 3], p, lo, lh, hΛ, by simp, exKL_tilted hΛ _, h1, h2, h3⟩

/-- `normal_setting`, `gaussF_curvature` and `normal_tilted` are the hypotheses of C145 for this posterior, and no combination of the
means is constant. -/
example (c : Fin d → ℝ) (hc : c ≠ 0) (x : Fin (2 * d) → ℝ) :
    fderiv ℝ (fun u => ∑ j : Fin d, c j * meanK u j) x ≠ 0 := by
  obtain ⟨k, hk⟩ := Function.ne_iff.1 hc
  have h : (fun u : Fin (2 * d) → ℝ => ∑ j : Fin d, c j * meanK u j) =
      (∑ j : Fin d, c j • (ContinuousLinearMap.proj (muIx j) : (Fin (2 * d) → ℝ) →L[ℝ] ℝ)) := by
    funext u
    simp [meanK, muIx]
  rw [h, ContinuousLinearMap.fderiv]
  intro h0
  have := congrArg (fun L => L (Pi.single (muIx k) 1)) h0
  apply hk
  simpa [Pi.single_apply, muIx, Fin.ext_iff, Finset.sum_ite_eq, ← Fin.ext_iff] using this

end

end LRVB
