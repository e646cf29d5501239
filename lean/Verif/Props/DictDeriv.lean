import Verif.Props.Dict

/-!
# C39-C42: derivatives of dictionaries
-/

namespace LRVB

open Flt

theorem Param.freeToVectorVal_ok (p : Param) (hw : p.WF) (hp : p.HasParams) (y : List ℝ)
    (hy : y.length = p.freeSize) :
    p.freeToVectorVal y = .ok (p.ftvP y) ∧ (p.ftvP y).length = p.vecSize := by
  rw [freeToVectorVal, p.freeToVector_ok hw hp y hy]
  exact ⟨rfl, p.ftvP_length hw y hy⟩

/-! ### C39 -/

/-- **C39** (derivative) -/
theorem C39_jacobian {eigh : Eigh} (he : EighContract eigh) (d : Param) (hb : Built eigh d)
    (hp : d.HasParams) (x : List ℝ) (hx : x.length = d.freeSize) :
    ∃ d' J, d.jac x = (d', .ok J) ∧ IsJacobian d.freeToVectorVal d.vecSize d.freeSize x J := by
  have hw := hb.wf he
  obtain ⟨d', J, h1, h2⟩ := d.jac_ok hw hp x hx
  refine ⟨d', J, h1, h2.nr, h2.nc, fun i hi j hj => ?_⟩
  rw [h2.val i hi j hj]
  exact (d.smooth_ftvP hw).partialDeriv (d.freeToVectorVal_ok hw hp) hx hi hj

/-- **C39** (blocks) In the rows of one parameter's vector range and the columns of a parameter's
free range stands that parameter's own Jacobian, and zero when the two parameters differ. -/
theorem C39_blocks {eigh : Eigh} (he : EighContract eigh) (d : Param) (hb : Built eigh d)
    (hp : d.HasParams) (x : List ℝ) (hx : x.length = d.freeSize) (d' : Param) (J : Coo)
    (hJ : d.jac x = (d', .ok J)) (k1 k2 : String) (rv rf : IdxRange)
    (hv : (k1, rv) ∈ d.vecIndices) (hf : (k2, rf) ∈ d.freeIndices) :
    (k1 ≠ k2 → ∀ i, rv.start ≤ i → i < rv.stop → ∀ j, rf.start ≤ j → j < rf.stop →
      J.toDense i j = 0) ∧
    (k1 = k2 → ∃ p p' Jp, d.find k1 = some p ∧
      p.jac ((x.drop rf.start).take p.freeSize) = (p', .ok Jp) ∧
      ∀ i < p.vecSize, ∀ j < p.freeSize,
        J.toDense (rv.start + i) (rf.start + j) = Jp.toDense i j) := by
  have hw := hb.wf he
  obtain ⟨d'', J', h1, h2⟩ := d.jac_ok hw hp x hx
  rw [hJ] at h1
  cases h1
  cases d with
  | leaf l => simp [Param.vecIndices] at hv
  | dict h es =>
    simp only [Param.WF] at hw
    obtain ⟨hw1, hn, e1, e2, e3, e4⟩ := hw
    simp only [Param.vecIndices, e4] at hv
    simp only [Param.freeIndices, e3] at hf
    obtain ⟨q1, hq1, hs1⟩ := Entries.vloc_of_mem hn hv
    obtain ⟨q2, hq2, hs2⟩ := Entries.floc_of_mem hn hf
    have b1 := Entries.vloc_le hq1
    have b2 := Entries.floc_le hq2
    simp only at b1 b2
    have hval := h2.val
    simp only [Param.vecSize, Param.freeSize, e1, e2, Param.ftvP] at hval
    have hx' : x.length = 0 + es.fsum := by rw [hx, Nat.zero_add]; exact e1
    constructor
    · intro hne i hi1 hi2 j hj1 hj2
      have := D1_ftvE_off hne hw1 hx' hq2 hq1 (i - rv.start) (by omega) (j - rf.start) (by omega)
      rw [List.drop_zero] at this
      rw [hval i (by omega) j (by omega)]
      rw [← this]
      congr 1 <;> omega
    · intro hk
      subst hk
      have f1 := Entries.floc_find k1 es 0
      have f2 := Entries.vloc_find k1 es 0
      rw [hq2] at f1
      rw [hq1] at f2
      have hq : q1 = q2 := by
        rw [← f2] at f1
        simpa using f1.symm
      subst hq
      have hwq : q1.WF ∧ q1.HasParams := Entries.wf_find hw1 f2.symm
      obtain ⟨p', Jp, g1, g2⟩ := q1.jac_ok hwq.1 hwq.2 ((x.drop rf.start).take q1.freeSize)
        (by simp; omega)
      refine ⟨q1, p', Jp, f2.symm, g1, ?_⟩
      intro i hi j hj
      have := D1_ftvE_block hw1 hx' hq2 hq1 i hi j hj
      rw [List.drop_zero, Nat.sub_zero, Nat.sub_zero] at this
      rw [hval _ (by omega) _ (by omega), this, g2.val i hi j hj]
      rfl

/-! ### C40 -/

/-- **C40** -/
theorem C40_hessians {eigh : Eigh} (he : EighContract eigh) (d : Param) (hb : Built eigh d)
    (hp : d.HasParams) (x : List ℝ) (hx : x.length = d.freeSize) :
    ∃ d' Hs, d.hess x = (d', .ok Hs) ∧ AreHessians d.freeToVectorVal d.vecSize d.freeSize x Hs := by
  have hw := hb.wf he
  obtain ⟨d', Hs, h1, h2⟩ := d.hess_ok hw x hx
  refine ⟨d', Hs, h1, h2.len, fun i hi => ?_⟩
  obtain ⟨g1, g2, _, g4⟩ := h2.ok i hi
  refine ⟨g1, g2, fun a ha b hb' => ?_⟩
  rw [g4 a ha b hb']
  exact (d.smooth_ftvP hw).secondPartialDeriv (d.freeToVectorVal_ok hw hp) hx
    (by rw [h2.len] at hi; exact hi) ha hb'

/-! ### C41 -/

/-- The objective `f` as a function of the free vector: `y ↦ f(free_to_vector(y))`. -/
noncomputable def Param.freeObjective (p : Param) (f : (Fin p.vecSize → ℝ) → ℝ) (y : List ℝ) :
    Py (List ℝ) := do
  let v ← p.freeToVectorVal y
  .ok [f (toVec p.vecSize v)]

/-- **C41** Let `f` be an objective of the vector that is twice continuously differentiable at every
vector `free_to_vector(y)`, and let `grad` and `H` be its gradient and Hessian at
`free_to_vector(x)`.  Then `convert_vector_to_free_hessian(param, x, grad, H)` returns the Hessian
of `y ↦ f(free_to_vector(y))` at `x`. -/
theorem C41_free_hessian {eigh : Eigh} (he : EighContract eigh) (p : Param) (hb : Built eigh p)
    (hp : p.HasParams) (hv : 0 < p.vecSize) (x : List ℝ) (hx : x.length = p.freeSize)
    (f : (Fin p.vecSize → ℝ) → ℝ)
    (hf : ∀ (y v : List ℝ), y.length = p.freeSize → p.freeToVectorVal y = .ok v →
      ContDiffAt ℝ 2 f (toVec p.vecSize v))
    (v : List ℝ) (hxv : p.freeToVectorVal x = .ok v)
    (grad : List ℝ) (hgl : grad.length = p.vecSize)
    (hg : ∀ i : Fin p.vecSize, grad.getD i 0 = fderiv ℝ f (toVec p.vecSize v) (Pi.single i 1))
    (H : Arr) (hH : IsMat H p.vecSize p.vecSize)
    (hHv : ∀ i j : Fin p.vecSize, H.at2 i j =
      fderiv ℝ (fderiv ℝ f) (toVec p.vecSize v) (Pi.single j 1) (Pi.single i 1)) :
    ∃ p' M, p.convertHessian x grad H = (p', .ok M) ∧ IsMat M p.freeSize p.freeSize ∧
      ∀ a < p.freeSize, ∀ b < p.freeSize,
        SecondPartialDeriv (p.freeObjective f) 0 a b x (M.at2 a b) := by
  have hw := hb.wf he
  obtain ⟨p', M, h1, h2, h3⟩ := p.convertHessian_ok hw hp hv x hx grad hgl H hH
  refine ⟨p', M, h1, h2, fun a ha b hb' => ?_⟩
  have hsm := p.smooth_ftvP hw
  have hf' : ∀ y : List ℝ, y.length = p.freeSize → ContDiffAt ℝ 2 f (toVec p.vecSize (p.ftvP y)) :=
    fun y hy => hf y _ hy (p.freeToVectorVal_ok hw hp y hy).1
  have hvx : v = p.ftvP x := by
    rw [(p.freeToVectorVal_ok hw hp x hx).1] at hxv
    exact (Except.ok.inj hxv).symm
  have hF : ∀ y : List ℝ, y.length = p.freeSize →
      p.freeObjective f y = .ok (objG p.vecSize f p.ftvP y) ∧
        (objG p.vecSize f p.ftvP y).length = 1 := by
    intro y hy
    refine ⟨?_, rfl⟩
    rw [Param.freeObjective, (p.freeToVectorVal_ok hw hp y hy).1, py_ok_bind]
    rfl
  have := (smooth_objG hsm hf').secondPartialDeriv hF hx Nat.one_pos ha hb'
  rw [D2_objG hsm hf' hx ha hb'] at this
  rw [h3 a ha b hb']
  subst hvx
  have e1 : (∑ i ∈ Finset.range p.vecSize, D2 p.ftvP x i a b * grad.getD i 0) =
      ∑ i : Fin p.vecSize, D2 p.ftvP x i a b *
        fderiv ℝ f (toVec p.vecSize (p.ftvP x)) (Pi.single i 1) := by
    rw [← Fin.sum_univ_eq_sum_range fun i => D2 p.ftvP x i a b * grad.getD i 0]
    exact Finset.sum_congr rfl fun i _ => by rw [hg i]
  have e2 : (∑ i ∈ Finset.range p.vecSize, ∑ j ∈ Finset.range p.vecSize,
      D1 p.ftvP x i a * H.at2 i j * D1 p.ftvP x j b) =
      ∑ i : Fin p.vecSize, ∑ j : Fin p.vecSize, D1 p.ftvP x i a *
        fderiv ℝ (fderiv ℝ f) (toVec p.vecSize (p.ftvP x)) (Pi.single j 1) (Pi.single i 1) *
        D1 p.ftvP x j b := by
    rw [← Fin.sum_univ_eq_sum_range fun i => ∑ j ∈ Finset.range p.vecSize,
      D1 p.ftvP x i a * H.at2 i j * D1 p.ftvP x j b]
    refine Finset.sum_congr rfl fun i _ => ?_
    rw [← Fin.sum_univ_eq_sum_range fun j => D1 p.ftvP x i a * H.at2 i j * D1 p.ftvP x j b]
    exact Finset.sum_congr rfl fun j _ => by rw [hHv i j]
  rw [e1, e2]
  exact this

/-- A parameter without any entries in its vector is the exception: `vstack` of an empty list
raises. -/
theorem C41_empty_vector (x : List ℝ) (p : Param) (hw : p.WF) (hp : p.HasParams)
    (hv : p.vecSize = 0) (hx : x.length = p.freeSize) (grad : List ℝ) (H : Arr) :
    (p.convertHessian x grad H).2 = .error .valueError := by
  have e1 := p.freeP_erase hw x hx
  obtain ⟨p2, J, hJ, hJ'⟩ := (p.freeP x).jac_ok ((Param.wf_congr e1).mpr hw)
    ((Param.hasParams_congr e1).mpr hp) x (by rw [Param.freeSize_congr e1]; exact hx)
  have e2 : p2.erase = p.erase := by
    have := Param.jac_erase (p.freeP x) x
    rw [hJ] at this
    exact this.trans e1
  have e3 : (p2.freeP x).erase = p.erase :=
    (p2.freeP_erase ((Param.wf_congr e2).mpr hw) x (by rw [Param.freeSize_congr e2]; exact hx)).trans e2
  obtain ⟨p4, ms, hms, hms'⟩ := (p2.freeP x).hess_ok ((Param.wf_congr e3).mpr hw) x
    (by rw [Param.freeSize_congr e3]; exact hx)
  have e4 : p4.erase = p.erase := by
    have := Param.hess_erase (p2.freeP x) x
    rw [hms] at this
    exact this.trans e3
  simp only [Param.convertHessian]
  rw [Param.setFree_ok p hw x hx]
  simp only [hJ]
  rw [Param.setFree_ok p2 ((Param.wf_congr e2).mpr hw) x (by rw [Param.freeSize_congr e2]; exact hx)]
  simp only [hms, py_ok_bind]
  rw [Param.vecSize_congr e4, hv]
  simp [pure, Except.pure, py_ok_bind]

/-- The hypotheses of C39-C41 are met by the example dictionary and the objective
`f(v) = ∑ v_i²`. -/
example : ∃ (eigh : Eigh) (p : Param) (x : List ℝ) (f : (Fin p.vecSize → ℝ) → ℝ),
    EighContract eigh ∧ Built eigh p ∧ p.HasParams ∧ 0 < p.vecSize ∧ x.length = p.freeSize ∧
    (∃ v, p.freeToVectorVal x = .ok v) ∧ ∀ u, ContDiffAt ℝ 2 f u := by
  obtain ⟨eigh, he⟩ := exists_eigh
  have hx : ([1, 2, 3] : List ℝ).length = exDict.freeSize := by rw [exDict_freeSize]; rfl
  refine ⟨eigh, exDict, [1, 2, 3], fun v => ∑ i, v i ^ 2, he, exDict_built eigh, exDict_hasParams,
    by rw [exDict_vecSize]; norm_num, hx, ⟨_, (exDict.freeToVectorVal_ok ((exDict_built eigh).wf he)
      exDict_hasParams _ hx).1⟩, fun u => ?_⟩
  apply ContDiff.contDiffAt
  fun_prop

/-! ### C42 -/

/-- **C42** fails: after `free_to_vector_jac` a scalar parameter holds a differentiation
placeholder. -/
theorem C42_scalar_counterexample {eigh : Eigh} (he : EighContract eigh) (l : Leaf)
    (h : Reachable eigh l) (lb ub : Flt) (hk : l.kind = .scalar lb ub) (x : List ℝ)
    (hx : x.length = 1) :
    ∃ p' J, (Param.leaf l).jac x = (p', .ok J) ∧ ¬ p'.Plain := by
  obtain ⟨name, kind, val, boxed⟩ := l
  subst hk
  have hl := reachable_legal he h trivial
  obtain ⟨l', m, h1, _⟩ := Leaf.jac_ok ⟨name, .scalar lb ub, val, boxed⟩ hl x hx
  refine ⟨.leaf l', m, by simp only [Param.jac, h1], ?_⟩
  simp only [Leaf.jac] at h1
  obtain ⟨⟨nr, J⟩, _, h1⟩ := py_bind_ok h1
  obtain ⟨⟨l1, w⟩, _, h1⟩ := py_bind_ok h1
  cases h1
  simp [Param.Plain]

/-- ... and so does a dictionary holding one: the example dictionary after `free_to_vector_jac`. -/
theorem C42_dictionary_counterexample :
    ∃ (d : Param) (x : List ℝ), (∀ eigh, Built eigh d) ∧ d.Plain ∧
      ∃ d' J, d.jac x = (d', .ok J) ∧ ¬ d'.Plain := by
  refine ⟨exDict, [1, 2, 3], exDict_built, ?_, ?_⟩
  · simp [exDict, exSub, Param.emptyDict, Param.push, Param.Plain, Entries.Plain, Entries.assign,
      Param.name, exScalar, exVector]
  · obtain ⟨eigh, he⟩ := exists_eigh
    obtain ⟨d', J, h1, _⟩ := C39_jacobian he exDict (exDict_built eigh) exDict_hasParams [1, 2, 3]
      (by rw [exDict_freeSize]; rfl)
    refine ⟨d', J, h1, ?_⟩
    obtain ⟨p', Js, h3, h4⟩ := C42_scalar_counterexample he exScalar
      ⟨exScalar, [], .scalar (name := "a") (lb := fin 0) (ub := pinf) (val := some (Arr.scalar 1))
        (by simp [mkScalar, checkBoundsScalar, Leaf.set, exScalar]), rfl⟩ (fin 0) pinf rfl [1] rfl
    intro hpl
    apply h4
    have hd : exDict = .dict ⟨"d", [("a", ⟨0, 1⟩), ("s", ⟨1, 3⟩)], [("a", ⟨0, 1⟩), ("s", ⟨1, 3⟩)], 3, 3⟩
        (.cons "a" (.leaf exScalar) (.cons "s" exSub .nil)) := by
      simp [exDict, exSub, Param.emptyDict, Param.push, assign, Entries.assign,
        Param.name, exScalar, exVector, Param.freeSize, Param.vecSize, Leaf.freeSize, Leaf.vecSize,
        Kind.freeSize, Kind.vecSize]
    rw [hd] at h1
    simp only [Param.jac, Param.jacEntries] at h1
    have hs : Leaf.slice ([1, 2, 3] : List ℝ) 0 (Param.leaf exScalar).freeSize = [1] := rfl
    have h3' := h3
    simp only [Param.jac] at h3'
    rw [hs] at h1
    rw [h3'] at h1
    simp only at h1
    have := congrArg Prod.fst h1
    simp only at this
    rw [← this] at hpl
    simp only [Param.Plain, Entries.Plain] at hpl
    exact hpl.1

/-- **C42**, the part that holds.  A parameter or dictionary without scalars and single positive
definite matrices is not changed at all by `free_to_vector_jac` and `free_to_vector_hess`, and
`convert_vector_to_free_hessian` leaves what `set_free(x)` leaves, which are plain numbers.
Missing: scalars and single positive definite matrices, for which the counterexamples show the
opposite. -/
theorem C42_untraced_partial {eigh : Eigh} (he : EighContract eigh) (p : Param) (hb : Built eigh p)
    (hp : p.HasParams) (hu : p.Untraced) (x : List ℝ) :
    (p.jac x).1 = p ∧ (p.hess x).1 = p ∧
    (x.length = p.freeSize → ∀ grad H,
      (p.convertHessian x grad H).1 = (p.setFree x).1 ∧ (p.convertHessian x grad H).1.Plain) := by
  refine ⟨p.jac_untraced hu x, p.hess_untraced hu x, fun hx grad H => ?_⟩
  have hw := hb.wf he
  have e1 := p.freeP_erase hw x hx
  have hw1 := (Param.wf_congr e1).mpr hw
  have hx1 : x.length = (p.freeP x).freeSize := by rw [Param.freeSize_congr e1]; exact hx
  have hu1 := p.untraced_freeP x hu
  obtain ⟨p2, J, hJ, hJ'⟩ := (p.freeP x).jac_ok hw1 ((Param.hasParams_congr e1).mpr hp) x hx1
  have e2 : p2 = p.freeP x := by
    have := (p.freeP x).jac_untraced hu1 x
    rw [hJ] at this
    exact this
  subst e2
  have : (p.convertHessian x grad H).1 = p.freeP x := by
    simp only [Param.convertHessian]
    rw [Param.setFree_ok p hw x hx]
    simp only [hJ]
    rw [Param.setFree_ok _ hw1 x hx1]
    simp only
    rw [p.freeP_freeP hw x x hx]
    exact (p.freeP x).hess_untraced hu1 x
  rw [this, p.setFree_ok hw x hx]
  exact ⟨rfl, p.freeP_plain x⟩

/-- For all parameters: `set_free` replaces placeholders by plain numbers, so calling it after a
derivative (as the tests do by hand) repairs the object, with the same result as if no derivative
had been computed. -/
theorem C42_set_free_repairs {eigh : Eigh} (he : EighContract eigh) (p : Param) (hb : Built eigh p)
    (hp : p.HasParams) (x y : List ℝ) (hx : x.length = p.freeSize) (hy : y.length = p.freeSize) :
    ∃ q, (p.jac x).1.setFree y = (q, none) ∧ q.Plain ∧ q.getFree = .ok y := by
  have hw := hb.wf he
  have e := p.jac_erase x
  refine ⟨_, Param.setFree_ok _ ((Param.wf_congr e).mpr hw) y (by rw [Param.freeSize_congr e]; exact hy),
    Param.freeP_plain _ _, Param.getFree_freeP _ ((Param.wf_congr e).mpr hw)
      ((Param.hasParams_congr e).mpr hp) y (by rw [Param.freeSize_congr e]; exact hy)⟩

/-- A nested dictionary without scalars. -/
example : ∃ (eigh : Eigh) (p : Param) (x : List ℝ), EighContract eigh ∧ Built eigh p ∧ p.HasParams ∧
    p.Untraced ∧ x.length = p.freeSize ∧ x ≠ [] := by
  obtain ⟨eigh, he⟩ := exists_eigh
  refine ⟨eigh, exSub, [1, 2], he, exSub_built eigh, ?_, ?_, ?_, by simp⟩
  · simp [exSub, Param.emptyDict, Param.push, Param.HasParams, Entries.assign]
  · simp [exSub, Param.emptyDict, Param.push, Param.Untraced, Entries.Untraced, Entries.assign, exVector]
  · simp [exSub, Param.emptyDict, Param.push, Param.freeSize, Leaf.freeSize, exVector, Kind.freeSize]

end LRVB
