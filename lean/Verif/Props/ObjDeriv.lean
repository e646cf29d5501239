import Verif.Props.Converter
import Verif.Props.DictDeriv

/-!
# C86, C87: the derivative methods of an objective
-/

namespace LRVB

variable {A : Type}

/-- The value method of an objective in the free (`free = true`) or the vector parameterization,
returning the entries of the value. -/
noncomputable def Objective.valueList (o : Objective A) (free : Bool) (a : A) (y : List ℝ) : Py (List ℝ) :=
  Arr.data <$> if free then (o.funFree y a false).2 else (o.funVector y a).2

theorem Objective.valueList_eq (o : Objective A) (free : Bool) (a : A) (y : List ℝ) :
    o.valueList free a y = Arr.data <$> valueAt (o.fn a) o.par free y := by
  unfold Objective.valueList
  congr 1
  cases free
  · simp only [Objective.funVector, valueAt, setPar, Bool.false_eq_true, if_false]
    cases (o.par.setVector y).2 <;> rfl
  · rw [← Objective.funFree_value]; rfl

theorem valueAt_scalar {o : Objective A} {free : Bool} {a : A} {y : List ℝ} {r : ℝ}
    (h : (if free then (o.funFree y a false).2 else (o.funVector y a).2) = .ok (Arr.scalar r)) :
    valueAt (o.fn a) o.par free y = .ok (Arr.scalar r) := by
  cases free
  · simp only [Objective.funVector, Bool.false_eq_true, if_false] at h
    rw [← h]
    simp only [valueAt, setPar, Bool.false_eq_true, if_false]
    cases (o.par.setVector y).2 <;> rfl
  · rw [← Objective.funFree_value]; exact h

/-- **C86** Let the objective compute `f(x)` from the free vectors (`free = true`) or the vectors
(`free = false`) of length `m ≥ 1`, with `f` twice continuously differentiable.  At every point the
gradient method returns its partial derivatives, the Hessian method its second partial derivatives
(a symmetric matrix), and the Hessian-vector-product method the product of that Hessian with the
vector. -/
theorem C86_derivatives (o : Objective A) (a : A) (free : Bool) (m : ℕ) (hm : 0 < m)
    (f : (Fin m → ℝ) → ℝ) (hf : ContDiff ℝ 2 f)
    (hval : ∀ y : List ℝ, y.length = m →
      (if free then (o.funFree y a false).2 else (o.funVector y a).2) =
        .ok (Arr.scalar (f (toVec m y))))
    (x v : List ℝ) (hx : x.length = m) (hv : v.length = m) :
    ∃ g H w,
      (if free then o.funFreeGrad x a else o.funVectorGrad x a).2 = .ok g ∧
      (if free then o.funFreeHessian x a else o.funVectorHessian x a).2 = .ok H ∧
      (if free then o.funFreeHvp x a v else o.funVectorHvp x a v).2 = .ok w ∧
      g.length = m ∧ IsMat H m m ∧
      (∀ j < m, PartialDeriv (o.valueList free a) 0 j x (g.getD j 0)) ∧
      (∀ i < m, ∀ j < m, SecondPartialDeriv (o.valueList free a) 0 i j x (H.at2 i j) ∧
        H.at2 i j = H.at2 j i) ∧
      H.mulVec v = .ok w := by
  have hF : ∀ y : List ℝ, y.length = m →
      valueAt (o.fn a) o.par free y = .ok (Arr.scalar (f (toVec m y))) :=
    fun y hy => valueAt_scalar (hval y hy)
  have hset := valueAt_ok_set (hF x hx)
  have hval' : ∀ y : List ℝ, y.length = m → o.valueList free a y = .ok [f (toVec m y)] := by
    intro y hy
    rw [Objective.valueList_eq, hF y hy]; rfl
  have hd1 : ∀ y : List ℝ, y.length = m → ∀ j < m, PartialDeriv (o.valueList free a) 0 j y
      (fderiv ℝ f (toVec m y) (basis m j)) := by
    intro y hy j hj
    exact ⟨fun s => f (toVec m (y.set j s)), fun s => ⟨_, hval' _ (by simpa using hy), rfl⟩,
      pd_hasDerivAt (hf.differentiable (by norm_num)) (fun _ _ => rfl) hy hj⟩
  have hsymm : ∀ i j, fderiv ℝ (fderiv ℝ f) (toVec m x) (basis m j) (basis m i) =
      fderiv ℝ (fderiv ℝ f) (toVec m x) (basis m i) (basis m j) :=
    fun i j => (hf.contDiffAt.isSymmSndFDerivAt (by simp)).eq _ _
  refine ⟨(List.range m).map fun j => fderiv ℝ f (toVec m x) (basis m j),
    Arr.ofFn2 m m fun i j => fderiv ℝ (fderiv ℝ f) (toVec m x) (basis m j) (basis m i),
    (List.range m).map fun j => ∑ i ∈ Finset.range m,
      fderiv ℝ (fderiv ℝ f) (toVec m x) (basis m j) (basis m i) * v.getD i 0,
    ?_, ?_, ?_, by simp, ⟨Arr.ofFn2_WF _ _ _, rfl⟩, ?_, ?_, ?_⟩
  · have h := (o.deriv_value free x a (fun F => agGrad F x) hset).trans (agGrad_ok hf hF hx)
    cases free <;> exact h
  · have h := (o.deriv_value free x a (fun F => agHess F x) hset).trans (agHess_ok hf hF hx hm)
    cases free <;> exact h
  · have h := (o.deriv_value free x a (fun F => agHvp F x v) hset).trans (agHvp_ok hf hF hx hv)
    cases free <;> exact h
  · intro j hj
    have := hd1 x hx j hj
    simpa [List.getD_eq_getElem?_getD, List.getElem?_range, hj] using this
  · intro i hi j hj
    rw [Arr.at2_ofFn2 _ _ _ hi hj, Arr.at2_ofFn2 _ _ _ hj hi]
    refine ⟨⟨fun s => fderiv ℝ f (toVec m (x.set j s)) (basis m i),
      fun s => hd1 _ (by simpa using hx) i hi, ?_⟩, hsymm i j⟩
    have := pd_hasDerivAt (h := fun y => fderiv ℝ f (toVec m y) (basis m i))
      (fderiv_apply_differentiable hf (basis m i)) (fun _ _ => rfl) hx hj
    rwa [fderiv_fderiv_apply hf] at this
  · rw [mulVec_ok (r := m) (c := m) rfl hv]
    congr 1
    unfold mulVecFn
    apply List.map_congr_left
    intro i hi
    refine Finset.sum_congr rfl fun j hj => ?_
    rw [Arr.at2_ofFn2 _ _ _ (List.mem_range.mp hi) (Finset.mem_range.mp hj), hsymm]

/-- **C86**, Jacobians: when the objective returns an array of `r ≥ 1` numbers in the shape `s`, the
Jacobian method returns an array of shape `s ++ [m]` with the partial derivatives, the argument in
the last axis. -/
theorem C86_jacobian (o : Objective A) (a : A) (free : Bool) (m : ℕ) (s : List ℕ)
    (hs : 0 < s.prod) (G : (Fin m → ℝ) → ℕ → ℝ) (hG : ∀ i < s.prod, Differentiable ℝ fun u => G u i)
    (hval : ∀ y : List ℝ, y.length = m →
      (if free then (o.funFree y a false).2 else (o.funVector y a).2) =
        .ok ⟨s, (List.range s.prod).map (G (toVec m y))⟩)
    (x : List ℝ) (hx : x.length = m) :
    ∃ J, (if free then o.funFreeJacobian x a else o.funVectorJacobian x a).2 = .ok J ∧
      J.WF ∧ J.shape = s ++ [m] ∧
      ∀ i < s.prod, ∀ j < m,
        PartialDeriv (o.valueList free a) i j x (J.data.getD (i * m + j) 0) := by
  have hF : ∀ y : List ℝ, y.length = m →
      valueAt (o.fn a) o.par free y = .ok ⟨s, (List.range s.prod).map (G (toVec m y))⟩ := by
    intro y hy
    have h := hval y hy
    cases free
    · simp only [Objective.funVector, Bool.false_eq_true, if_false] at h
      rw [← h]
      simp only [valueAt, setPar, Bool.false_eq_true, if_false]
      cases (o.par.setVector y).2 <;> rfl
    · rw [← Objective.funFree_value]; exact h
  have hset := valueAt_ok_set (hF x hx)
  have hsz : Arr.size ⟨s, (List.range s.prod).map (G (toVec m x))⟩ = s.prod := by
    simp [Arr.size]
  have hJ : agJac (valueAt (o.fn a) o.par free) x = .ok ⟨s ++ [m],
      (List.range s.prod).flatMap fun k => (List.range m).map fun j =>
        fderiv ℝ (fun u => G u k) (toVec m x) (basis m j)⟩ := by
    rw [agJac, hF x hx, py_ok_bind, hsz, if_neg (by omega), hx]
    congr 2
    apply List.flatMap_congr
    intro i hi
    apply List.map_congr_left
    intro j hj
    have hi := List.mem_range.mp hi
    refine pd_eq (hG i hi) (fun y hy => ?_) hx (List.mem_range.mp hj)
    rw [hF y hy]
    simp [entryA, List.getD_eq_getElem?_getD, List.getElem?_range, hi]
  refine ⟨⟨s ++ [m], (List.range s.prod).flatMap fun k => (List.range m).map fun j =>
    fderiv ℝ (fun u => G u k) (toVec m x) (basis m j)⟩, ?_, ?_, rfl, ?_⟩
  · have h := (o.deriv_value free x a (fun F => agJac F x) hset).trans hJ
    cases free <;> exact h
  · simp [Arr.WF, List.length_flatMap]
  · intro i hi j hj
    have e : ((List.range s.prod).flatMap fun k => (List.range m).map fun j =>
        fderiv ℝ (fun u => G u k) (toVec m x) (basis m j)).getD (i * m + j) 0 =
        fderiv ℝ (fun u => G u i) (toVec m x) (basis m j) := by
      have := Arr.at2_ofFn2 s.prod m
        (fun k j => fderiv ℝ (fun u => G u k) (toVec m x) (basis m j)) hi hj
      exact this
    simp only [e]
    refine ⟨fun t => G (toVec m (x.set j t)) i, fun t =>
      ⟨(List.range s.prod).map (G (toVec m (x.set j t))), ?_, ?_⟩,
      pd_hasDerivAt (hG i hi) (fun _ _ => rfl) hx hj⟩
    · rw [Objective.valueList_eq, hF _ (by simpa using hx)]; rfl
    · simp [List.getElem?_range, hi]

/-- **C87** Let the objective be a twice continuously differentiable function `f` of the vector value
of the parameter.  Then computing the gradient and the Hessian in the vector parameterization at
`free_to_vector(x)` and passing them to `convert_vector_to_free_hessian` gives exactly the matrix
that the free Hessian method returns at `x`. -/
theorem C87_hessian_paths_agree {eigh : Eigh} (he : EighContract eigh) (o : Objective A) (a : A)
    (hb : Built eigh o.par) (hp : o.par.HasParams) (hn : 0 < o.par.vecSize)
    (hn' : 0 < o.par.freeSize) (f : (Fin o.par.vecSize → ℝ) → ℝ) (hf : ContDiff ℝ 2 f)
    (hfn : ∀ (q : Param) (v : List ℝ), q.getVector = .ok v → v.length = o.par.vecSize →
      o.fn a q = .ok (Arr.scalar (f (toVec o.par.vecSize v))))
    (x : List ℝ) (hx : x.length = o.par.freeSize) :
    ∃ v g H M, o.par.freeToVectorVal x = .ok v ∧
      (o.funVectorGrad v a).2 = .ok g ∧ (o.funVectorHessian v a).2 = .ok H ∧
      (o.par.convertHessian x g H).2 = .ok M ∧ (o.funFreeHessian x a).2 = .ok M := by
  have hw := hb.wf he
  have hsm := o.par.smooth_ftvP hw
  obtain ⟨Γ, h1, h2, h3⟩ := hsm.exists_fun
  have hFv : ∀ y : List ℝ, y.length = o.par.vecSize →
      valueAt (o.fn a) o.par false y = .ok (Arr.scalar (f (toVec o.par.vecSize y))) := by
    intro y hy
    unfold valueAt
    simp only [setPar, Bool.false_eq_true, if_false, o.par.setVector_ok hw y hy]
    refine hfn _ _ ?_ hy
    rw [Param.mark_plain _ (by have := Param.setVector_plain o.par y (by
      rw [o.par.setVector_ok hw y hy]); rwa [o.par.setVector_ok hw y hy] at this)]
    exact o.par.getVector_vecP hw hp y hy
  have hFf : ∀ y : List ℝ, y.length = o.par.freeSize → valueAt (o.fn a) o.par true y =
      .ok (Arr.scalar ((fun u => f (Γ u)) (toVec o.par.freeSize y))) := by
    intro y hy
    unfold valueAt
    simp only [setPar, if_true, o.par.setFree_ok hw y hy]
    rw [Param.mark_plain _ (Param.freeP_plain _ _), hfn _ _ (o.par.getVector_freeP hw hp y hy)
        (o.par.ftvP_length hw y hy),
      h2 y hy]
  have hfΓ : ContDiff ℝ 2 fun u => f (Γ u) := hf.comp (contDiff_pi.mpr h1)
  have hvl : (o.par.ftvP x).length = o.par.vecSize := o.par.ftvP_length hw x hx
  obtain ⟨p', M, hM, hMm, hMd⟩ := C41_free_hessian he o.par hb hp hn x hx f
    (fun _ _ _ _ => hf.contDiffAt) (o.par.ftvP x) (o.par.freeToVectorVal_ok hw hp x hx).1
    ((List.range o.par.vecSize).map fun j =>
      fderiv ℝ f (toVec o.par.vecSize (o.par.ftvP x)) (basis o.par.vecSize j)) (by simp)
    (fun i => by simp [List.getD_eq_getElem?_getD, basis_fin])
    (Arr.ofFn2 o.par.vecSize o.par.vecSize fun i j => fderiv ℝ (fderiv ℝ f)
      (toVec o.par.vecSize (o.par.ftvP x)) (basis o.par.vecSize j) (basis o.par.vecSize i))
    ⟨Arr.ofFn2_WF _ _ _, rfl⟩
    (fun i j => by rw [Arr.at2_ofFn2 _ _ _ i.2 j.2, basis_fin, basis_fin])
  refine ⟨o.par.ftvP x, _, _, M, (o.par.freeToVectorVal_ok hw hp x hx).1, ?_, ?_,
    by rw [hM], ?_⟩
  · rw [Objective.funVectorGrad, o.deriv_value _ _ _ _ (valueAt_ok_set (hFv _ hvl)),
      agGrad_ok hf hFv hvl]
  · rw [Objective.funVectorHessian, o.deriv_value _ _ _ _ (valueAt_ok_set (hFv _ hvl)),
      agHess_ok hf hFv hvl hn]
  · rw [Objective.funFreeHessian, o.deriv_value _ _ _ _ (valueAt_ok_set (hFf _ hx)),
      agHess_ok hfΓ hFf hx hn']
    congr 1
    refine Arr.mat_ext ⟨Arr.ofFn2_WF _ _ _, rfl⟩ hMm fun i hi j hj => ?_
    rw [Arr.at2_ofFn2 _ _ _ hi hj]
    have hFo : ∀ y : List ℝ, y.length = o.par.freeSize →
        o.par.freeObjective f y = .ok [f (Γ (toVec o.par.freeSize y))] := by
      intro y hy
      rw [Param.freeObjective, (o.par.freeToVectorVal_ok hw hp y hy).1, py_ok_bind, h2 y hy]
    refine SecondPartialDeriv.unique ?_ (hMd i hi j hj)
    refine ⟨fun s => fderiv ℝ (fun u => f (Γ u)) (toVec _ (x.set j s)) (basis _ i), fun s => ?_, ?_⟩
    · exact ⟨fun t => f (Γ (toVec _ ((x.set j s).set i t))),
        fun t => ⟨_, hFo _ (by simpa using hx), rfl⟩,
        pd_hasDerivAt (hfΓ.differentiable (by norm_num)) (fun _ _ => rfl) (by simpa using hx) hi⟩
    · have := pd_hasDerivAt (h := fun y => fderiv ℝ (fun u => f (Γ u)) (toVec _ y) (basis _ i))
        (fderiv_apply_differentiable hfΓ (basis _ i)) (fun _ _ => rfl) hx hj
      rwa [fderiv_fderiv_apply hfΓ] at this

/-- The hypotheses of C86 and C87 are met by the sum of the vector value of the example dictionary. -/
example : exObj.par.HasParams ∧ exObj.par.vecSize = 3 ∧ exObj.par.freeSize = 3 ∧
    (∀ eigh, Built eigh exObj.par) ∧ ContDiff ℝ 2 (fun u : Fin exObj.par.vecSize → ℝ => ∑ i, u i) ∧
    (∀ (q : Param) (v : List ℝ), q.getVector = .ok v → v.length = exObj.par.vecSize →
      exObj.fn () q = .ok (Arr.scalar (∑ i, toVec exObj.par.vecSize v i))) ∧
    ∀ y : List ℝ, y.length = 3 → (exObj.funVector y ()).2 =
      .ok (Arr.scalar (∑ i, toVec exObj.par.vecSize y i)) := by
  have hs : ∀ v : List ℝ, v.length = exObj.par.vecSize →
      v.sum = ∑ i, toVec exObj.par.vecSize v i := by
    intro v hv
    rw [← hv, ← List.sum_ofFn]
    congr 1
    apply List.ext_getElem (by simp)
    intro i h1 h2
    simp [toVec, List.getD_eq_getElem?_getD, h1]
  have hfn : ∀ (q : Param) (v : List ℝ), q.getVector = .ok v → v.length = exObj.par.vecSize →
      exObj.fn () q = .ok (Arr.scalar (∑ i, toVec exObj.par.vecSize v i)) := by
    intro q v hq hv
    simp only [exObj, Objective.new, hq, py_ok_bind]
    rw [hs v hv]
    rfl
  refine ⟨exDict_hasParams, exDict_vecSize, exDict_freeSize, exDict_built, ?_, hfn, fun y hy => ?_⟩
  · exact ContDiff.sum fun i _ => contDiff_apply ℝ ℝ i
  · obtain ⟨eigh, he⟩ := exists_eigh
    have hw := (exDict_built eigh).wf he
    have hy' : y.length = exDict.vecSize := by rw [exDict_vecSize]; exact hy
    have hpl := Param.setVector_plain exDict y (by rw [exDict.setVector_ok hw y hy'])
    rw [exDict.setVector_ok hw y hy'] at hpl
    have e : exObj.par.setVector y = (exDict.vecP y, none) := exDict.setVector_ok hw y hy'
    simp only [Objective.funVector, e]
    rw [Param.mark_plain _ hpl]
    exact hfn _ _ (exDict.getVector_vecP hw exDict_hasParams y hy') hy'

end LRVB
