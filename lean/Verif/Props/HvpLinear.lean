import Verif.Props.ObjDeriv
import Verif.Lemmas.ExScalar

/-!
# C191: Hessian-vector products are linear and symmetric

The conjugate gradient solvers and the trust-region optimizers receive the Hessian only through the
Hessian-vector-product methods, and are only correct when these are linear and symmetric operators.
-/

namespace LRVB

open Flt

variable {A : Type}

theorem mulVecFn_comb (M : Arr) (r c : ℕ) {u v : List ℝ} (hu : u.length = c) (hv : v.length = c)
    (s t : ℝ) :
    mulVecFn M r c (List.zipWith (fun p q => s * p + t * q) u v) =
      List.zipWith (fun p q => s * p + t * q) (mulVecFn M r c u) (mulVecFn M r c v) := by
  apply List.ext_getElem
  · simp
  · intro i h1 h2
    simp only [mulVecFn, List.getElem_map, List.getElem_zipWith, Finset.mul_sum,
      ← Finset.sum_add_distrib]
    refine Finset.sum_congr rfl fun j hj => ?_
    have hj := Finset.mem_range.mp hj
    have e1 : u[j]? = some u[j] := List.getElem?_eq_getElem (by omega)
    have e2 : v[j]? = some v[j] := List.getElem?_eq_getElem (by omega)
    simp only [List.getD_eq_getElem?_getD, List.getElem?_zipWith, e1, e2, Option.getD_some]
    ring

theorem mulVecFn_symm (M : Arr) (m : ℕ) (hM : ∀ i < m, ∀ j < m, M.at2 i j = M.at2 j i)
    (u v : List ℝ) :
    (∑ i ∈ Finset.range m, v.getD i 0 * (mulVecFn M m m u).getD i 0) =
      ∑ i ∈ Finset.range m, u.getD i 0 * (mulVecFn M m m v).getD i 0 := by
  have e : ∀ p q : List ℝ, (∑ i ∈ Finset.range m, p.getD i 0 * (mulVecFn M m m q).getD i 0) =
      ∑ i ∈ Finset.range m, ∑ j ∈ Finset.range m, p.getD i 0 * (M.at2 i j * q.getD j 0) := by
    intro p q
    refine Finset.sum_congr rfl fun i hi => ?_
    rw [mulVecFn_getD _ _ _ _ (Finset.mem_range.mp hi), Finset.mul_sum]
  rw [e, e, Finset.sum_comm]
  refine Finset.sum_congr rfl fun i hi => Finset.sum_congr rfl fun j hj => ?_
  rw [hM i (Finset.mem_range.mp hi) j (Finset.mem_range.mp hj)]
  ring

theorem mulVecFn_adjoint (P : Arr) (m n : ℕ) (hP : IsMat P m n) (v w : List ℝ) :
    (∑ i ∈ Finset.range n, v.getD i 0 * (mulVecFn P.transpose n m w).getD i 0) =
      ∑ i ∈ Finset.range m, (mulVecFn P m n v).getD i 0 * w.getD i 0 := by
  have l : ∀ i ∈ Finset.range n, v.getD i 0 * (mulVecFn P.transpose n m w).getD i 0 =
      ∑ j ∈ Finset.range m, v.getD i 0 * (P.at2 j i * w.getD j 0) := by
    intro i hi
    rw [mulVecFn_getD _ _ _ _ (Finset.mem_range.mp hi), Finset.mul_sum]
    refine Finset.sum_congr rfl fun j hj => ?_
    have : P.transpose.at2 i j = P.at2 j i := by
      unfold Arr.transpose
      rw [hP.2]
      exact Arr.at2_ofFn2 _ _ _ (by simpa using hi) (by simpa using hj)
    rw [this]
  have r : ∀ i ∈ Finset.range m, (mulVecFn P m n v).getD i 0 * w.getD i 0 =
      ∑ j ∈ Finset.range n, v.getD j 0 * (P.at2 i j * w.getD i 0) := by
    intro i hi
    rw [mulVecFn_getD _ _ _ _ (Finset.mem_range.mp hi), Finset.sum_mul]
    exact Finset.sum_congr rfl fun j _ => by ring
  rw [Finset.sum_congr rfl l, Finset.sum_congr rfl r, Finset.sum_comm]

/-- **C191** Let the objective compute a twice continuously differentiable function of the free
vector (`free = true`) or the vector (`free = false`) of length `m ≥ 1`.  At every point `x` and for
all vectors `u`, `v` of that length: the Hessian-vector product of `s u + t v` is `s` times that of
`u` plus `t` times that of `v`, and the inner product of `v` with the product for `u` is the inner
product of `u` with the product for `v`. -/
theorem C191_linear_symmetric (o : Objective A) (a : A) (free : Bool) (m : ℕ) (hm : 0 < m)
    (f : (Fin m → ℝ) → ℝ) (hf : ContDiff ℝ 2 f)
    (hval : ∀ y : List ℝ, y.length = m →
      (if free then (o.funFree y a false).2 else (o.funVector y a).2) =
        .ok (Arr.scalar (f (toVec m y))))
    (x u v : List ℝ) (hx : x.length = m) (hu : u.length = m) (hv : v.length = m) :
    ∃ wu wv, wu.length = m ∧ wv.length = m ∧
      (if free then o.funFreeHvp x a u else o.funVectorHvp x a u).2 = .ok wu ∧
      (if free then o.funFreeHvp x a v else o.funVectorHvp x a v).2 = .ok wv ∧
      (∀ s t : ℝ, (if free then
          o.funFreeHvp x a (List.zipWith (fun p q => s * p + t * q) u v)
        else o.funVectorHvp x a (List.zipWith (fun p q => s * p + t * q) u v)).2 =
          .ok (List.zipWith (fun p q => s * p + t * q) wu wv)) ∧
      (∑ i ∈ Finset.range m, v.getD i 0 * wu.getD i 0) =
        ∑ i ∈ Finset.range m, u.getD i 0 * wv.getD i 0 := by
  obtain ⟨_, H, _, -, hH, -, -, hHm, -, hsym, -⟩ :=
    C86_derivatives o a free m hm f hf hval x u hx hu
  have key : ∀ z : List ℝ, z.length = m →
      (if free then o.funFreeHvp x a z else o.funVectorHvp x a z).2 = .ok (mulVecFn H m m z) := by
    intro z hz
    obtain ⟨_, H', w, -, hH', hw, -, -, -, -, hmul⟩ :=
      C86_derivatives o a free m hm f hf hval x z hx hz
    rw [hH] at hH'
    obtain rfl := Except.ok.inj hH'
    rw [hw, ← hmul, mulVec_ok hHm.2 hz]
  refine ⟨mulVecFn H m m u, mulVecFn H m m v, by simp, by simp, key u hu, key v hv, ?_, ?_⟩
  · intro s t
    rw [key _ (by simp [hu, hv]), mulVecFn_comb H m m hu hv]
  · exact mulVecFn_symm H m (fun i hi j hj => (hsym i hi j hj).2) u v

/-- **C191** for the conditioned Hessian-vector product, with any `m × n` preconditioner. -/
theorem C191_conditioned (o : Objective A) (a : A) (P : Arr) (m n : ℕ) (hm : 0 < m)
    (hPre : o.precond = some P) (hP : IsMat P m n) (f : (Fin m → ℝ) → ℝ) (hf : ContDiff ℝ 2 f)
    (hval : ∀ y : List ℝ, y.length = m → (o.funFree y a false).2 = .ok (Arr.scalar (f (toVec m y))))
    (x u v : List ℝ) (hx : x.length = n) (hu : u.length = n) (hv : v.length = n) :
    ∃ wu wv, wu.length = n ∧ wv.length = n ∧
      (o.funFreeHvpCond x a u).2 = .ok wu ∧ (o.funFreeHvpCond x a v).2 = .ok wv ∧
      (∀ s t : ℝ, (o.funFreeHvpCond x a (List.zipWith (fun p q => s * p + t * q) u v)).2 =
          .ok (List.zipWith (fun p q => s * p + t * q) wu wv)) ∧
      (∑ i ∈ Finset.range n, v.getD i 0 * wu.getD i 0) =
        ∑ i ∈ Finset.range n, u.getD i 0 * wv.getD i 0 := by
  have hTs : P.transpose.shape = [n, m] := by simp [hP.2]
  obtain ⟨wu, wv, lu, lv, eu, ev, hlin, hsym⟩ := C191_linear_symmetric o a true m hm f hf
    (by simpa using hval) (mulVecFn P m n x) (mulVecFn P m n u) (mulVecFn P m n v) (by simp)
    (by simp) (by simp)
  simp only [if_true] at eu ev hlin
  have key : ∀ z w : List ℝ, z.length = n → w.length = m →
      (o.funFreeHvp (mulVecFn P m n x) a (mulVecFn P m n z)).2 = .ok w →
      (o.funFreeHvpCond x a z).2 = .ok (mulVecFn P.transpose n m w) := by
    intro z w hz hw h
    simp only [Objective.funFreeHvpCond, hPre, Objective.conditionedX, mulVec_ok hP.2 hx,
      mulVec_ok hP.2 hz]
    rw [h, py_ok_bind]
    exact mulVec_ok hTs hw
  refine ⟨mulVecFn P.transpose n m wu, mulVecFn P.transpose n m wv, by simp, by simp,
    key u wu hu lu eu, key v wv hv lv ev, ?_, ?_⟩
  · intro s t
    rw [key _ (List.zipWith (fun p q => s * p + t * q) wu wv) (by simp [hu, hv])
      (by simp [lu, lv]) (by rw [mulVecFn_comb P m n hu hv]; exact hlin s t)]
    rw [mulVecFn_comb _ n m lu lv]
  · rw [mulVecFn_adjoint P m n hP, mulVecFn_adjoint P m n hP]
    exact hsym

/-- **C191** A preconditioner whose columns are independent keeps positive curvature: if the
Hessian-vector products at the unconditioned point have positive inner products with their vectors, so
have the conditioned ones. -/
theorem C191_conditioned_positive (o : Objective A) (a : A) (P : Arr) (m n : ℕ) (hm : 0 < m)
    (hPre : o.precond = some P) (hP : IsMat P m n) (f : (Fin m → ℝ) → ℝ) (hf : ContDiff ℝ 2 f)
    (hval : ∀ y : List ℝ, y.length = m → (o.funFree y a false).2 = .ok (Arr.scalar (f (toVec m y))))
    (hinj : ∀ z : List ℝ, z.length = n → P.mulVec z = .ok (List.replicate m 0) →
      z = List.replicate n 0)
    (x y : List ℝ) (hx : x.length = n) (hy : P.mulVec x = .ok y)
    (hpos : ∀ w : List ℝ, w.length = m → w ≠ List.replicate m 0 →
      ∀ r, (o.funFreeHvp y a w).2 = .ok r → 0 < ∑ i ∈ Finset.range m, w.getD i 0 * r.getD i 0)
    (z : List ℝ) (hz : z.length = n) (hz0 : z ≠ List.replicate n 0) :
    ∃ r, (o.funFreeHvpCond x a z).2 = .ok r ∧ r.length = n ∧
      0 < ∑ i ∈ Finset.range n, z.getD i 0 * r.getD i 0 := by
  have hTs : P.transpose.shape = [n, m] := by simp [hP.2]
  rw [mulVec_ok hP.2 hx] at hy
  obtain rfl := Except.ok.inj hy
  obtain ⟨w, -, lw, -, ew, -⟩ := C191_linear_symmetric o a true m hm f hf
    (by simpa using hval) (mulVecFn P m n x) (mulVecFn P m n z) (mulVecFn P m n z) (by simp)
    (by simp) (by simp)
  simp only [if_true] at ew
  refine ⟨mulVecFn P.transpose n m w, ?_, by simp, ?_⟩
  · simp only [Objective.funFreeHvpCond, hPre, Objective.conditionedX, mulVec_ok hP.2 hx,
      mulVec_ok hP.2 hz]
    rw [ew, py_ok_bind]
    exact mulVec_ok hTs lw
  · rw [mulVecFn_adjoint P m n hP]
    refine hpos _ (by simp) (fun h0 => hz0 (hinj z hz ?_)) w ew
    rw [mulVec_ok hP.2 hz, h0]

/-- An objective whose Hessian does not vanish: the square of the sum of the vector. -/
noncomputable def exSqObj : Objective Unit :=
  Objective.new exDict fun _ p => do .ok (Arr.scalar ((← p.getVector).sum ^ 2))

/-- The hypotheses of C191 are met: the square of the sum of three numbers, in the vector
parameterization; the method can be used at every point. -/
example : (∀ y : List ℝ, y.length = 3 → (exSqObj.funVector y ()).2 =
      .ok (Arr.scalar ((∑ i, toVec 3 y i) ^ 2))) ∧
    ContDiff ℝ 2 (fun u : Fin 3 → ℝ => (∑ i, u i) ^ 2) ∧
    ∀ x : List ℝ, x.length = 3 → ∃ wu wv,
      (exSqObj.funVectorHvp x () [1, 0, 2]).2 = .ok wu ∧
      (exSqObj.funVectorHvp x () [0, 3, 1]).2 = .ok wv ∧
      (exSqObj.funVectorHvp x () [2, 3, 5]).2 =
        .ok (List.zipWith (fun p q => 2 * p + 1 * q) wu wv) := by
  have hval : ∀ y : List ℝ, y.length = 3 → (exSqObj.funVector y ()).2 =
      .ok (Arr.scalar ((∑ i, toVec 3 y i) ^ 2)) := by
    intro y hy
    obtain ⟨eigh, he⟩ := exists_eigh
    have hw := (exDict_built eigh).wf he
    have hy' : y.length = exDict.vecSize := by rw [exDict_vecSize]; exact hy
    have hpl := Param.setVector_plain exDict y (by rw [exDict.setVector_ok hw y hy'])
    rw [exDict.setVector_ok hw y hy'] at hpl
    have e : exSqObj.par.setVector y = (exDict.vecP y, none) := exDict.setVector_ok hw y hy'
    simp only [Objective.funVector, e]
    rw [Param.mark_plain _ hpl]
    simp only [exSqObj, Objective.new, exDict.getVector_vecP hw exDict_hasParams y hy', py_ok_bind]
    obtain ⟨a, b, c, rfl⟩ := List.length_eq_three.mp hy
    simp [Fin.sum_univ_three, toVec, add_assoc]
  have hf : ContDiff ℝ 2 (fun u : Fin 3 → ℝ => (∑ i, u i) ^ 2) :=
    (ContDiff.sum fun i _ => contDiff_apply ℝ ℝ i).pow 2
  refine ⟨hval, hf, fun x hx => ?_⟩
  obtain ⟨wu, wv, -, -, h1, h2, h3, -⟩ := C191_linear_symmetric exSqObj () false 3 (by norm_num) _ hf
    (by simpa using hval) x [1, 0, 2] [0, 3, 1] hx rfl rfl
  refine ⟨wu, wv, by simpa using h1, by simpa using h2, ?_⟩
  have := h3 2 1
  have e : List.zipWith (fun p q : ℝ => 2 * p + 1 * q) [1, 0, 2] [0, 3, 1] = [2, 3, 5] := by
    norm_num
  rw [e] at this
  simpa using this

/-- The square of a number, with the preconditioner `2`. -/
noncomputable def exSq1 : Objective Unit :=
  { Objective.new (scPar ninf) fun _ p => do .ok (Arr.scalar ((← p.getVector).getD 0 0 ^ 2)) with
    precond := some ⟨[1, 1], [2]⟩ }

theorem exSq1_value (t : ℝ) : valueAt (exSq1.fn ()) exSq1.par true [t] = .ok (Arr.scalar (t ^ 2)) := by
  obtain ⟨h1, h2⟩ := scPar_getVector ninf ninf_lt_pinf true t
  unfold valueAt
  have e : exSq1.par = scPar ninf := rfl
  rw [e]
  simp only [h1, exSq1, Objective.new, h2, py_ok_bind]
  simp [constrainFn_real]

/-- The hypotheses of `C191_conditioned_positive` are met by the square of a number. -/
example (t c : ℝ) (hc : c ≠ 0) : ∃ r, (exSq1.funFreeHvpCond [t] () [c]).2 = .ok r ∧ r.length = 1 ∧
    0 < ∑ i ∈ Finset.range 1, [c].getD i 0 * r.getD i 0 := by
  have hP : IsMat (⟨[1, 1], [2]⟩ : Arr) 1 1 := ⟨by simp [Arr.WF], rfl⟩
  have hf : ContDiff ℝ 2 fun u : Fin 1 → ℝ => u 0 ^ 2 := (contDiff_apply ℝ ℝ 0).pow 2
  have hmul : ∀ s : ℝ, (⟨[1, 1], [2]⟩ : Arr).mulVec [s] = .ok [2 * s] := fun s => by
    rw [mulVec_ok hP.2 rfl]
    simp [mulVecFn, Arr.at2]
  refine C191_conditioned_positive exSq1 () ⟨[1, 1], [2]⟩ 1 1 Nat.one_pos rfl hP _ hf ?_ ?_ [t] [2 * t] rfl
    (hmul t) ?_ [c] rfl (by simpa using hc)
  · intro y hy
    obtain ⟨s, rfl⟩ := List.length_eq_one_iff.mp hy
    rw [Objective.funFree_value, exSq1_value]
    rfl
  · intro z hz h
    obtain ⟨s, rfl⟩ := List.length_eq_one_iff.mp hz
    rw [hmul] at h
    have := Except.ok.inj h
    simpa using this
  · intro w hw h0 r hr
    obtain ⟨s, rfl⟩ := List.length_eq_one_iff.mp hw
    have hs : s ≠ 0 := by simpa using h0
    rw [Objective.funFreeHvp, exSq1.deriv_value _ _ _ _ (valueAt_ok_set (exSq1_value _)), agHvp,
      exSq1_value, py_ok_bind, if_neg (by simp [Arr.size, Arr.scalar]), if_neg (by simp)] at hr
    obtain rfl := Except.ok.inj hr
    have e1 : ∀ v : ℝ, pd (fun z => entryA 0 (valueAt (exSq1.fn ()) exSq1.par true z)) [v] 0 = 2 * v := by
      intro v
      simp only [pd, List.set_cons_zero, exSq1_value]
      simp [entryA, Arr.scalar]
    have e2 : pd (fun y => ∑ i ∈ Finset.range [2 * t].length,
        pd (fun z => entryA 0 (valueAt (exSq1.fn ()) exSq1.par true z)) y i * [s].getD i 0) [2 * t] 0 = 2 * s := by
      rw [pd]
      simp only [List.set_cons_zero, List.length_singleton, Finset.range_one, Finset.sum_singleton, e1]
      have : HasDerivAt (fun q : ℝ => 2 * q * s) (2 * s) ([2 * t].getD 0 0) := by
        simpa using ((hasDerivAt_id _).const_mul 2).mul_const s
      exact this.deriv
    simp only [List.length_singleton, List.range_one, List.map_cons, List.map_nil] at e2 ⊢
    rw [e2]
    simp
    nlinarith [sq_pos_of_ne_zero hs]

end LRVB
