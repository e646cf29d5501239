import Verif.Props.Objective
import Verif.Lemmas.AgDeriv

/-!
# C46: preconditioned derivatives
-/

namespace LRVB

variable {A : Type}

theorem Objective.funFree_value (o : Objective A) (x : List ℝ) (a : A) :
    (o.funFree x a false).2 = valueAt (o.fn a) o.par true x := by
  unfold Objective.funFree valueAt
  simp only [setPar, if_true]
  cases hn : (o.par.setFree x).2 with
  | some e => rfl
  | none => cases hw : o.fn a ((o.par.setFree x).1.mark false) <;> simp [hw]

theorem valueAt_ok_set {f : Param → Py Arr} {p : Param} {free : Bool} {x : List ℝ} {v : Arr}
    (h : valueAt f p free x = .ok v) : (setPar p x free).2 = none := by
  unfold valueAt at h
  cases hn : (setPar p x free).2 with
  | some e => simp [hn] at h
  | none => rfl

theorem Objective.deriv_value {β : Type} (o : Objective A) (free : Bool) (x : List ℝ) (a : A)
    (ag : (List ℝ → Py Arr) → Py β) (hs : (setPar o.par x free).2 = none) :
    (o.deriv free x a ag).2 = ag (valueAt (o.fn a) o.par free) := by
  unfold Objective.deriv cacheAndEval
  simp only
  cases ag (valueAt (o.fn a) o.par free) with
  | error e => rfl
  | ok v =>
    have i := setPar_indep (traceSet_blank o.par x free).symm x free
    simp only
    rw [i.1, hs]

/-- **C46** Let the objective compute `f(x)` from a free vector `x` of length `m`, with `f` twice
continuously differentiable, and let the preconditioner be any `m × n` matrix `P`.  Then for every
`x` of length `n`: the conditioned value is `f(P x)`; the conditioned gradient and Hessian are the
gradient and Hessian at `x` of the conditioned value as a function of `x`; and the conditioned
Hessian-vector product is the conditioned Hessian times the vector. -/
theorem C46_preconditioned (o : Objective A) (a : A) (P : Arr) (m n : ℕ) (hm : 0 < m)
    (hPre : o.precond = some P) (hP : IsMat P m n) (f : (Fin m → ℝ) → ℝ) (hf : ContDiff ℝ 2 f)
    (hval : ∀ y : List ℝ, y.length = m → (o.funFree y a false).2 = .ok (Arr.scalar (f (toVec m y))))
    (x v : List ℝ) (hx : x.length = n) (hv : v.length = n) :
    (∃ y, P.mulVec x = .ok y ∧ o.unconditionX x = .ok y ∧
      (o.funFreeCond x a false).2 = .ok (Arr.scalar (f (toVec m y)))) ∧
    (∃ g, (o.funFreeGradCond x a).2 = .ok g ∧ g.length = n ∧ ∀ j < n,
      PartialDeriv (fun z => Arr.data <$> (o.funFreeCond z a false).2) 0 j x (g.getD j 0)) ∧
    (∃ H w, (o.funFreeHessianCond x a).2 = .ok H ∧ IsMat H n n ∧
      (∀ i < n, ∀ j < n, SecondPartialDeriv
        (fun z => Arr.data <$> (o.funFreeCond z a false).2) 0 i j x (H.at2 i j)) ∧
      (o.funFreeHvpCond x a v).2 = .ok w ∧ H.mulVec v = .ok w) := by
  have hF : ∀ y : List ℝ, y.length = m →
      valueAt (o.fn a) o.par true y = .ok (Arr.scalar (f (toVec m y))) := by
    intro y hy; rw [← o.funFree_value]; exact hval y hy
  have hset : ∀ y : List ℝ, y.length = m → (setPar o.par y true).2 = none :=
    fun y hy => valueAt_ok_set (hF y hy)
  have hcond : ∀ z : List ℝ, z.length = n → (o.funFreeCond z a false).2 =
      .ok (Arr.scalar (f (toVec m (mulVecFn P m n z)))) := by
    intro z hz
    simp only [Objective.funFreeCond, hPre, Objective.conditionedX, mulVec_ok hP.2 hz]
    exact hval _ (by simp)
  have hcl : ∀ z : List ℝ, z.length = n →
      (fun z => Arr.data <$> (o.funFreeCond z a false).2) z =
        .ok (objG m f (mulVecFn P m n) z) ∧ (objG m f (mulVecFn P m n) z).length = 1 := by
    intro z hz
    refine ⟨?_, rfl⟩
    simp only
    rw [hcond z hz]; rfl
  have hsm := smooth_mulVecFn P m n
  have hf' : ∀ y : List ℝ, y.length = n → ContDiffAt ℝ 2 f (toVec m (mulVecFn P m n y)) :=
    fun y _ => hf.contDiffAt
  set y := mulVecFn P m n x with hy
  have hyl : y.length = m := by rw [hy]; simp
  have hTs : P.transpose.shape = [n, m] := by simp [hP.2]
  have hTat : ∀ i < n, ∀ k < m, P.transpose.at2 i k = P.at2 k i := by
    intro i hi k hk
    unfold Arr.transpose
    rw [hP.2]
    exact Arr.at2_ofFn2 _ _ _ (by simpa using hi) (by simpa using hk)
  -- the Hessian
  set M := Arr.ofFn2 m m (fun i j => fderiv ℝ (fderiv ℝ f) (toVec m y) (basis m j) (basis m i)) with hM
  have hMs : M.shape = [m, m] := rfl
  set MP := Arr.ofFn2 m n (fun i k => ∑ j ∈ Finset.range m, M.at2 i j * P.at2 j k) with hMP
  set H := Arr.ofFn2 n n (fun i k => ∑ j ∈ Finset.range m, P.transpose.at2 i j * MP.at2 j k) with hH
  have hHval : ∀ i < n, ∀ k < n, H.at2 i k = ∑ p ∈ Finset.range m, ∑ q ∈ Finset.range m,
      P.at2 p i * (fderiv ℝ (fderiv ℝ f) (toVec m y) (basis m q) (basis m p) * P.at2 q k) := by
    intro i hi k hk
    rw [hH, Arr.at2_ofFn2 _ _ _ hi hk]
    refine Finset.sum_congr rfl fun p hp => ?_
    have hp := Finset.mem_range.mp hp
    rw [hTat i hi p hp, hMP, Arr.at2_ofFn2 _ _ _ hp hk, Finset.mul_sum]
    refine Finset.sum_congr rfl fun q hq => ?_
    rw [hM, Arr.at2_ofFn2 _ _ _ hp (Finset.mem_range.mp hq)]
  refine ⟨⟨y, mulVec_ok hP.2 hx, ?_, hcond x hx⟩, ?_, ?_⟩
  · simp only [Objective.unconditionX, hPre]
    exact mulVec_ok hP.2 hx
  · refine ⟨mulVecFn P.transpose n m
      ((List.range m).map fun j => fderiv ℝ f (toVec m y) (basis m j)), ?_, by simp, ?_⟩
    · simp only [Objective.funFreeGradCond, hPre, Objective.conditionedX, mulVec_ok hP.2 hx]
      rw [Objective.funFreeGrad, o.deriv_value _ _ _ _ (hset _ hyl), agGrad_ok hf hF hyl, py_ok_bind]
      exact mulVec_ok hTs (by simp)
    · intro j hj
      have := (smooth_objG hsm hf').partialDeriv hcl hx Nat.one_pos hj
      rw [D1_objG hsm hf' hx hj] at this
      rw [mulVecFn_getD _ _ _ _ hj]
      convert this using 1
      rw [← Fin.sum_univ_eq_sum_range fun k => P.transpose.at2 j k *
        ((List.range m).map fun j => fderiv ℝ f (toVec m y) (basis m j)).getD k 0]
      refine Finset.sum_congr rfl fun i _ => ?_
      rw [hTat j hj i i.2, D1_mulVecFn P m n hx i.2 hj]
      congr 1
      simp [List.getD_eq_getElem?_getD, basis_fin, hy]
  · refine ⟨H, mulVecFn P.transpose n m ((List.range m).map fun j => ∑ i ∈ Finset.range m,
      fderiv ℝ (fderiv ℝ f) (toVec m y) (basis m j) (basis m i) *
        (mulVecFn P m n v).getD i 0), ?_, ⟨Arr.ofFn2_WF _ _ _, rfl⟩, ?_, ?_, ?_⟩
    · simp only [Objective.funFreeHessianCond, hPre, Objective.conditionedX, mulVec_ok hP.2 hx]
      rw [Objective.funFreeHessian, o.deriv_value _ _ _ _ (hset _ hyl), agHess_ok hf hF hyl hm,
        py_ok_bind, ← hM, matmul_ok hMs hP.2, py_ok_bind, matmul_ok hTs rfl]
    · intro i hi j hj
      have := (smooth_objG hsm hf').secondPartialDeriv hcl hx Nat.one_pos hi hj
      rw [D2_objG hsm hf' hx hi hj] at this
      convert this using 1
      rw [hHval i hi j hj]
      have z : ∑ k : Fin m, D2 (mulVecFn P m n) x k i j *
          fderiv ℝ f (toVec m (mulVecFn P m n x)) (Pi.single k 1) = 0 := by
        apply Finset.sum_eq_zero
        intro k _
        rw [D2_mulVecFn P m n hx k.2 hi, zero_mul]
      rw [z, zero_add, ← Fin.sum_univ_eq_sum_range fun p => ∑ q ∈ Finset.range m,
        P.at2 p i * (fderiv ℝ (fderiv ℝ f) (toVec m y) (basis m q) (basis m p) * P.at2 q j)]
      refine Finset.sum_congr rfl fun p _ => ?_
      rw [← Fin.sum_univ_eq_sum_range fun q =>
        P.at2 p i * (fderiv ℝ (fderiv ℝ f) (toVec m y) (basis m q) (basis m p) * P.at2 q j)]
      refine Finset.sum_congr rfl fun q _ => ?_
      rw [D1_mulVecFn P m n hx p.2 hi, D1_mulVecFn P m n hx q.2 hj, basis_fin, basis_fin, mul_assoc]
    · simp only [Objective.funFreeHvpCond, hPre, Objective.conditionedX, mulVec_ok hP.2 hx,
        mulVec_ok hP.2 hv]
      rw [Objective.funFreeHvp, o.deriv_value _ _ _ _ (hset _ hyl), agHvp_ok hf hF hyl (by simp),
        py_ok_bind]
      exact mulVec_ok hTs (by simp)
    · rw [mulVec_ok (show H.shape = [n, n] from rfl) hv]
      congr 1
      unfold mulVecFn
      apply List.map_congr_left
      intro i hi
      have hi := List.mem_range.mp hi
      have lhs : ∀ j ∈ Finset.range n, H.at2 i j * v.getD j 0 =
          ∑ p ∈ Finset.range m, ∑ q ∈ Finset.range m, P.at2 p i *
            (fderiv ℝ (fderiv ℝ f) (toVec m y) (basis m q) (basis m p) * (P.at2 q j * v.getD j 0)) := by
        intro j hj
        rw [hHval i hi j (Finset.mem_range.mp hj), Finset.sum_mul]
        refine Finset.sum_congr rfl fun p _ => ?_
        rw [Finset.sum_mul]
        exact Finset.sum_congr rfl fun q _ => by ring
      rw [Finset.sum_congr rfl lhs, Finset.sum_comm]
      refine Finset.sum_congr rfl fun p hp => ?_
      have hp := Finset.mem_range.mp hp
      rw [hTat i hi p hp, Finset.sum_comm]
      simp only [List.getD_eq_getElem?_getD, List.getElem?_map, List.getElem?_range, hp,
        Option.map_some, Option.getD_some]
      rw [Finset.mul_sum]
      refine Finset.sum_congr rfl fun q hq => ?_
      have hq := Finset.mem_range.mp hq
      simp only [List.getElem?_range, hq, Option.map_some, Option.getD_some]
      have hsymm : fderiv ℝ (fderiv ℝ f) (toVec m y) (basis m q) (basis m p) =
          fderiv ℝ (fderiv ℝ f) (toVec m y) (basis m p) (basis m q) :=
        (hf.contDiffAt.isSymmSndFDerivAt (by simp)).eq _ _
      rw [← Finset.mul_sum, ← Finset.mul_sum, hsymm]

/-- Without a preconditioner the conditioned methods raise `AssertionError` and change nothing. -/
theorem C46_no_preconditioner (o : Objective A) (h : o.precond = none) (x v : List ℝ) (a : A)
    (vb : Bool) :
    o.funFreeCond x a vb = (o, .error .assertionError) ∧
    o.funFreeGradCond x a = (o, .error .assertionError) ∧
    o.funFreeHessianCond x a = (o, .error .assertionError) ∧
    o.funFreeHvpCond x a v = (o, .error .assertionError) := by
  simp [Objective.funFreeCond, Objective.funFreeGradCond, Objective.funFreeHessianCond,
    Objective.funFreeHvpCond, h]

/-- The hypotheses of C46 are met: the example objective with a `3 × 2` preconditioner.  (The sum of
the entries of the vector, as a function of the free vector, is a smooth function.) -/
example : ∃ (o : Objective Unit) (P : Arr) (f : (Fin 3 → ℝ) → ℝ), o.precond = some P ∧
    IsMat P 3 2 ∧ ContDiff ℝ 2 f ∧ ∀ y : List ℝ, y.length = 3 →
      (o.funFree y () false).2 = .ok (Arr.scalar (f (toVec 3 y))) := by
  obtain ⟨eigh, he⟩ := exists_eigh
  have hw := (exDict_built eigh).wf he
  have hsm := exDict.smooth_ftvP hw
  rw [exDict_freeSize, exDict_vecSize] at hsm
  obtain ⟨Γ, h1, h2, h3⟩ := hsm.exists_fun
  refine ⟨{ exObj with precond := some (Arr.full [3, 2] 1) }, Arr.full [3, 2] 1,
    fun u => ∑ i, Γ u i, rfl, ⟨Arr.full_WF _ _, rfl⟩, ContDiff.sum fun i _ => h1 i, fun y hy => ?_⟩
  rw [Objective.funFree_value]
  refine (exObj_value y hy).trans ?_
  congr 2
  have hl : (exDict.ftvP y).length = 3 := by
    rw [exDict.ftvP_length hw y (by rw [exDict_freeSize]; exact hy), exDict_vecSize]
  have h4 := h2 y hy
  obtain ⟨a, b, c, h⟩ := List.length_eq_three.mp hl
  simp only [← h4]
  simp [h, Fin.sum_univ_three, toVec, add_assoc]

end LRVB
