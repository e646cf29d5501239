import Verif.Props.Precond
import Verif.Lemmas.AgJac
import Verif.Spec.Cross

/-!
# C48: the off-diagonal Hessians of a two-parameter objective
-/

namespace LRVB

variable {A : Type}

theorem TwoObjective.evalFun_ok {o : TwoObjective A} {x1 x2 : List ℝ} {free1 free2 : Bool} {a : A}
    {v : Arr} (h : (o.evalFun x1 x2 free1 free2 a).2 = .ok v) :
    (setPar o.par1 x1 free1).2 = none ∧ (setPar o.par2 x2 free2).2 = none := by
  simp only [TwoObjective.evalFun] at h
  cases h1 : (setPar o.par1 x1 free1).2 with
  | some e => simp [h1] at h
  | none =>
    simp only [h1] at h
    cases h2 : (setPar o.par2 x2 free2).2 with
    | some e => simp [h2] at h
    | none => exact ⟨rfl, rfl⟩

theorem TwoObjective.cacheAndEval_ok {β : Type} (o : TwoObjective A) {x1 x2 : List ℝ}
    {free1 free2 t1 t2 : Bool} {ag : Py β} {v : β} (ha : ag = .ok v)
    (h1 : (setPar o.par1 x1 free1).2 = none) (h2 : (setPar o.par2 x2 free2).2 = none) :
    o.cacheAndEval x1 x2 free1 free2 t1 t2 ag =
      ({ o with par1 := (setPar o.par1 x1 free1).1, par2 := (setPar o.par2 x2 free2).1 }, .ok v) := by
  have b1 : (o.trace x1 x2 free1 free2 t1 t2).par1.blank = o.par1.blank := by
    simp only [TwoObjective.trace, h1, h2]
    split
    · rw [Param.mark_blank, setPar_blank]
    · rw [setPar_blank]
  have b2 : (o.trace x1 x2 free1 free2 t1 t2).par2.blank = o.par2.blank := by
    simp only [TwoObjective.trace, h1, h2]
    split
    · rw [Param.mark_blank, setPar_blank]
    · rw [setPar_blank]
  have e1 := setPar_eq b1.symm h1
  have e2 := setPar_eq b2.symm h2
  have e3 : (o.trace x1 x2 free1 free2 t1 t2).fn = o.fn := by
    simp only [TwoObjective.trace, h1, h2]
  simp only [TwoObjective.cacheAndEval, ha, e1, h1, e2, h2, e3]

/-- **C48** Let the objective compute `f(x1, x2)` from vectors of lengths `n1` and `n2` in the given
parameterizations, with `f` twice continuously differentiable.  Then at every point the (1,2) Hessian
is the matrix of mixed partial derivatives, the (2,1) Hessian is its transpose, and afterwards both
parameters hold the evaluation point, as plain numbers. -/
theorem C48_off_diagonal (o : TwoObjective A) (a : A) (free1 free2 : Bool) (n1 n2 : ℕ)
    (hn1 : 0 < n1) (hn2 : 0 < n2) (f : (Fin n1 → ℝ) × (Fin n2 → ℝ) → ℝ) (hf : ContDiff ℝ 2 f)
    (hval : ∀ y1 y2 : List ℝ, y1.length = n1 → y2.length = n2 →
      (o.evalFun y1 y2 free1 free2 a).2 = .ok (Arr.scalar (f (toVec n1 y1, toVec n2 y2))))
    (x1 x2 : List ℝ) (h1 : x1.length = n1) (h2 : x2.length = n2) :
    ∃ H12 H21, (o.hessian12 x1 x2 free1 free2 a).2 = .ok H12 ∧
      (o.hessian21 x1 x2 free1 free2 a).2 = .ok H21 ∧
      IsCrossHessian (fun y1 y2 => (o.evalFun y1 y2 free1 free2 a).2) n1 n2 x1 x2 H12 ∧
      IsMat H21 n2 n1 ∧ (∀ i < n1, ∀ j < n2, H12.at2 i j = H21.at2 j i) ∧
      (∀ o' ∈ [(o.hessian12 x1 x2 free1 free2 a).1, (o.hessian21 x1 x2 free1 free2 a).1],
        setPar o.par1 x1 free1 = (o'.par1, none) ∧ setPar o.par2 x2 free2 = (o'.par2, none) ∧
        o'.par1.Plain ∧ o'.par2.Plain) := by
  obtain ⟨s1, s2⟩ := TwoObjective.evalFun_ok (hval x1 x2 h1 h2)
  have e12 := o.cacheAndEval_ok (t1 := true) (t2 := true)
    (agHessian12_ok (F := o.valueAt free1 free2 a) hf hval h1 h2 hn1) s1 s2
  have e21 := o.cacheAndEval_ok (t1 := true) (t2 := true)
    (agHessian21_ok (F := o.valueAt free1 free2 a) hf hval h1 h2 hn2) s1 s2
  refine ⟨_, _, by rw [TwoObjective.hessian12, e12], by rw [TwoObjective.hessian21, e21],
    ⟨⟨Arr.ofFn2_WF _ _ _, rfl⟩, ?_⟩, ⟨Arr.ofFn2_WF _ _ _, rfl⟩, ?_, ?_⟩
  · intro i hi j hj
    rw [Arr.at2_ofFn2 _ _ _ hi hj]
    refine ⟨fun s => fderiv ℝ f (toVec n1 x1, toVec n2 (x2.set j s)) (basis n1 i, 0), ?_, ?_⟩
    · intro s
      have hl : (x2.set j s).length = n2 := by simpa using h2
      refine ⟨fun t => f (toVec n1 (x1.set i t), toVec n2 (x2.set j s)), fun t => ?_, ?_⟩
      · refine ⟨[f (toVec n1 (x1.set i t), toVec n2 (x2.set j s))], ?_, rfl⟩
        simp only
        rw [hval _ _ (by simpa using h1) hl]; rfl
      · have := pd_hasDerivAt (h := fun y => f (toVec n1 y, toVec n2 (x2.set j s)))
          ((contDiff_left hf (toVec n2 (x2.set j s))).differentiable (by norm_num))
          (fun _ _ => rfl) h1 hi
        rwa [fderiv_left hf] at this
    · have hd : Differentiable ℝ fun v => fderiv ℝ f (toVec n1 x1, v) (basis n1 i, 0) :=
        fun v => (grad1_hasFDerivAt hf _ _ v).differentiableAt
      have := pd_hasDerivAt (h := fun y => fderiv ℝ f (toVec n1 x1, toVec n2 y) (basis n1 i, 0))
        hd (fun _ _ => rfl) h2 hj
      rw [(grad1_hasFDerivAt hf _ _ _).fderiv] at this
      simpa using this
  · intro i hi j hj
    rw [Arr.at2_ofFn2 _ _ _ hi hj, Arr.at2_ofFn2 _ _ _ hj hi]
    exact (hf.contDiffAt.isSymmSndFDerivAt (by simp)).eq _ _
  · intro o' ho
    have p1 := setPar_plain _ _ _ s1
    have p2 := setPar_plain _ _ _ s2
    simp only [List.mem_cons, List.not_mem_nil, or_false] at ho
    rcases ho with rfl | rfl
    · rw [TwoObjective.hessian12, e12]
      exact ⟨Prod.ext rfl s1, Prod.ext rfl s2, p1, p2⟩
    · rw [TwoObjective.hessian21, e21]
      exact ⟨Prod.ext rfl s1, Prod.ext rfl s2, p1, p2⟩

/-- **C48** for the methods in which both arguments are free vectors. -/
theorem C48_free (o : TwoObjective A) (a : A) (n1 n2 : ℕ) (hn1 : 0 < n1) (hn2 : 0 < n2)
    (f : (Fin n1 → ℝ) × (Fin n2 → ℝ) → ℝ) (hf : ContDiff ℝ 2 f)
    (hval : ∀ y1 y2 : List ℝ, y1.length = n1 → y2.length = n2 →
      (o.funFree y1 y2 a).2 = .ok (Arr.scalar (f (toVec n1 y1, toVec n2 y2))))
    (x1 x2 : List ℝ) (h1 : x1.length = n1) (h2 : x2.length = n2) :
    ∃ H12 H21, (o.funFreeHessian12 x1 x2 a).2 = .ok H12 ∧ (o.funFreeHessian21 x1 x2 a).2 = .ok H21 ∧
      IsCrossHessian (fun y1 y2 => (o.funFree y1 y2 a).2) n1 n2 x1 x2 H12 ∧
      IsMat H21 n2 n1 ∧ (∀ i < n1, ∀ j < n2, H12.at2 i j = H21.at2 j i) ∧
      (∀ o' ∈ [(o.funFreeHessian12 x1 x2 a).1, (o.funFreeHessian21 x1 x2 a).1],
        o.par1.setFree x1 = (o'.par1, none) ∧ o.par2.setFree x2 = (o'.par2, none) ∧
        o'.par1.Plain ∧ o'.par2.Plain) :=
  C48_off_diagonal o a true true n1 n2 hn1 hn2 f hf hval x1 x2 h1 h2

/-- **C48** for the methods in which both arguments are vectors. -/
theorem C48_vector (o : TwoObjective A) (a : A) (n1 n2 : ℕ) (hn1 : 0 < n1) (hn2 : 0 < n2)
    (f : (Fin n1 → ℝ) × (Fin n2 → ℝ) → ℝ) (hf : ContDiff ℝ 2 f)
    (hval : ∀ y1 y2 : List ℝ, y1.length = n1 → y2.length = n2 →
      (o.funVector y1 y2 a).2 = .ok (Arr.scalar (f (toVec n1 y1, toVec n2 y2))))
    (x1 x2 : List ℝ) (h1 : x1.length = n1) (h2 : x2.length = n2) :
    ∃ H12 H21, (o.funVectorHessian12 x1 x2 a).2 = .ok H12 ∧
      (o.funVectorHessian21 x1 x2 a).2 = .ok H21 ∧
      IsCrossHessian (fun y1 y2 => (o.funVector y1 y2 a).2) n1 n2 x1 x2 H12 ∧
      IsMat H21 n2 n1 ∧ (∀ i < n1, ∀ j < n2, H12.at2 i j = H21.at2 j i) ∧
      (∀ o' ∈ [(o.funVectorHessian12 x1 x2 a).1, (o.funVectorHessian21 x1 x2 a).1],
        o.par1.setVector x1 = (o'.par1, none) ∧ o.par2.setVector x2 = (o'.par2, none) ∧
        o'.par1.Plain ∧ o'.par2.Plain) :=
  C48_off_diagonal o a false false n1 n2 hn1 hn2 f hf hval x1 x2 h1 h2

/-- **C48** for the two methods with one free and one plain vector. -/
theorem C48_mixed (o : TwoObjective A) (a : A) (n1 n2 : ℕ) (hn1 : 0 < n1) (hn2 : 0 < n2)
    (f g : (Fin n1 → ℝ) × (Fin n2 → ℝ) → ℝ) (hf : ContDiff ℝ 2 f) (hg : ContDiff ℝ 2 g)
    (hfv : ∀ y1 y2 : List ℝ, y1.length = n1 → y2.length = n2 →
      (o.evalFun y1 y2 true false a).2 = .ok (Arr.scalar (f (toVec n1 y1, toVec n2 y2))))
    (hvf : ∀ y1 y2 : List ℝ, y1.length = n1 → y2.length = n2 →
      (o.evalFun y1 y2 false true a).2 = .ok (Arr.scalar (g (toVec n1 y1, toVec n2 y2))))
    (x1 x2 : List ℝ) (h1 : x1.length = n1) (h2 : x2.length = n2) :
    (∃ H o', o.funHessianFree1Vector2 x1 x2 a = (o', .ok H) ∧
      IsCrossHessian (fun y1 y2 => (o.evalFun y1 y2 true false a).2) n1 n2 x1 x2 H ∧
      o.par1.setFree x1 = (o'.par1, none) ∧ o.par2.setVector x2 = (o'.par2, none) ∧
      o'.par1.Plain ∧ o'.par2.Plain) ∧
    (∃ H o', o.funHessianVector1Free2 x1 x2 a = (o', .ok H) ∧
      IsCrossHessian (fun y1 y2 => (o.evalFun y1 y2 false true a).2) n1 n2 x1 x2 H ∧
      o.par1.setVector x1 = (o'.par1, none) ∧ o.par2.setFree x2 = (o'.par2, none) ∧
      o'.par1.Plain ∧ o'.par2.Plain) := by
  obtain ⟨H, _, e, _, hH, _, _, hs⟩ :=
    C48_off_diagonal o a true false n1 n2 hn1 hn2 f hf hfv x1 x2 h1 h2
  obtain ⟨K, _, e', _, hK, _, _, hs'⟩ :=
    C48_off_diagonal o a false true n1 n2 hn1 hn2 g hg hvf x1 x2 h1 h2
  exact ⟨⟨H, _, Prod.ext rfl e, hH, hs _ (Or.inl rfl |> List.mem_cons.mpr)⟩, ⟨K, _, Prod.ext rfl e', hK, hs' _ (Or.inl rfl |> List.mem_cons.mpr)⟩⟩

/-- The example dictionary read through its vector, from either side: the product of the sums. -/
noncomputable def exTwo : TwoObjective Unit :=
  ⟨exDict, exDict, fun _ p q => do
    .ok (Arr.scalar ((← p.getVector).sum * (← q.getVector).sum))⟩

/-- The hypotheses of C48 are met by a product of sums, with free parameters of length 3. -/
example : ∃ f : (Fin 3 → ℝ) × (Fin 3 → ℝ) → ℝ, ContDiff ℝ 2 f ∧
    ∀ y1 y2 : List ℝ, y1.length = 3 → y2.length = 3 →
      (exTwo.evalFun y1 y2 true true ()).2 = .ok (Arr.scalar (f (toVec 3 y1, toVec 3 y2))) := by
  obtain ⟨eigh, he⟩ := exists_eigh
  have hw := (exDict_built eigh).wf he
  have hsm := exDict.smooth_ftvP hw
  rw [exDict_freeSize, exDict_vecSize] at hsm
  obtain ⟨Γ, h1, h2, h3⟩ := hsm.exists_fun
  have hs : ∀ y : List ℝ, y.length = 3 → (exDict.ftvP y).sum = ∑ i, Γ (toVec 3 y) i := by
    intro y hy
    have hl : (exDict.ftvP y).length = 3 := by
      rw [exDict.ftvP_length hw y (by rw [exDict_freeSize]; exact hy), exDict_vecSize]
    have h4 := h2 y hy
    obtain ⟨a, b, c, h⟩ := List.length_eq_three.mp hl
    simp only [← h4]
    simp [h, Fin.sum_univ_three, toVec, add_assoc]
  refine ⟨fun p => (∑ i, Γ p.1 i) * ∑ i, Γ p.2 i, ?_, fun y1 y2 hy1 hy2 => ?_⟩
  · exact (ContDiff.sum fun i _ => (h1 i).comp contDiff_fst).mul
      (ContDiff.sum fun i _ => (h1 i).comp contDiff_snd)
  · have hy1' : y1.length = exDict.freeSize := by rw [exDict_freeSize]; exact hy1
    have hy2' : y2.length = exDict.freeSize := by rw [exDict_freeSize]; exact hy2
    simp only [TwoObjective.evalFun, exTwo, setPar, if_true]
    rw [exDict.setFree_ok hw y1 hy1', exDict.setFree_ok hw y2 hy2']
    simp only
    rw [Param.mark_plain _ (Param.freeP_plain _ _), Param.mark_plain _ (Param.freeP_plain _ _),
      exDict.getVector_freeP hw exDict_hasParams y1 hy1',
      exDict.getVector_freeP hw exDict_hasParams y2 hy2']
    simp only [py_ok_bind]
    rw [← hs y1 hy1, ← hs y2 hy2]

end LRVB
